import Verif.Spec.Dumpable
import Verif.Props.Wellformed
import Verif.Props.Conversion
/-!
# C77: what was loaded can be dumped
-/

namespace TL

variable {W : World} {C : Config} {D : DConfig}

/-- What the outermost part must fulfil. -/
def DumpableTop (W : World) (D : DConfig) (x : Val) : Prop := ¬ Undumpable D x ∧ (D.isodates = true ∨ tzOf x = none) ∧
  ∀ kvs, x = .dict kvs → ∀ p ∈ kvs, KeyLike W D p.1

theorem Dumpable.of_parts {v : Val} (ht : DumpableTop W D v) (hp : ∀ x, PartOf W v x → Dumpable W D x) : Dumpable W D v := by
  intro x hx
  rcases hx.head with rfl | ⟨p, h1, h2⟩
  · exact ht
  · exact hp p h1 x h2

theorem Dumpable.inside {v w : Val} (h : Dumpable W D v) (hw : Inside W v w) : Dumpable W D w := fun x hx => h x (hx.trans hw)

theorem dumpable_prim {v : Val} {p : Prim} (h : typeOf v = .prim p) (hp : p ∈ D.basictypes) : Dumpable W D v := by
  refine .of_parts ?_ (fun x hx => ?_)
  · cases v <;> simp [typeOf] at h <;> subst h <;> exact ⟨fun h => h hp, Or.inr rfl, fun kvs h => by cases h⟩
  · cases v <;> simp [typeOf] at h <;> cases hx

theorem dumpable_pyIter (hf : DumperFor W D C) {v : Val} {xs : List Val} (hv : Dumpable W D v) (h : pyIter v = some xs)  {x : Val} (hx : x ∈ xs) : Dumpable W D x := by
  cases v <;> simp [pyIter] at h <;> subst h
  · exact (List.mem_map.1 hx).elim fun c hc => hc.2 ▸ dumpable_prim (p := .str) rfl hf.str
  · exact (List.mem_map.1 hx).elim fun c hc => hc.2 ▸ dumpable_prim (p := .int) rfl hf.int
  · exact hv.inside (.elem .self hx)
  · obtain ⟨q, hq, rfl⟩ := List.mem_map.1 hx; exact hv.inside (.key (x := q.2) .self hq)
  · obtain ⟨q, hq, rfl⟩ := List.mem_map.1 hx; exact hv.inside (.item (n := q.1) .self hq)

theorem dumpable_dictData (hf : DumperFor W D C) {v : Val} {kvs : List (Val × Val)} (hv : Dumpable W D v) (h : DictData C v kvs) {p : Val × Val} (hp : p ∈ kvs) :
    KeyLike W D p.1 ∧ Dumpable W D p.1 ∧ Dumpable W D p.2 := by
  rcases h with rfl | ⟨fs, rfl, _, rfl⟩
  · exact ⟨(hv _ .self).2.2 _ rfl p hp, hv.inside (.key (x := p.2) .self hp), hv.inside (.val (k := p.1) .self hp)⟩
  · obtain ⟨q, hq, rfl⟩ := List.mem_map.1 hp
    exact ⟨⟨.str, rfl, hf.str⟩, dumpable_prim (p := .str) rfl hf.str, hv.inside (.arg (n := q.1) .self hq)⟩

theorem dumpable_seq {k : SeqKind} {xs : List Val} (h : ∀ x ∈ xs, Dumpable W D x) : Dumpable W D (.seq k xs) := by
  refine .of_parts ⟨fun h => h, Or.inr rfl, fun kvs h => by cases h⟩ (fun x hx => ?_)
  cases hx with | elem hx => exact h x hx

theorem dumpable_dict {kvs : List (Val × Val)} (h : ∀ p ∈ kvs, KeyLike W D p.1 ∧ Dumpable W D p.1 ∧ Dumpable W D p.2) : Dumpable W D (.dict kvs) := by
  refine .of_parts ⟨fun h => h, Or.inr rfl, fun kvs' h' p hp => ?_⟩ (fun x hx => ?_)
  · cases h'; exact (h p hp).1
  · cases hx with
    | key hx => exact (h _ hx).2.1
    | val hx => exact (h _ hx).2.2

theorem mem_setFold {ys : List Val} : ∀ {acc : List Val} {x : Val},
    x ∈ ys.foldl (fun acc y => if acc.any (fun z => pyEq z y) then acc else acc ++ [y]) acc → x ∈ acc ∨ x ∈ ys := by
  induction ys with
  | nil => intro acc x h; exact Or.inl h
  | cons y ys ih =>
    intro acc x h
    rcases ih h with h | h
    · dsimp only at h
      split at h
      · exact Or.inl h
      · rcases List.mem_append.1 h with h | h
        · exact Or.inl h
        · simp at h; subst h; simp
    · simp [h]

theorem dset_all {A B : Val → Prop} {kvs : List (Val × Val)} {k x : Val} (h : ∀ p ∈ kvs, A p.1 ∧ B p.2) (hk : A k) (hx : B x) :
    ∀ p ∈ dset kvs k x, A p.1 ∧ B p.2 := by
  induction kvs with
  | nil => intro p hp; simp [dset] at hp; subst hp; exact ⟨hk, hx⟩
  | cons q kvs ih =>
    intro p hp
    simp only [dset] at hp
    split at hp
    · rcases List.mem_cons.1 hp with rfl | hp
      · exact ⟨(h q (by simp)).1, hx⟩
      · exact h p (by simp [hp])
    · rcases List.mem_cons.1 hp with rfl | hp
      · exact h _ (by simp)
      · exact ih (fun p hp => h p (by simp [hp])) p hp

theorem dictFold_all {A B : Val → Prop} {l : List (Val × Val)} (hl : ∀ p ∈ l, A p.1 ∧ B p.2) : ∀ {acc : List (Val × Val)}, (∀ p ∈ acc, A p.1 ∧ B p.2) →
    ∀ p ∈ l.foldl (fun a q => dset a q.1 q.2) acc, A p.1 ∧ B p.2 := by
  induction l with
  | nil => intro acc h; exact h
  | cons q l ih =>
    intro acc h
    exact ih (fun p hp => hl p (by simp [hp])) (dset_all h (hl q (by simp)).1 (hl q (by simp)).2)

theorem dumpable_enum (hf : DumperFor W D C) (e : Nat) (n : String) : Dumpable W D (.enumv e n) := by
  refine .of_parts ⟨fun h => h, Or.inr rfl, fun kvs h => by cases h⟩ (fun x hx => ?_)
  cases hx with | member hx => exact hf.members e n x hx

theorem dumpable_dt (hf : DumperFor W D C) (hl : W.Lawful) {k : DtKind} {v r : Val} (h : DateOf W k v r) : Dumpable W D r ∧ (dtKind r).isSome := by
  have key : ∀ {r : Val}, (dtKind r).isSome → D.isodates = true ∨ tzOf r = none → Dumpable W D r := by
    intro r h1 h2
    refine .of_parts ⟨?_, h2, ?_⟩ (fun x hx => ?_)
    · cases r <;> first | (cases h1; done) | exact fun h => h
    · intro kvs hk; subst hk; cases h1
    · cases hx <;> cases h1
  rcases h with ⟨x, rfl, h⟩ | ⟨_, xs, is, n, _, _, h⟩
  · have hk : (dtKind r).isSome := by
      have := hl.iso k x r h
      cases k
      · obtain ⟨_, _, _, rfl, _⟩ := this; rfl
      · obtain ⟨_, _, _, _, _, rfl, _⟩ := this; rfl
      · obtain ⟨_, _, _, _, _, _, _, _, rfl, _⟩ := this; rfl
    exact ⟨key hk (hf.zones.imp id (fun hz => hz k x r h)), hk⟩
  · cases k
    · obtain ⟨_, _, _, _, _, _, rfl⟩ := h; exact ⟨key rfl (Or.inr rfl), rfl⟩
    · obtain ⟨_, _, _, _, _, _, rfl⟩ := h; exact ⟨key rfl (Or.inr rfl), rfl⟩
    · obtain ⟨_, _, _, _, _, _, _, _, _, _, _, rfl⟩ := h; exact ⟨key rfl (Or.inr rfl), rfl⟩

theorem enumFirst_member {e : Nat} {v m : Val} (h : EnumFirst W e v m) : ∃ n x, m = .enumv e n ∧ (n, x) ∈ (W.enm e).members := by
  rcases h with ⟨p, hp, rfl, rfl⟩ | ⟨_, i, n, x, hi, _, _, rfl⟩ | ⟨_, n, _, hn, rfl⟩
  · exact ⟨p.1, p.2, rfl, hp⟩
  · exact ⟨n, x, rfl, List.mem_of_getElem? hi⟩
  · obtain ⟨p, hp, rfl⟩ := List.mem_map.1 hn
    exact ⟨p.1, p.2, rfl, hp⟩

theorem secondsOf_td {v r : Val} (h : SecondsOf W v r) : ∃ us, r = .timedelta us := by
  rcases h with ⟨n, _, _, _, rfl⟩ | ⟨b, _, rfl⟩ | ⟨f, us, _, _, rfl⟩ <;> exact ⟨_, rfl⟩

theorem patternOf_pattern {v r : Val} (h : PatternOf W v r) : ∃ x, r = .pattern x ∧ (x = v ∨ r = v) := by
  rcases h with ⟨_, _, rfl⟩ | ⟨⟨x, rfl⟩, rfl⟩
  · exact ⟨v, rfl, Or.inl rfl⟩
  · exact ⟨x, rfl, Or.inr rfl⟩

theorem keyLike_prim {v : Val} {p : Prim} (h : typeOf v = .prim p) (hp : p ∈ D.basictypes) : KeyLike W D v := by
  cases v <;> simp [typeOf] at h <;> exact ⟨p, by simp [typeOf, h], hp⟩

/-- What the conversion makes of keys. -/
theorem Converts.keyLike {F : String → Ty → Prop} (hf : DumperFor W D C) (hl : W.Lawful) {t : Ty} (ht : KeyTy W D F t) : ∀ {v r : Val},
    KeyLike W D v → Converts W C F v t r → KeyLike W D r := by
  induction ht with
  | prim =>
    intro v r hv h
    cases h with
    | exact _ _ => exact hv
    | cast _ hp _ _ hc => exact keyLike_prim (hl.prim _ _ _ hc) (hf.basics _ hp)
  | any => intro v r hv h; cases h; exact hv
  | lit => intro v r hv h; cases h; exact hv
  | enum hm =>
    intro v r hv h
    have key : ∀ {v m : Val} {e : Nat}, (∀ q ∈ (W.enm e).members, ∃ p, typeOf q.2 = .prim p ∧ p ∈ D.basictypes) → EnumFirst W e v m → KeyLike W D m := by
      intro v m e hm h
      obtain ⟨n, x, rfl, hx⟩ := enumFirst_member h
      obtain ⟨y, hy⟩ := Option.isSome_iff_exists.1 ((aget_isSome_iff _ _).2 (List.mem_map.2 ⟨_, hx, rfl⟩))
      obtain ⟨p, hp⟩ := hm _ (aget_mem hy)
      exact ⟨y, p, hy, hp⟩
    cases h with
    | enum h => exact key hm h
    | hint _ _ _ h => exact key hm h
  | dt hi =>
    intro v r hv h
    cases h with
    | dt h =>
      have := (dumpable_dt hf hl h).2
      cases r <;> first | (cases this; done) | exact hi
  | timedelta => intro v r hv h; cases h with | timedelta h => obtain ⟨us, rfl⟩ := secondsOf_td h; trivial
  | pattern => intro v r hv h; cases h with | pattern h => obtain ⟨x, rfl, _⟩ := patternOf_pattern h; trivial
  | strcons => intro v r hv h; cases h with | strcons hc h => obtain ⟨x, rfl⟩ := hl.strcons _ _ _ h; exact hf.strs _ hc
  | newtype _ ih => intro v r hv h; cases h with | newtype h => exact ih hv h
  | union _ ih => intro v r hv h; cases h with | union hu _ h => exact ih _ hu hv h
  | fref _ ih => intro v r hv h; cases h with | fref hu h => exact ih _ hu hv h

theorem ConvertsElem.keyLike {F : String → Ty → Prop} (hf : DumperFor W D C) (hl : W.Lawful) {t : Ty} (ht : KeyTy W D F t) {v r : Val}
    (hv : KeyLike W D v) (h : ConvertsElem W C F v t r) : KeyLike W D r := by
  cases h with
  | conv h => exact h.keyLike hf hl ht hv
  | keep => exact hv

theorem Converts.dumpable {s : LState} {t0 : Ty} (hf : DumperFor W D C) (hl : W.Lawful)
    (hkeys : ∀ kt vt, Meets W C s t0 (.dict kt vt) → KeyTy W D (Denotes W C s t0) kt) {v : Val} {t : Ty} {r : Val}
    (h : Converts W C (Denotes W C s t0) v t r) : Meets W C s t0 t → Dumpable W D v → Dumpable W D r := by
  refine Converts.rec (W := W) (C := C) (F := Denotes W C s t0)
    (motive_1 := fun v t r _ => Meets W C s t0 t → Dumpable W D v → Dumpable W D r)
    (motive_2 := fun v t r _ => Meets W C s t0 t → Dumpable W D v → Dumpable W D r)
    (motive_3 := fun v t r _ => Meets W C s t0 t → Dumpable W D v → Dumpable W D r)
    (motive_4 := fun c kvs f o _ => Meets W C s t0 (.obj c) → f ∈ (W.cls c).fields → (∀ p ∈ kvs, Dumpable W D p.2) → ∀ y, o = some y → Dumpable W D y)
    ?_ ?_ ?_ ?_ ?_ ?_ ?_ ?_ ?_ ?_ ?_ ?_ ?_ ?_ ?_ ?_ ?_ ?_ ?_ ?_ ?_ ?_ ?_ ?_ ?_ ?_ h
  · intro p v _ _ _ hv; exact hv -- exact
  · intro p v r _ hp _ _ hc _ _; exact dumpable_prim (hl.prim _ _ _ hc) (hf.basics _ hp) -- cast
  · intro v _ hv; exact hv -- any
  · intro vs l v _ _ _ hv; exact hv -- lit
  · intro e v m hm _ _; obtain ⟨n, x, rfl, _⟩ := enumFirst_member hm; exact dumpable_enum hf _ _ -- enum
  · intro e v u x m _ _ _ hm _ _ _; obtain ⟨n, x, rfl, _⟩ := enumFirst_member hm; exact dumpable_enum hf _ _ -- hint
  · intro k v r h _ _; exact (dumpable_dt hf hl h).1 -- dt
  · intro v r h _ _ -- timedelta
    obtain ⟨us, rfl⟩ := secondsOf_td h
    exact .of_parts ⟨fun h => h, Or.inr rfl, fun kvs h => by cases h⟩ (fun x hx => by cases hx)
  · intro a v r h _ hv -- pattern
    obtain ⟨x, rfl, rfl | rfl⟩ := patternOf_pattern h
    · exact .of_parts ⟨fun h => h, Or.inr rfl, fun kvs h => by cases h⟩ (fun x hx => by cases hx; exact hv)
    · exact hv
  · intro c v r hc h _ _ -- strcons
    obtain ⟨x, rfl⟩ := hl.strcons _ _ _ h
    exact .of_parts ⟨fun h => h (hf.strs _ hc), Or.inr rfl, fun kvs h => by cases h⟩ (fun x hx => by cases hx)
  · intro k t v l _ _ hi _ ih hg hv -- coll
    refine dumpable_seq (fun x hx => ?_)
    obtain ⟨q, hq, rfl⟩ := List.mem_map.1 hx
    exact ih q hq (.coll hg) (dumpable_pyIter hf hv hi (List.mem_map.2 ⟨q, hq, rfl⟩))
  · intro k t v l _ _ hi _ _ ih hg hv -- set
    refine dumpable_seq (fun x hx => ?_)
    rcases mem_setFold hx with hx | hx
    · cases hx
    · obtain ⟨q, hq, rfl⟩ := List.mem_map.1 hx
      exact ih q hq (.coll hg) (dumpable_pyIter hf hv hi (List.mem_map.2 ⟨q, hq, rfl⟩))
  · intro v l rest _ hi _ _ ih hg hv -- tuple
    refine dumpable_seq (fun x hx => ?_)
    obtain ⟨q, hq, rfl⟩ := List.mem_map.1 hx
    exact ih q hq (.tuple hg (List.mem_map.2 ⟨q, hq, rfl⟩)) (dumpable_pyIter hf hv hi (List.mem_append.2 (Or.inl (List.mem_map.2 ⟨q, hq, rfl⟩))))
  · intro kt vt v l hdata hk _ _ ihk ihv hg hv -- dict
    refine dumpable_dict (fun p hp => ?_)
    have := dictFold_all (A := fun k => KeyLike W D k ∧ Dumpable W D k) (B := Dumpable W D) (l := l.map (·.2)) (acc := []) ?_ (by simp) p hp
    · exact ⟨this.1.1, this.1.2, this.2⟩
    · intro p hp
      obtain ⟨q, hq, rfl⟩ := List.mem_map.1 hp
      obtain ⟨h1, h2, h3⟩ := dumpable_dictData hf hv hdata (List.mem_map.2 ⟨q, hq, rfl⟩)
      refine ⟨⟨?_, ihk q hq (.dictKey hg) h2⟩, ihv q hq (.dictVal hg) h3⟩
      exact (hk q hq).keyLike hf hl (hkeys _ _ hg) h1
  · intro ts u v r hu _ _ ih hg hv; exact ih (.union hg hu) hv -- union
  · intro n u v r hu _ ih hg hv; exact ih hu.1 hv -- fref
  · intro n u v r _ ih hg hv; exact ih (.newtype hg) hv -- newtype
  · intro c v kvs l hk hdata _ hfil hfs _ _ ih hg hv -- typeddict
    refine dumpable_dict (fun p hp => ?_)
    obtain ⟨q, hq, rfl⟩ := List.mem_map.1 hp
    have hm : (Val.str q.1.name, q.2.1) ∈ kvs := by
      have : (Val.str q.1.name, q.2.1) ∈ kvs.filter (fun p => isFieldKey ((W.cls c).fields.map (·.name)) p.1) := by
        rw [hfil]; exact List.mem_map.2 ⟨q, hq, rfl⟩
      exact (List.mem_filter.1 this).1
    exact ⟨⟨.str, rfl, hf.str⟩, dumpable_prim (p := .str) rfl hf.str,
      ih q hq (.field hg (hfs q hq) (.declared (by rw [hk]; intro h; cases h))) (dumpable_dictData hf hv hdata hm).2.2⟩
  · intro c v kvs r l hk hdata _ hfs _ hb ih hg hv -- obj
    have hall : ∀ p ∈ l.filterMap (fun q => q.2.map (fun y => (q.1.name, y))), Dumpable W D p.2 := by
      intro p hp
      obtain ⟨q, hq, hqp⟩ := List.mem_filterMap.1 hp
      cases ho : q.2 with
      | none => rw [ho] at hqp; cases hqp
      | some y =>
        rw [ho] at hqp; cases hqp
        exact ih q hq hg (by rw [hfs]; exact List.mem_map.2 ⟨q, hq, rfl⟩) (fun p hp => (dumpable_dictData hf hv hdata hp).2.2) y ho
    unfold Built at hb
    split at hb
    · cases hb
    · subst hb
      refine .of_parts ⟨fun h => h, Or.inr rfl, fun kvs h => by cases h⟩ (fun x hx => ?_)
      cases hx with | item hx => exact hall _ hx
    all_goals
      obtain ⟨fs', h1, rfl⟩ := hb
      refine .of_parts ⟨fun h => h, Or.inr rfl, fun kvs h => by cases h⟩ (fun x hx => ?_)
      cases hx with | attr hx => exact hf.init _ _ _ h1 hall _ hx
  · intro v t r _ _ ih hg hv; exact ih hg hv
  · intro t v _ hg hv; exact hv
  · intro v t r _ ih hg hv; exact ih hg hv
  · intro p v _ _ hg hv; exact hv
  · intro c kvs f x t y _ hm ht _ ih hg hfm hk y' hy
    cases hy
    exact ih (.field hg hfm ht) (hk _ hm)
  · intro c kvs f d _ hd hg hfm hk y hy
    cases hy
    exact hf.defaults c f hfm d hd
  · intro c kvs f _ _ _ _ _ _ _ y hy; cases hy

/-- What a key is dumped as is hashable. -/
theorem KeyLike.hashable (hdd : D.Default) (hw : W.LegalDefaults) {k : Val} (hk : KeyLike W D k) (hl : Legal W k) {d : Val} {s' : DState}
    (h : Dumps W D {} k .any d s') : W.hash d = true := by
  have hd := (C75_exact hdd hw .new hl).1 ⟨s', h⟩
  have prim : ∀ {x : Val} {p : Prim}, typeOf x = .prim p → W.hash x = true := by
    intro x p hx; cases x <;> simp [typeOf] at hx <;> rfl
  cases hd with
  | basic hp _ => exact prim hp
  | seq => simp [KeyLike, typeOf] at hk
  | copy => simp [KeyLike, typeOf] at hk
  | dict => simp [KeyLike, typeOf] at hk
  | obj ho =>
    rcases ho with ⟨rfl, _⟩ | ⟨rfl, _⟩ <;> simp [KeyLike, typeOf] at hk
  | enum hm hd' =>
    obtain ⟨x, p, hx, hp, hb⟩ := hk
    rw [hm] at hx; cases hx
    have := C75_unique hdd hw (hl.inside (.member .self hm)) hd' (.basic hp hb)
    subst this; exact prim hp
  | iso => rfl
  | date hi => simp [KeyLike, hi] at hk
  | time hi => simp [KeyLike, hi] at hk
  | datetime hi => simp [KeyLike, hi] at hk
  | timedelta => rfl
  | pattern => rcases hl.top with h | h <;> exact prim h
  | strcons => rfl

/-- Where nothing inside is an obstacle, a value that can exist is dumped. -/
theorem Dumpable.dumps (hdd : D.Default) (hw : W.LegalDefaults) (hg : W.GroundedEnums) {s : DState} (hs : DReachable W D s) {v : Val} (hv : Legal W v)
    (h : Dumpable W D v) (a : Ty) : ∃ d s', Dumps W D s v a d s' := by
  refine C51_dumps hdd hg hs hv (fun x hx => (h x hx).1) ?_ (fun kvs hk p hp d s' hd => ?_) a
  · cases hi : D.isodates with
    | true => exact Or.inl rfl
    | false => exact Or.inr (fun x hx => ((h x hx).2.1).resolve_left (by simp [hi]))
  · exact ((h _ hk).2.2 kvs rfl p hp).hashable hdd hw (hv.inside (.key (x := p.2) hk hp)) hd

/-! ## Annotations are kept -/

theorem Truthful.of_parts {v : Val} (ht : ∀ c fs, v = .inst c fs → (W.cls c).kind = .dataclass → ∀ f ∈ (W.cls c).fields, ∀ x, (f.name, x) ∈ fs → TruthfulAt D f.ty x)
    (hp : ∀ x, PartOf W v x → Truthful W D x) : Truthful W D v := by
  intro c fs hx
  rcases hx.head with rfl | ⟨p, h1, h2⟩
  · exact ht c fs rfl
  · exact hp p h1 c fs h2

theorem Truthful.inside {v w : Val} (h : Truthful W D v) (hw : Inside W v w) : Truthful W D w := fun c fs hx => h c fs (hx.trans hw)

theorem truthful_prim {v : Val} {p : Prim} (h : typeOf v = .prim p) : Truthful W D v := by
  refine .of_parts (fun c fs hv => ?_) (fun x hx => ?_)
  · subst hv; cases h
  · cases v <;> simp [typeOf] at h <;> cases hx

theorem truthful_pyIter {v : Val} {xs : List Val} (hv : Truthful W D v) (h : pyIter v = some xs) {x : Val} (hx : x ∈ xs) : Truthful W D x := by
  cases v <;> simp [pyIter] at h <;> subst h
  · exact (List.mem_map.1 hx).elim fun c hc => hc.2 ▸ truthful_prim (p := .str) rfl
  · exact (List.mem_map.1 hx).elim fun c hc => hc.2 ▸ truthful_prim (p := .int) rfl
  · exact hv.inside (.elem .self hx)
  · obtain ⟨q, hq, rfl⟩ := List.mem_map.1 hx; exact hv.inside (.key (x := q.2) .self hq)
  · obtain ⟨q, hq, rfl⟩ := List.mem_map.1 hx; exact hv.inside (.item (n := q.1) .self hq)

theorem truthful_dictData {v : Val} {kvs : List (Val × Val)} (hv : Truthful W D v) (h : DictData C v kvs) {p : Val × Val} (hp : p ∈ kvs) :
    Truthful W D p.1 ∧ Truthful W D p.2 := by
  rcases h with rfl | ⟨fs, rfl, _, rfl⟩
  · exact ⟨hv.inside (.key (x := p.2) .self hp), hv.inside (.val (k := p.1) .self hp)⟩
  · obtain ⟨q, hq, rfl⟩ := List.mem_map.1 hp
    exact ⟨truthful_prim (p := .str) rfl, hv.inside (.arg (n := q.1) .self hq)⟩

theorem truthful_seq {k : SeqKind} {xs : List Val} (h : ∀ x ∈ xs, Truthful W D x) : Truthful W D (.seq k xs) := by
  refine .of_parts (fun c fs h => by cases h) (fun x hx => ?_)
  cases hx with | elem hx => exact h x hx

theorem truthful_dict {kvs : List (Val × Val)} (h : ∀ p ∈ kvs, Truthful W D p.1 ∧ Truthful W D p.2) : Truthful W D (.dict kvs) := by
  refine .of_parts (fun c fs h => by cases h) (fun x hx => ?_)
  cases hx with
  | key hx => exact (h _ hx).1
  | val hx => exact (h _ hx).2

theorem truthful_enum (hh : HonestHints W D) (e : Nat) (n : String) : Truthful W D (.enumv e n) := by
  refine .of_parts (fun c fs h => by cases h) (fun x hx => ?_)
  cases hx with | member hx => exact hh.members e n x hx

/-- The elements of what was converted to a collection of a basic type are of basic types. -/
theorem Converts.truthfulAt {F : String → Ty → Prop} (hl : W.Lawful) {v : Val} {t : Ty} {r : Val} (h : Converts W C F v t r) (hr : Dumpable W D r) : TruthfulAt D t r := by
  intro p k xs he hp hx y hy
  have key : ∃ q, typeOf y = .prim q := by
    have conv : ∀ {a b : Val}, Converts W C F a (.prim p) b → ∃ q, typeOf b = .prim q := by
      intro a b h
      cases h with
      | exact _ h => exact ⟨_, h⟩
      | cast _ _ _ _ h => exact ⟨_, hl.prim _ _ _ h⟩
    have item : ∀ {a b : Val}, ConvertsItem W C F a (.prim p) b → ∃ q, typeOf b = .prim q := by
      intro a b h
      cases h with
      | conv _ h => exact conv h
      | keep h =>
        obtain ⟨q, hq, _, hi⟩ := h
        cases a <;> cases q <;> first | (cases hi; done) | exact ⟨_, rfl⟩
    cases he with
    | coll =>
      cases h with
      | coll _ _ _ hel =>
        cases hx
        obtain ⟨q, hq, rfl⟩ := List.mem_map.1 hy
        exact item (hel q hq)
      | set _ _ _ hel =>
        cases hx
        rcases mem_setFold hy with h | h
        · cases h
        · obtain ⟨q, hq, rfl⟩ := List.mem_map.1 h
          exact item (hel q hq)
    | tuple =>
      generalize hts : ([.prim p] : List Ty) = ts at h
      cases h with
      | tuple _ _ _ hel =>
        cases hx
        obtain ⟨q, hq, rfl⟩ := List.mem_map.1 hy
        have : q.2.1 = .prim p := by
          have : q.2.1 ∈ ([.prim p] : List Ty) := by rw [hts]; exact List.mem_map.2 ⟨q, hq, rfl⟩
          simpa using this
        exact conv (this ▸ hel q hq)
    | pattern =>
      cases h with
      | pattern h => obtain ⟨x, rfl, _⟩ := patternOf_pattern h; cases hx
  obtain ⟨q, hq⟩ := key
  refine ⟨q, hq, ?_⟩
  subst hx
  have hu := (hr y (.elem .self hy)).1
  cases y <;> simp [typeOf] at hq <;> subst hq <;> exact Classical.not_not.1 hu

theorem Converts.truthful {s : LState} {t0 : Ty} (hf : DumperFor W D C) (hh : HonestHints W D) (hm : W.Makes)
    (hkeys : ∀ kt vt, Meets W C s t0 (.dict kt vt) → KeyTy W D (Denotes W C s t0) kt) {v : Val} {t : Ty} {r : Val}
    (h : Converts W C (Denotes W C s t0) v t r) : Meets W C s t0 t → Dumpable W D v → Truthful W D v → Truthful W D r := by
  refine Converts.rec (W := W) (C := C) (F := Denotes W C s t0)
    (motive_1 := fun v t r _ => Meets W C s t0 t → Dumpable W D v → Truthful W D v → Truthful W D r)
    (motive_2 := fun v t r _ => Meets W C s t0 t → Dumpable W D v → Truthful W D v → Truthful W D r)
    (motive_3 := fun v t r _ => Meets W C s t0 t → Dumpable W D v → Truthful W D v → Truthful W D r)
    (motive_4 := fun c kvs f o _ => Meets W C s t0 (.obj c) → f ∈ (W.cls c).fields → (∀ p ∈ kvs, Dumpable W D p.2 ∧ Truthful W D p.2) → ∀ y, o = some y →
      Truthful W D y ∧ ((W.cls c).kind = .dataclass → TruthfulAt D f.ty y))
    ?_ ?_ ?_ ?_ ?_ ?_ ?_ ?_ ?_ ?_ ?_ ?_ ?_ ?_ ?_ ?_ ?_ ?_ ?_ ?_ ?_ ?_ ?_ ?_ ?_ ?_ h
  · intro p v _ _ _ _ hv; exact hv -- exact
  · intro p v r _ hp _ _ hc _ _ _; exact truthful_prim (hm.prim _ _ _ hc) -- cast
  · intro v _ _ hv; exact hv -- any
  · intro vs l v _ _ _ _ hv; exact hv -- lit
  · intro e v m hm _ _ _; obtain ⟨n, x, rfl, _⟩ := enumFirst_member hm; exact truthful_enum hh _ _ -- enum
  · intro e v u x m _ _ _ hm _ _ _ _; obtain ⟨n, x, rfl, _⟩ := enumFirst_member hm; exact truthful_enum hh _ _ -- hint
  · intro k v r h _ _ _ -- dt
    have := (dumpable_dt hf hm.toLawful h).2
    refine .of_parts (fun c fs h => by subst h; cases this) (fun x hx => by cases hx <;> cases this)
  · intro v r h _ _ _ -- timedelta
    obtain ⟨us, rfl⟩ := secondsOf_td h
    exact .of_parts (fun c fs h => by cases h) (fun x hx => by cases hx)
  · intro a v r h _ _ hv -- pattern
    obtain ⟨x, rfl, rfl | rfl⟩ := patternOf_pattern h
    · exact .of_parts (fun c fs h => by cases h) (fun x hx => by cases hx; exact hv)
    · exact hv
  · intro c v r hc h _ _ _ -- strcons
    obtain ⟨x, rfl⟩ := hm.strcons _ _ _ h
    exact .of_parts (fun c fs h => by cases h) (fun x hx => by cases hx)
  · intro k t v l _ _ hi _ ih hg hv ht -- coll
    refine truthful_seq (fun x hx => ?_)
    obtain ⟨q, hq, rfl⟩ := List.mem_map.1 hx
    have hmem : q.1 ∈ l.map (·.1) := List.mem_map.2 ⟨q, hq, rfl⟩
    exact ih q hq (.coll hg) (dumpable_pyIter hf hv hi hmem) (truthful_pyIter ht hi hmem)
  · intro k t v l _ _ hi _ _ ih hg hv ht -- set
    refine truthful_seq (fun x hx => ?_)
    rcases mem_setFold hx with hx | hx
    · cases hx
    · obtain ⟨q, hq, rfl⟩ := List.mem_map.1 hx
      have hmem : q.1 ∈ l.map (·.1) := List.mem_map.2 ⟨q, hq, rfl⟩
      exact ih q hq (.coll hg) (dumpable_pyIter hf hv hi hmem) (truthful_pyIter ht hi hmem)
  · intro v l rest _ hi _ _ ih hg hv ht -- tuple
    refine truthful_seq (fun x hx => ?_)
    obtain ⟨q, hq, rfl⟩ := List.mem_map.1 hx
    have hmem : q.1 ∈ l.map (·.1) ++ rest := List.mem_append.2 (Or.inl (List.mem_map.2 ⟨q, hq, rfl⟩))
    exact ih q hq (.tuple hg (List.mem_map.2 ⟨q, hq, rfl⟩)) (dumpable_pyIter hf hv hi hmem) (truthful_pyIter ht hi hmem)
  · intro kt vt v l hdata _ _ _ ihk ihv hg hv ht -- dict
    refine truthful_dict (fun p hp => ?_)
    refine dictFold_all (A := Truthful W D) (B := Truthful W D) (l := l.map (·.2)) (acc := []) ?_ (by simp) p hp
    intro p hp
    obtain ⟨q, hq, rfl⟩ := List.mem_map.1 hp
    have hmem : q.1 ∈ l.map (·.1) := List.mem_map.2 ⟨q, hq, rfl⟩
    obtain ⟨_, h2, h3⟩ := dumpable_dictData hf hv hdata hmem
    obtain ⟨h4, h5⟩ := truthful_dictData ht hdata hmem
    exact ⟨ihk q hq (.dictKey hg) h2 h4, ihv q hq (.dictVal hg) h3 h5⟩
  · intro ts u v r hu _ _ ih hg hv ht; exact ih (.union hg hu) hv ht -- union
  · intro n u v r hu _ ih hg hv ht; exact ih hu.1 hv ht -- fref
  · intro n u v r _ ih hg hv ht; exact ih (.newtype hg) hv ht -- newtype
  · intro c v kvs l hk hdata _ hfil hfs _ _ ih hg hv ht -- typeddict
    refine truthful_dict (fun p hp => ?_)
    obtain ⟨q, hq, rfl⟩ := List.mem_map.1 hp
    have hmem : (Val.str q.1.name, q.2.1) ∈ kvs := by
      have : (Val.str q.1.name, q.2.1) ∈ kvs.filter (fun p => isFieldKey ((W.cls c).fields.map (·.name)) p.1) := by
        rw [hfil]; exact List.mem_map.2 ⟨q, hq, rfl⟩
      exact (List.mem_filter.1 this).1
    exact ⟨truthful_prim (p := .str) rfl, ih q hq (.field hg (hfs q hq) (.declared (by rw [hk]; intro h; cases h)))
      (dumpable_dictData hf hv hdata hmem).2.2 (truthful_dictData ht hdata hmem).2⟩
  · intro c v kvs r l hk hdata _ hfs _ hb ih hg hv ht -- obj
    have hall : ∀ p ∈ l.filterMap (fun q => q.2.map (fun y => (q.1.name, y))), ∃ f ∈ (W.cls c).fields, p.1 = f.name ∧ Truthful W D p.2 ∧
        ((W.cls c).kind = .dataclass → TruthfulAt D f.ty p.2) := by
      intro p hp
      obtain ⟨q, hq, hqp⟩ := List.mem_filterMap.1 hp
      cases ho : q.2 with
      | none => rw [ho] at hqp; cases hqp
      | some y =>
        rw [ho] at hqp; cases hqp
        have hqf : q.1 ∈ (W.cls c).fields := by rw [hfs]; exact List.mem_map.2 ⟨q, hq, rfl⟩
        exact ⟨q.1, hqf, rfl, ih q hq hg hqf (fun p hp => ⟨(dumpable_dictData hf hv hdata hp).2.2, (truthful_dictData ht hdata hp).2⟩) y ho⟩
    have h1 : ∀ p ∈ l.filterMap (fun q => q.2.map (fun y => (q.1.name, y))), Truthful W D p.2 := by
      intro p hp; obtain ⟨f, _, _, h, _⟩ := hall p hp; exact h
    have h2 : (W.cls c).kind = .dataclass → ∀ f ∈ (W.cls c).fields, ∀ x, (f.name, x) ∈ l.filterMap (fun q => q.2.map (fun y => (q.1.name, y))) →
        TruthfulAt D f.ty x := by
      intro hkd f hff x hx
      obtain ⟨g, hg, hn, _, h⟩ := hall _ hx
      rw [nodup_map_inj (hm.names c) hff hg hn]; exact h hkd
    unfold Built at hb
    split at hb
    · cases hb
    · subst hb
      refine .of_parts (fun c fs h => by cases h) (fun x hx => ?_)
      cases hx with | item hx => exact h1 _ hx
    all_goals
      obtain ⟨fs', h3, rfl⟩ := hb
      obtain ⟨h4, h5⟩ := hh.init c _ _ h3 h1 h2
      refine .of_parts (fun c fs h => by cases h; exact h5) (fun x hx => ?_)
      cases hx with | attr hx => exact h4 _ hx
  · intro v t r _ _ ih hg hv; exact ih hg hv
  · intro t v _ hg _ hv; exact hv
  · intro v t r _ ih hg hv; exact ih hg hv
  · intro p v _ _ hg _ hv; exact hv
  · intro c kvs f x t y _ hmem ht hc ih hg hfm hk y' hy
    cases hy
    obtain ⟨h1, h2⟩ := hk _ hmem
    refine ⟨ih (.field hg hfm ht) h1 h2, fun hkd => ?_⟩
    have := hc.truthfulAt (D := D) hm.toLawful (hc.dumpable hf hm.toLawful hkeys (.field hg hfm ht) h1)
    cases ht with
    | declared => exact this
    | converter _ h => rw [hkd] at h; cases h
    | untyped _ h => rw [hkd] at h; cases h
    | manyHints _ h => rw [hkd] at h; cases h
  · intro c kvs f d _ hd hg hfm hk y hy
    cases hy
    exact hh.defaults c f hfm d hd
  · intro c kvs f _ _ _ _ _ _ _ y hy; cases hy

theorem legal_within {v : Val} (hv : Legal W v) {x : Val} (h : Within v x) : Legal W x := by
  induction h with
  | self => exact hv
  | elem _ hx hm ih => exact legal_pyIter ih hx hm
  | value _ h ih =>
    rcases h with ⟨kvs, k, rfl, h⟩ | ⟨kvs, k, rfl, h⟩
    · exact ih.inside (.val .self h)
    · exact ih.inside (.arg .self h)
  | name => exact legal_str _

theorem Legal.keysDistinct {v : Val} (hv : Legal W v) : KeysDistinct C v := by
  intro x kvs hx hd
  have hl := (legal_within hv hx).top
  unfold strKeys
  rcases hd with rfl | ⟨fs, rfl, _, rfl⟩
  · have h1 : (kvs.map (·.1)).Pairwise (fun a b => pyEq a b = false) := hl.1
    rw [List.pairwise_map] at h1
    refine List.Pairwise.filterMap _ (fun a b hab n hn m hm hnm => ?_) h1
    subst hnm
    rw [strKey_eq] at hn hm
    rw [hn, hm] at hab
    simp [pyEq] at hab
  · have h1 : (fs.map (·.1)).Pairwise (· ≠ ·) := hl
    rw [List.filterMap_map]
    rw [List.pairwise_map] at h1
    refine List.Pairwise.filterMap _ (fun a b hab n hn m hm hnm => ?_) h1
    subst hnm
    simp [strKey] at hn hm
    exact hab (hn.trans hm.symm)

/-- **C77** (partial), with handlers of the user for other types.  What was loaded from data that can be dumped can be dumped again, by any dumper that knows the types the loader knows, whatever both have
done before — if the keys of dictionary types are of types that are dumped as hashable values.
Partial: as for C73, the types met must not run into the handler mix-up of `_dictload` (`DictSafe`), names of fields must be distinct and attrs converters have
a parameter with a type. -/
theorem C77_dumpable_user_partial (hcc : CalmConditions W C)
    (hmk : ∀ i x u, Installed C (.custom i) → Legal W x → (W.customLoad i x u).Makes W) (hdd : D.Default) (hW : W.NeverStops) (hm : W.Makes) (hg : W.GroundedEnums) (hf : DumperFor W D C) {s s' : LState}
    (hs : Reachable W C s) {v : Val} {t : Ty} {r : Val}
    (hus : ∀ u, Meets W C s t u → C.Usual W u)
    (hkeys : ∀ kt vt, Meets W C s t (.dict kt vt) → DictSafe C kt vt ∧ KeyTy W D (Denotes W C s t) kt)
    (hw : ∀ c, Meets W C s t (.obj c) → WFNames C (W.cls c).kind (W.cls c).fields)
    (hatt : ∀ c, Meets W C s t (.obj c) → (W.cls c).kind = .attrs → ∀ f ∈ (W.cls c).fields, ∃ u, FieldTy .attrs f u)
    (hv : Legal W v) (hdv : Dumpable W D v) (h : Loads W C s v t r s') {sd : DState} (hsd : DReachable W D sd) (a : Ty) :
    ∃ d sd', Dumps W D sd r a d sd' := by
  obtain ⟨hh, hp, hP⟩ := h.sem (Meets.closed s t)
    (fun h v t' o hg hs => conversion_step (F' := Denotes W C s t) hcc hW (fun _ _ _ h => h) hus
      (fun kt vt h => (hkeys kt vt h).1.pick_usual (hus _ (.dictKey h)) (hus _ (.dictVal h))) hw hatt h v t' o hg hs)
    (hs.good_meets t) .self
  have hc := (hP hp hv.keysDistinct).1 r rfl
  have hr := C76_wellformed hm hmk hs hv h
  exact (hc.dumpable hf hm.toLawful (fun kt vt h => (hkeys kt vt h).2) .self hdv).dumps hdd hm.defaults hg hsd hr a

/-- **C77** (partial) What was loaded from data that can be dumped can be dumped again, by any dumper that knows the types the loader knows, whatever both have
done before — if the keys of dictionary types are of types that are dumped as hashable values.
Partial: as for C73, the types met must not run into the handler mix-up of `_dictload` (`DictSafe`), names of fields must be distinct and attrs converters have
a parameter with a type. -/
theorem C77_dumpable_partial (hd : C.Default) (hdd : D.Default) (hW : W.NeverStops) (hm : W.Makes) (hg : W.GroundedEnums) (hf : DumperFor W D C) {s s' : LState}
    (hs : Reachable W C s) {v : Val} {t : Ty} {r : Val}
    (hkeys : ∀ kt vt, Meets W C s t (.dict kt vt) → DictSafe C kt vt ∧ KeyTy W D (Denotes W C s t) kt)
    (hw : ∀ c, Meets W C s t (.obj c) → WFNames C (W.cls c).kind (W.cls c).fields)
    (hatt : ∀ c, Meets W C s t (.obj c) → (W.cls c).kind = .attrs → ∀ f ∈ (W.cls c).fields, ∃ u, FieldTy .attrs f u)
    (hv : Legal W v) (hdv : Dumpable W D v) (h : Loads W C s v t r s') {sd : DState} (hsd : DReachable W D sd) (a : Ty) :
    ∃ d sd', Dumps W D sd r a d sd' :=
  C77_dumpable_user_partial hd.calm (fun i _ _ hi _ => absurd hi (not_installed hd i)) hdd hW hm hg hf hs (fun _ _ => hd.usual) hkeys hw hatt hv hdv h hsd a

theorem Plain.dumpable {v : Val} (h : Plain (· ∈ D.basictypes) v) : Dumpable W D v := by
  induction h with
  | basic h hp => exact dumpable_prim h hp
  | list _ ih => exact dumpable_seq ih
  | dict hk _ _ ih =>
    refine dumpable_dict (fun p hp => ?_)
    obtain ⟨q, h1, h2⟩ := hk p hp
    exact ⟨keyLike_prim h1 h2, dumpable_prim h1 h2, ih p hp⟩

theorem Plain.truthful {P : Prim → Prop} {v : Val} (h : Plain P v) : Truthful W D v := by
  induction h with
  | basic h _ => exact truthful_prim h
  | list _ ih => exact truthful_seq ih
  | dict hk _ _ ih => exact truthful_dict (fun p hp => ⟨(hk p hp).elim fun q h => truthful_prim h.1, ih p hp⟩)

/-- **C77** (partial), with handlers of the user for other types.  Plain data, loaded and dumped, is plain data again: `json.dumps(dump(load(json.loads(s), t)))` does not raise.
Partial as above; annotations of dataclasses must not lie about defaults and `__post_init__` (`HonestHints`). -/
theorem C77_plain_user_partial (hcc : CalmConditions W C)
    (hmk : ∀ i x u, Installed C (.custom i) → Legal W x → (W.customLoad i x u).Makes W) (hdd : D.Default) (hW : W.NeverStops) (hm : W.Makes) (hg : W.GroundedEnums) (hf : DumperFor W D C)
    (hh : HonestHints W D) {s s' : LState} (hs : Reachable W C s) {v : Val} {t : Ty} {r : Val}
    (hus : ∀ u, Meets W C s t u → C.Usual W u)
    (hkeys : ∀ kt vt, Meets W C s t (.dict kt vt) → DictSafe C kt vt ∧ KeyTy W D (Denotes W C s t) kt)
    (hw : ∀ c, Meets W C s t (.obj c) → WFNames C (W.cls c).kind (W.cls c).fields)
    (hatt : ∀ c, Meets W C s t (.obj c) → (W.cls c).kind = .attrs → ∀ f ∈ (W.cls c).fields, ∃ u, FieldTy .attrs f u)
    (hv : Plain (· ∈ D.basictypes) v) (h : Loads W C s v t r s') {sd : DState} (hsd : DReachable W D sd) :
    ∃ d sd', Dumps W D sd r .any d sd' ∧ Plain (DumpPrim D) d := by
  obtain ⟨d, sd', hd'⟩ := C77_dumpable_user_partial hcc hmk hdd hW hm hg hf hs hus hkeys hw hatt hv.legal hv.dumpable h hsd .any
  refine ⟨d, sd', hd', ?_⟩
  obtain ⟨hh', hp, hP⟩ := h.sem (Meets.closed s t)
    (fun h v t' o hg hs => conversion_step (F' := Denotes W C s t) hcc hW (fun _ _ _ h => h) hus
      (fun kt vt h => (hkeys kt vt h).1.pick_usual (hus _ (.dictKey h)) (hus _ (.dictVal h))) hw hatt h v t' o hg hs)
    (hs.good_meets t) .self
  have hc := (hP hp (hv.legal (W := W)).keysDistinct).1 r rfl
  have hr := C76_wellformed hm hmk hs hv.legal h
  have hdr := hc.dumpable hf hm.toLawful (fun kt vt h => (hkeys kt vt h).2) .self hv.dumpable
  refine C38_plain hdd hsd hr (hc.truthful hf hh hm (fun kt vt h => (hkeys kt vt h).2) .self hv.dumpable hv.truthful) (fun p hp => ?_) hd'
  rcases hr _ hp with h1 | h1
  · exact Or.inl h1
  · refine Or.inr ?_
    have hu := (hdr p (.source hp)).1
    cases p <;> simp [typeOf] at h1
    exact Classical.not_not.1 hu

/-- **C77** (partial) Plain data, loaded and dumped, is plain data again: `json.dumps(dump(load(json.loads(s), t)))` does not raise.
Partial as above; annotations of dataclasses must not lie about defaults and `__post_init__` (`HonestHints`). -/
theorem C77_plain_partial (hd : C.Default) (hdd : D.Default) (hW : W.NeverStops) (hm : W.Makes) (hg : W.GroundedEnums) (hf : DumperFor W D C)
    (hh : HonestHints W D) {s s' : LState} (hs : Reachable W C s) {v : Val} {t : Ty} {r : Val}
    (hkeys : ∀ kt vt, Meets W C s t (.dict kt vt) → DictSafe C kt vt ∧ KeyTy W D (Denotes W C s t) kt)
    (hw : ∀ c, Meets W C s t (.obj c) → WFNames C (W.cls c).kind (W.cls c).fields)
    (hatt : ∀ c, Meets W C s t (.obj c) → (W.cls c).kind = .attrs → ∀ f ∈ (W.cls c).fields, ∃ u, FieldTy .attrs f u)
    (hv : Plain (· ∈ D.basictypes) v) (h : Loads W C s v t r s') {sd : DState} (hsd : DReachable W D sd) :
    ∃ d sd', Dumps W D sd r .any d sd' ∧ Plain (DumpPrim D) d :=
  C77_plain_user_partial hd.calm (fun i _ _ hi _ => absurd hi (not_installed hd i)) hdd hW hm hg hf hh hs (fun _ _ => hd.usual) hkeys hw hatt hv h hsd

/-- The condition on the types of keys is needed: `load({'ab': 1}, Dict[Tuple[str, ...], List[int]])` is `{('a', 'b'): [1]}`, which dump refuses with a TypeError
(tuples are dumped as lists, which are no keys). -/
theorem C77_tuple_key_counterexample : ∃ r s' e sd', Loads Sample.W Sample.C (fresh []) (.dict [(.str "ab", .list [.int 1])])
      (.dict (.coll .tuple (.prim .str)) (.coll .list (.prim .int))) r s' ∧
    Plain (· ∈ Sample.D.basictypes) (.dict [(.str "ab", .list [.int 1])]) ∧ r = .dict [(.tuple [.str "a", .str "b"], .list [.int 1])] ∧
    DumpRaises Sample.W Sample.D {} r .any e sd' ∧ e.cls = .type := by
  refine ⟨_, _, _, _, ⟨9, rfl⟩, ?_, rfl, ⟨9, rfl⟩, rfl⟩
  refine .dict ?_ ?_ ?_
  · intro q hq; simp at hq; subst hq; exact ⟨.str, rfl, by decide⟩
  · intro q hq; simp at hq; subst hq; exact .list (fun x hx => by simp at hx; subst hx; exact .basic (p := .int) rfl (by decide))
  · unfold Distinct; decide

/-- A program in which every ISO string is new year 2020. -/
def Sample.WI : World := { Sample.W with fromIso := fun k _ => match k with
  | .date => .ok (.date 2020 1 1)
  | _ => .error .value }

/-- Dates as keys: `load({'2020-01-01': [1]}, Dict[date, List[int]])` succeeds, but the default dumper refuses the result, because it dumps dates as lists;
with isodates it dumps it. -/
theorem C77_date_key_counterexample : ∃ r s' e sd', Loads Sample.WI Sample.C (fresh []) (.dict [(.str "2020-01-01", .list [.int 1])])
      (.dict (.dt .date) (.coll .list (.prim .int))) r s' ∧ r = .dict [(.date 2020 1 1, .list [.int 1])] ∧
    DumpRaises Sample.WI Sample.D {} r .any e sd' ∧ e.cls = .type ∧
    ∃ d sd2, Dumps Sample.WI { Sample.D with isodates := true } {} r .any d sd2 :=
  ⟨_, _, _, _, ⟨9, rfl⟩, rfl, ⟨9, rfl⟩, rfl, _, _, ⟨9, rfl⟩⟩

theorem Sample.dumperFor : DumperFor Sample.W Sample.D Sample.C where
  basics := by decide
  none := by decide
  str := by decide
  int := by decide
  strs := by decide
  zones := Or.inr (fun k x v h => by cases h)
  defaults c f hf d hd := by
    match c with
    | 0 =>
      have hf' : f ∈ Sample.clsP.fields := hf
      simp only [Sample.clsP, List.mem_cons, List.not_mem_nil, or_false] at hf'
      rcases hf' with rfl | rfl | rfl <;> cases hd
      exact dumpable_prim (p := .int) rfl (by decide)
    | 1 =>
      have hf' : f ∈ Sample.clsN.fields := hf
      simp only [Sample.clsN, List.mem_cons, List.not_mem_nil, or_false] at hf'
      rcases hf' with rfl | rfl <;> cases hd
      exact dumpable_prim (p := .str) rfl (by decide)
    | 2 | 3 | 4 | 5 | 6 | 7 | 8 =>
      have : f.default = none := by clear hd; revert f; decide
      rw [this] at hd; cases hd
    | n + 9 => cases hf
  members e n x h := by
    have h := aget_mem h
    match e with
    | 0 =>
      simp [Sample.W, Sample.enm] at h
      rcases h with ⟨_, rfl⟩ | ⟨_, rfl⟩
      · exact dumpable_prim (p := .int) rfl (by decide)
      · exact dumpable_prim (p := .str) rfl (by decide)
    | 1 =>
      simp [Sample.W, Sample.enm] at h
      obtain ⟨_, rfl⟩ := h
      refine dumpable_seq (fun x hx => ?_)
      simp at hx
      rcases hx with rfl | rfl <;> exact dumpable_prim (p := .int) rfl (by decide)
    | e + 2 => cases h
  init c fs fs' h hl := by cases h; exact hl

theorem Sample.honestHints : HonestHints Sample.W Sample.D where
  defaults c f hf d hd := by
    match c with
    | 0 =>
      have hf' : f ∈ Sample.clsP.fields := hf
      simp only [Sample.clsP, List.mem_cons, List.not_mem_nil, or_false] at hf'
      rcases hf' with rfl | rfl | rfl <;> cases hd
      exact ⟨truthful_prim (p := .int) rfl, fun _ p k xs h => by cases h⟩
    | 1 =>
      have hf' : f ∈ Sample.clsN.fields := hf
      simp only [Sample.clsN, List.mem_cons, List.not_mem_nil, or_false] at hf'
      rcases hf' with rfl | rfl <;> cases hd
      exact ⟨truthful_prim (p := .str) rfl, fun h => by cases h⟩
    | 2 | 3 | 4 | 5 | 6 | 7 | 8 =>
      have : f.default = none := by clear hd; revert f; decide
      rw [this] at hd; cases hd
    | n + 9 => cases hf
  members e n x h := by
    have h := aget_mem h
    match e with
    | 0 =>
      simp [Sample.W, Sample.enm] at h
      rcases h with ⟨_, rfl⟩ | ⟨_, rfl⟩
      · exact truthful_prim (p := .int) rfl
      · exact truthful_prim (p := .str) rfl
    | 1 =>
      simp [Sample.W, Sample.enm] at h
      obtain ⟨_, rfl⟩ := h
      refine truthful_seq (fun x hx => ?_)
      simp at hx
      rcases hx with rfl | rfl <;> exact truthful_prim (p := .int) rfl
    | e + 2 => cases h
  init c fs fs' h hl ht := by cases h; exact ⟨hl, ht⟩

-- `{'k': [{'x': '5', 'zed': 'q'}]}` loaded into `Dict[str, List[P]]` meets the hypotheses
example : ∃ r s' d sd', Loads Sample.W Sample.C (fresh []) (.dict [(.str "k", .list [.dict [(.str "x", .str "5"), (.str "zed", .str "q")]])])
      (.dict (.prim .str) (.coll .list (.obj 0))) r s' ∧ Dumps Sample.W Sample.D {} r .any d sd' ∧ Plain (DumpPrim Sample.D) d := by
  have h : Loads Sample.W Sample.C (fresh []) (.dict [(.str "k", .list [.dict [(.str "x", .str "5"), (.str "zed", .str "q")]])])
      (.dict (.prim .str) (.coll .list (.obj 0))) _ _ := ⟨9, rfl⟩
  suffices key : ∃ d sd', Dumps Sample.W Sample.D {} _ .any d sd' ∧ Plain (DumpPrim Sample.D) d by
    obtain ⟨d, sd', hd, hp⟩ := key; exact ⟨_, _, d, sd', h, hd, hp⟩
  refine C77_plain_partial (show Sample.C.Default from rfl) (show Sample.D.Default from rfl) Sample.neverStops Sample.makes Sample.groundedEnums Sample.dumperFor Sample.honestHints (.new _ _)
    (fun kt vt h => ?_) (fun c h => ?_) (fun c h => ?_) ?_ h .new
  · rcases Sample.meets_dict h with h | h | h | h | h <;> cases h
    exact ⟨Or.inl rfl, .prim⟩
  · rcases Sample.meets_dict h with h | h | h | h | h <;> cases h
    constructor <;> decide
  · rcases Sample.meets_dict h with h | h | h | h | h <;> cases h
    intro h; cases h
  · have str : ∀ x, Plain (· ∈ Sample.D.basictypes) (.str x) := fun x => .basic (p := .str) rfl (by decide)
    refine .dict ?_ ?_ ?_
    · intro q hq; simp at hq; subst hq; exact ⟨.str, rfl, by decide⟩
    · intro q hq; simp at hq; subst hq
      refine .list (fun x hx => ?_)
      simp at hx; subst hx
      refine .dict ?_ ?_ ?_
      · intro q hq; simp at hq; rcases hq with rfl | rfl <;> exact ⟨.str, rfl, by decide⟩
      · intro q hq; simp at hq; rcases hq with rfl | rfl <;> exact str _
      · unfold Distinct; decide
    · unfold Distinct; decide

theorem Sample.keyLikeB {v : Val} : KeyLike Sample.WB Sample.D v ↔ KeyLike Sample.W Sample.D v := by cases v <;> exact Iff.rfl

theorem Sample.dumpableB {v : Val} : Dumpable Sample.WB Sample.D v ↔ Dumpable Sample.W Sample.D v :=
  ⟨fun h x hx => ⟨(h x (Sample.insideW hx)).1, (h x (Sample.insideW hx)).2.1, fun kvs hk p hp => Sample.keyLikeB.1 ((h x (Sample.insideW hx)).2.2 kvs hk p hp)⟩,
   fun h x hx => ⟨(h x (Sample.insideB hx)).1, (h x (Sample.insideB hx)).2.1, fun kvs hk p hp => Sample.keyLikeB.2 ((h x (Sample.insideB hx)).2.2 kvs hk p hp)⟩⟩

theorem Sample.truthfulB {v : Val} : Truthful Sample.WB Sample.D v ↔ Truthful Sample.W Sample.D v :=
  ⟨fun h c fs hx => h c fs (Sample.insideW hx), fun h c fs hx => h c fs (Sample.insideB hx)⟩

theorem Sample.dumperForB : DumperFor Sample.WB Sample.D Sample.CB where
  basics := by decide
  none := by decide
  str := by decide
  int := by decide
  strs := by decide
  zones := Or.inr (fun k x v h => by cases h)
  defaults c f hf d hd := Sample.dumpableB.2 (Sample.dumperFor.defaults c f hf d hd)
  members e n x h := Sample.dumpableB.2 (Sample.dumperFor.members e n x h)
  init c fs fs' h hl := by cases h; exact hl

theorem Sample.groundedEnumsB : Sample.WB.GroundedEnums := by
  intro e n x h
  have h1 : Grounded Sample.W x := Sample.groundedEnums e n x h
  refine Subrelation.accessible (fun {a b} (hp : PartOf Sample.WB b a) => ?_) h1
  cases hp with
  | elem h => exact .elem h
  | key h => exact .key h
  | val h => exact .val h
  | arg h => exact .arg h
  | item h => exact .item h
  | attr h => exact .attr h
  | member h => exact .member h
  | source => exact .source

theorem Sample.honestHintsB : HonestHints Sample.WB Sample.D where
  defaults c f hf d hd := ⟨Sample.truthfulB.2 (Sample.honestHints.defaults c f hf d hd).1, (Sample.honestHints.defaults c f hf d hd).2⟩
  members e n x h := Sample.truthfulB.2 (Sample.honestHints.members e n x h)
  init c fs fs' h hl ht := by cases h; exact ⟨hl, ht⟩

/-- With a handler of the user for other types: whatever the plain data, what was loaded into `List[Optional[int]]` is dumped as plain data. -/
example (v : Val) (hv : Plain (· ∈ Sample.D.basictypes) v) (r : Val) (s' : LState)
    (h : Loads Sample.WB Sample.CB (fresh []) v (.coll .list (.union [.prim .int, .prim .none])) r s') :
    ∃ d sd', Dumps Sample.WB Sample.D {} r .any d sd' ∧ Plain (DumpPrim Sample.D) d := by
  refine C77_plain_user_partial Sample.calmB (fun i x u _ => Sample.makesB_user i x u) (show Sample.D.Default from rfl)
    ⟨Sample.neverStops.1, Sample.neverStops.2, Sample.neverStops.3, Sample.neverStops.4⟩ Sample.makesB Sample.groundedEnumsB Sample.dumperForB Sample.honestHintsB
    (.new (some []) []) (fun u hu => ?_) (fun _ _ hu => ?_) (fun _ hu => ?_) (fun _ hu => ?_) hv h .new
  · rcases Sample.meets_optional hu with rfl | rfl | rfl | rfl <;> rfl
  · have := Sample.meets_optional hu; simp at this
  · have := Sample.meets_optional hu; simp at this
  · have := Sample.meets_optional hu; simp at this

end TL
