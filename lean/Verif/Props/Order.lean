import Verif.Lemmas.ShuffleAll
import Verif.Props.Strict
import Verif.Props.ThreadsSound
import Verif.Props.ErrorsData
/-!
# C61: the order of the keys in the data does not matter
-/

namespace TL

variable {W : World} {C : Config}

theorem SubCall.mono {F F' : String → Ty → Prop} (hF : ∀ n u, F n u → F' n u) {v x : Val} {t u : Ty} (h : SubCall W C F v t x u) : SubCall W C F' v t x u := by
  cases h with
  | elem a b c => exact .elem a b c
  | item a b c d => exact .item a b c d
  | key a b => exact .key a b
  | val a b => exact .val a b
  | member a b => exact .member a b
  | newtype => exact .newtype
  | hint a => exact .hint a
  | field a b c => exact .field a b c
  | fref a => exact .fref (hF _ _ a)
  | custom a b => exact .custom a b

theorem means_denotes {s : LState} {t : Ty} {n : String} {u : Ty} (h : Means (namesIn W s t) n u) : Denotes W C s t n u := by
  obtain ⟨f, h1, h2⟩ := h
  unfold namesIn at h1
  cases hf : s.frefs with
  | none => rw [hf] at h1; cases h1
  | some fr =>
    rw [hf] at h1
    cases h1
    dsimp only at h2
    cases ha : aget fr n with
    | some w =>
      rw [ha] at h2; cases h2
      have : Bound s n u := ⟨fr, hf, ha⟩
      exact ⟨.known this, Or.inl this⟩
    | none =>
      rw [ha] at h2
      dsimp only at h2
      split at h2
      · rename_i hc
        cases h2
        exact ⟨.self, Or.inr hc.2⟩
      · cases h2

theorem Uses.trans {Γ : Env} {t u w : Ty} (h : Uses W Γ t u) (h' : Uses W Γ u w) : Uses W Γ t w := by
  induction h' with
  | self => exact h
  | coll _ ih => exact .coll ih
  | tuple _ hm ih => exact .tuple ih hm
  | dictKey _ ih => exact .dictKey ih
  | dictVal _ ih => exact .dictVal ih
  | union _ hm ih => exact .union ih hm
  | newtype _ ih => exact .newtype ih
  | enum _ hm ih => exact .enum ih hm
  | field _ h1 h2 ih => exact .field ih h1 h2
  | fref f _ h1 h2 ih => exact .fref f ih h1 h2

theorem Reaches.trans {Γ : Env} {v x y : Val} {t u w : Ty} (h : Reaches W C Γ v t x u) (h' : Reaches W C Γ x u y w) : Reaches W C Γ v t y w := by
  induction h' with
  | self => exact h
  | elem _ a b c ih => exact .elem ih a b c
  | item _ a b c ih => exact .item ih a b c
  | key _ a b ih => exact .key ih a b
  | val _ a b ih => exact .val ih a b
  | member _ a ih => exact .member ih a
  | newtype _ ih => exact .newtype ih
  | hint _ a ih => exact .hint ih a
  | field _ a b c d e ih => exact .field ih a b c d e
  | fref f _ a b ih => exact .fref f ih a b

theorem Steady.part {Γ : Env} {v x : Val} {t u : Ty} (h : Steady W C Γ v t) (hr : Reaches W C Γ v t x u) : Steady W C Γ x u where
  unnamed f n hf hn h0 w hw := h.unnamed f n hf (hr.uses.trans hn) h0 w (hr.uses.trans hw)
  dictSafe k w hk := h.dictSafe k w (hr.uses.trans hk)
  dictColl k w hk := h.dictColl k w (hr.uses.trans hk)
  intKeys d kvs w hd := h.intKeys d kvs w (hr.trans hd)
  intVals d kvs k hd := h.intVals d kvs k (hr.trans hd)

/-- A new loader that knows the names that `s` knows while loading into `t`. -/
def asNew (W : World) (s : LState) (t : Ty) : LState :=
  { frefs := s.frefs.map (fun fr => fr ++ match W.tyName t with
      | some n => if aget s.idx t = none then [(n, t)] else []
      | none => []), tdRew := [] }

theorem asNew_reachable (s : LState) (t : Ty) : Reachable W C (asNew W s t) := Reachable.new _ _

theorem asNew_aget {s : LState} {t : Ty} {f : String → Option Ty} (h : namesIn W s t = some f) :
    ∃ fr, (asNew W s t).frefs = some fr ∧ ∀ n, aget fr n = f n := by
  unfold namesIn at h
  cases hf : s.frefs with
  | none => rw [hf] at h; cases h
  | some fr =>
    rw [hf] at h
    cases h
    refine ⟨_, by simp only [asNew, hf, Option.map_some]; rfl, fun n => ?_⟩
    dsimp only
    rw [aget_append]
    cases aget fr n with
    | some u => rfl
    | none =>
      rw [Option.none_or]
      cases ht : W.tyName t with
      | none => simp [aget]
      | some m =>
        dsimp only
        by_cases hi : aget s.idx t = none
        · by_cases hm : m = n
          · subst hm; simp [hi, aget]
          · simp [hi, aget, hm]
        · simp [hi, aget]

theorem asNew_bound {s : LState} {t : Ty} {n : String} {u : Ty} (h : Bound (asNew W s t) n u) : Bound s n u ∨ (u = t ∧ W.tyName t = some n) := by
  obtain ⟨fr, h1, h2⟩ := h
  cases hf : s.frefs with
  | none => simp [asNew, hf] at h1
  | some fr0 =>
    obtain ⟨fr', h3, h4⟩ := asNew_aget (W := W) (s := s) (t := t) (by unfold namesIn; rw [hf])
    rw [h3] at h1; cases h1
    rw [h4] at h2
    cases ha : aget fr0 n with
    | some w => rw [ha] at h2; cases h2; exact Or.inl ⟨fr0, hf, ha⟩
    | none =>
      rw [ha] at h2
      dsimp only at h2
      split at h2
      · rename_i hc; cases h2; exact Or.inr ⟨rfl, hc.2⟩
      · cases h2

theorem asNew_known {s : LState} {t : Ty} {n : String} {u : Ty} (h : Known W (asNew W s t) n u) : Known W s n u := by
  rcases h with h | h
  · rcases asNew_bound h with h | ⟨rfl, h⟩
    · exact Or.inl h
    · exact Or.inr h
  · exact Or.inr h

theorem asNew_names {s : LState} {t u : Ty} {v : Val} (hv : Steady W C (namesIn W s t) v t) (hu : Uses W (namesIn W s t) t u) :
    SameNames W (namesIn W s t) (namesIn W (asNew W s t) u) u := by
  refine ⟨?_, fun f f' h h' n hn => ?_⟩
  · unfold namesIn asNew
    cases s.frefs <;> simp
  · obtain ⟨fr, h1, h2⟩ := asNew_aget h
    unfold namesIn at h'
    rw [h1] at h'
    cases h'
    dsimp only
    rw [h2]
    cases hf : f n with
    | some w => rfl
    | none =>
      dsimp only
      rw [if_neg]
      rintro ⟨_, h3⟩
      exact hv.unnamed f n h (hu.trans hn) hf u hu h3

theorem uses_meets {s : LState} {t u : Ty} (h : Uses W (namesIn W s t) t u) : Meets W C s t u := by
  induction h with
  | self => exact .self
  | coll _ ih => exact .coll ih
  | tuple _ hm ih => exact .tuple ih hm
  | dictKey _ ih => exact .dictKey ih
  | dictVal _ ih => exact .dictVal ih
  | union _ hm ih => exact .union ih hm
  | newtype _ ih => exact .newtype ih
  | enum _ hm ih => exact .enum ih hm
  | field _ h1 h2 ih => exact .field ih h1 h2
  | fref f _ h1 h2 ih => exact (means_denotes (C := C) ⟨f, h1, h2⟩).1

theorem asNew_meets {s : LState} {t u w : Ty} (hu : Meets W C s t u) (h : Meets W C (asNew W s t) u w) : Meets W C s t w := by
  induction h with
  | self => exact hu
  | known hb =>
    rcases asNew_bound hb with h | ⟨rfl, _⟩
    · exact .known h
    · exact .self
  | coll _ ih => exact .coll ih
  | tuple _ hm ih => exact .tuple ih hm
  | dictKey _ ih => exact .dictKey ih
  | dictVal _ ih => exact .dictVal ih
  | union _ hm ih => exact .union ih hm
  | newtype _ ih => exact .newtype ih
  | enum _ hm ih => exact .enum ih hm
  | field _ h1 h2 ih => exact .field ih h1 h2
  | custom h1 _ h3 ih => exact .custom h1 ih h3

theorem Sturdy.mono {F F' : String → Ty → Prop} (hF : ∀ n u, F n u → F' n u) {t : Ty} (h : Sturdy W C F' t) : Sturdy W C F t := by
  cases t <;> first | exact h | exact fun hu => h (hu.mono hF)

theorem Within.shuf {v v' x : Val} (hvv : Shuf v v') (h : Within v x) : ∃ x', Within v' x' ∧ Shuf x x' := by
  induction h with
  | self => exact ⟨v', .self, hvv⟩
  | @elem w xs x _ hi hx ih =>
    obtain ⟨w', hw, hs⟩ := ih
    cases hd : w.isDict with
    | false =>
      rcases hs.pyIter hd with ⟨h7, _⟩ | ⟨xs', ys, h7, h8, hz⟩
      · rw [hi] at h7; cases h7
      · rw [hi] at h7; cases h7
        obtain ⟨y, hy, hs⟩ := hz.mem_left hx
        exact ⟨y, .elem hw h8 hy, hs⟩
    | true =>
      cases w <;> cases hd
      rename_i kvs
      cases hi
      obtain ⟨p, hp, rfl⟩ := List.mem_map.1 hx
      obtain ⟨kvs', q, h7, h8, h9, _⟩ := hs.item (C := {}) (Or.inl rfl) hp
      exact ⟨q.1, (h7.both_within h8 hw).1, h9 ▸ .same⟩
  | value _ hv ih =>
    obtain ⟨w', hw, hs⟩ := ih
    rcases hv with ⟨kvs, k, rfl, hp⟩ | ⟨kvs, k, rfl, hp⟩
    · obtain ⟨kvs', q, h7, h8, _, h9⟩ := hs.item (C := {}) (Or.inl rfl) hp
      exact ⟨q.2, (h7.both_within h8 hw).2, h9⟩
    · cases hs
      exact ⟨_, .value hw (Or.inr ⟨_, _, rfl, hp⟩), .same⟩
  | name _ hn ih =>
    obtain ⟨w', hw, hs⟩ := ih
    cases hs
    exact ⟨_, .name hw hn, .same⟩

theorem StringKeys.shuf {v v' : Val} (h : StringKeys C v) (hvv : Shuf v v') : StringKeys C v' := by
  intro hf x kvs p hx hd hp
  obtain ⟨x', hx', hs⟩ := hx.shuf hvv.symm
  obtain ⟨kvs', q, h1, h2, h3, _⟩ := hs.item hd hp
  rw [h3]
  exact h hf _ _ _ hx' h1 h2

theorem StringKeys.part {v x : Val} (h : StringKeys C v) (hx : Within v x) : StringKeys C x :=
  fun hf _ _ _ hy hd hp => h hf _ _ _ (hx.trans hy) hd hp

/-- Sturdy types raise only typedload's exceptions. -/
theorem declines_tl (hd : C.Default) (h1 : W.NotRequiredLaw) (h2 : W.SteadyTags) (hl : W.Lawful) {s : LState} {v x : Val} {t u : Ty}
    (hst : ∀ u, Meets W C s t u → Sturdy W C (Known W s) u) (hv : Steady W C (namesIn W s t) v t) (hfe : StringKeys C v)
    (hr : Reaches W C (namesIn W s t) v t x u) {e : Exc}
    (he : Declines W C (namesIn W s t) x u e) : e.isTL = true := by
  obtain ⟨h, hp, N, hN⟩ := he
  cases htl : e.isTL with
  | true => rfl
  | false =>
    have hload : Ref.load W C (namesIn W s t) N x u () = .err (.plain .assertion) () := by
      have := hN N (Nat.le_refl _)
      simp only [Ref.load, Ref.loadWith, Ref.resolve, hp, M.bind_apply, M.pure_apply, M.rescue, this, htl]
      rfl
    obtain ⟨s', hraise⟩ := (raises_ref hd h1 h2 (asNew_reachable s t) (asNew_names hv hr.uses) (hv.part hr) _).2 ⟨N, hload⟩
    exact absurd (C05_sturdy_keys hd hl (asNew_reachable s t) (hfe.part hr.within) (fun w hw => (hst w (asNew_meets (uses_meets hr.uses) hw)).mono (fun _ _ => asNew_known)) hraise) (by decide)

/-- **C61** Data that differs only in the order of the keys of its dictionaries, at any depth, is loaded into the same value (up to the order of the keys
of the dictionaries in it), or refused in both orders.

Asked for: the conversions called from outside (`str(x)` with basiccast, classes built from strings, constructors with a `__post_init__`) do not look at
the order; different keys remain different (`{"1": a, "01": b}` into `Dict[int, A]` keeps the last); no handler raises an exception that passes through a
union.  The first three are about the functions called, the others are needed because the first or last entry wins. -/
theorem C61_key_order_partial (hd : C.Default) (h1 : W.NotRequiredLaw) (h2 : W.SteadyTags) {s : LState} (hs : Reachable W C s) {v v' : Val} {t : Ty}
    (hv : Steady W C (namesIn W s t) v t) (hu : Unordered W C (namesIn W s t) v v' t)
    (hend : ∀ w, Within v w → ∀ u, Meets W C s t u → ¬ Endless (Retry W C s t w) u) (hvv : Shuf v v') :
    (∃ r r' s1 s2, Loads W C s v t r s1 ∧ Loads W C s v' t r' s2 ∧ Shuf r r') ∨
    ∃ e e' s1 s2, Raises W C s v t e s1 ∧ Raises W C s v' t e' s2 := by
  have hv' := hv.shuf hvv
  have hacc := acc_calls (W := W) (C := C) (s := s) (t := t) (v.wt + 1) v (by omega)
    (fun i hi _ _ _ _ _ _ ha => absurd ha (Config.Default.standalone hd i hi _ _ _ _)) (fun w hw u hu => acc_of_not_endless (hend w hw u hu)) t .self
  have hacc' : Acc (fun q p : Val × Ty => SubCall W C (Means (namesIn W s t)) p.1 p.2 q.1 q.2) (v, t) :=
    Subrelation.accessible (fun h => h.mono (fun _ _ => means_denotes)) hacc
  have ha : Agree Shuf (fun n => Ref.load W C (namesIn W s t) n v t) (fun n => Ref.load W C (namesIn W s t) n v' t) :=
    Agree.loadWith (fun h hp => Agree.runOrder hd hu hacc' v' h .self .self hvv hp)
  rcases ha with ⟨r, r', ⟨N, h3⟩, ⟨N', h4⟩, h5⟩ | ⟨⟨e, N, h3⟩, ⟨e', N', h4⟩⟩
  · obtain ⟨s1, h6⟩ := (loads_ref hd h1 h2 hs (SameNames.refl _ _) hv r).2 ⟨N, h3 N (Nat.le_refl _)⟩
    obtain ⟨s2, h7⟩ := (loads_ref hd h1 h2 hs (SameNames.refl _ _) hv' r').2 ⟨N', h4 N' (Nat.le_refl _)⟩
    exact Or.inl ⟨r, r', s1, s2, h6, h7, h5⟩
  · obtain ⟨s1, h6⟩ := (raises_ref hd h1 h2 hs (SameNames.refl _ _) hv e).2 ⟨N, h3 N (Nat.le_refl _)⟩
    obtain ⟨s2, h7⟩ := (raises_ref hd h1 h2 hs (SameNames.refl _ _) hv' e').2 ⟨N', h4 N' (Nat.le_refl _)⟩
    exact Or.inr ⟨e, e', s1, s2, h6, h7⟩


theorem basicload_strict_str (hbc : C.basiccast = false) {Γ : Env} {n : Nat} {x y : Val} (h : Ref.run W C Γ n .basicload x (.prim .str) () = .ok y ()) :
    y = x ∧ ∃ a, x = .str a := by
  cases n with
  | zero => cases h
  | succ n =>
    change ofL (TL.basicload W C x (.prim .str)) () = _ at h
    by_cases ht : typeOf x = .prim .str
    · have hx : ∃ a, x = .str a := by cases x <;> simp [typeOf] at ht; exact ⟨_, rfl⟩
      obtain ⟨a, rfl⟩ := hx
      cases h; exact ⟨rfl, a, rfl⟩
    · simp [ofL, TL.basicload, ht, hbc] at h

/-- **C61** for the strict configuration: with `basiccast=False` and types that are sturdy (see `C05_sturdy`), whose dictionaries have strings for
keys, the order of the keys in the data does not matter.  (With `failonextra`, the keys in the data must be strings.) -/
theorem C61_strict (hd : C.Default) (h1 : W.NotRequiredLaw) (h2 : W.SteadyTags) (hl : W.Lawful) (hbc : C.basiccast = false)
    {s : LState} (hs : Reachable W C s) {v v' : Val} {t : Ty} (hst : ∀ u, Meets W C s t u → Sturdy W C (Known W s) u)
    (hcls : ∀ c, Meets W C s t (.obj c) → WFNames C (W.cls c).kind (W.cls c).fields ∧ OrderlessInit W c)
    (hk : ∀ k u, Meets W C s t (.dict k u) → k = .prim .str)
    (hcall : ∀ c, Meets W C s t (.strcons c) → ∀ x x', Shuf x x' → Alike Shuf (W.call (.strcons c) x) (W.call (.strcons c) x'))
    (hmiss : ∀ e, Meets W C s t (.enum e) → ∀ a b, Shuf a b → W.missing e a = W.missing e b)
    (hv : Steady W C (namesIn W s t) v t) (hfe : StringKeys C v) (hkeys : ∀ x kvs, Within v x → DictData C x kvs → (kvs.map (·.1)).Nodup)
    (hend : ∀ w, Within v w → ∀ u, Meets W C s t u → ¬ Endless (Retry W C s t w) u) (hvv : Shuf v v') :
    (∃ r r' s1 s2, Loads W C s v t r s1 ∧ Loads W C s v' t r' s2 ∧ Shuf r r') ∨
    ∃ e e' s1 s2, Raises W C s v t e s1 ∧ Raises W C s v' t e' s2 := by
  refine C61_key_order_partial hd h1 h2 hs hv ?_ hend hvv
  have crash : ∀ {v}, Steady W C (namesIn W s t) v t → StringKeys C v → NoCrash W C (namesIn W s t) v t := fun hv hfe => {
    member := fun x us u e hr hu he => declines_tl hd h1 h2 hl hst hv hfe (.member hr hu) he
    elem := fun w k u xs x e hr h3 h4 h5 he => by
      have := declines_tl hd h1 h2 hl hst hv hfe (.elem hr h3 h4 h5) he
      intro hc
      unfold Exc.isTL at this
      rw [hc] at this
      cases this }
  refine ⟨crash hv hfe, crash (hv.shuf hvv) (hfe.shuf hvv), ?_, ?_, fun x c hr => (hcls c (uses_meets hr.uses)).2, fun x c hr => (hcls c (uses_meets hr.uses)).1, ?_⟩
  · intro w kvs k u hr hdd
    have := hk k u (uses_meets hr.uses)
    subst this
    have hbec : ∀ x y, Becomes W C (namesIn W s t) x (.prim .str) y → y = x ∧ ∃ a, x = .str a := by
      intro x y hy
      rcases hy with ⟨⟨p, hp, _, hi⟩, rfl⟩ | ⟨h, hp, N, hN⟩
      · cases hp
        refine ⟨rfl, ?_⟩
        cases y <;> simp [isInst] at hi
        exact ⟨_, rfl⟩
      · by_cases hb : Prim.str ∈ C.basictypes
        · rw [pick_basic hd hb (by decide)] at hp; cases hp
          exact basicload_strict_str hbc (hN N (Nat.le_refl _))
        · rw [pick_prim_none hd hb (by decide)] at hp; cases hp
    have hnd := hkeys w kvs hr.within hdd
    rw [List.Nodup, List.pairwise_map] at hnd
    refine hnd.imp (fun {p q} hpq a b ha hb => ?_)
    obtain ⟨rfl, x, hx⟩ := hbec _ _ ha
    obtain ⟨rfl, y, hy⟩ := hbec _ _ hb
    rw [hx, hy] at hpq ⊢
    have : x ≠ y := fun h => hpq (by rw [h])
    simp [pyEq, this, Ne.symm this]
  · intro x x' u hr _ hxx
    cases u with
    | prim p => intro h; rw [hbc] at h; cases h
    | strcons c => exact hcall c (uses_meets hr.uses) x x' hxx
    | enum e => exact hmiss e (uses_meets hr.uses)
    | dt k => exact (hst _ (uses_meets hr.uses)).elim
    | _ => trivial
  · intro x u kvs hr hdd
    have hnd := hkeys x kvs hr.within hdd
    unfold strKeys
    clear hdd
    induction kvs with
    | nil => exact List.nodup_nil
    | cons p kvs ih =>
      rw [List.map_cons, List.nodup_cons] at hnd
      rw [List.filterMap_cons]
      cases hsk : strKey p.1 with
      | none => exact ih hnd.2
      | some n =>
        refine List.nodup_cons.2 ⟨fun hm => ?_, ih hnd.2⟩
        obtain ⟨q, hq, he⟩ := List.mem_filterMap.1 hm
        have h3 : p.1 = .str n := strKey_eq.1 hsk
        have h4 : q.1 = .str n := strKey_eq.1 he
        exact hnd.1 (List.mem_map.2 ⟨q, hq, by rw [h3, h4]⟩)

/-- **C61** for what `json.loads` returns, with any value of `failonextra`: keys are strings, and different. -/
theorem C61_json (hd : C.Default) (h1 : W.NotRequiredLaw) (h2 : W.SteadyTags) (hl : W.Lawful) (hbc : C.basiccast = false)
    {s : LState} (hs : Reachable W C s) {v v' : Val} (hj : Json v) {t : Ty} (hst : ∀ u, Meets W C s t u → Sturdy W C (Known W s) u)
    (hcls : ∀ c, Meets W C s t (.obj c) → WFNames C (W.cls c).kind (W.cls c).fields ∧ OrderlessInit W c)
    (hk : ∀ k u, Meets W C s t (.dict k u) → k = .prim .str)
    (hcall : ∀ c, Meets W C s t (.strcons c) → ∀ x x', Shuf x x' → Alike Shuf (W.call (.strcons c) x) (W.call (.strcons c) x'))
    (hmiss : ∀ e, Meets W C s t (.enum e) → ∀ a b, Shuf a b → W.missing e a = W.missing e b)
    (hv : Steady W C (namesIn W s t) v t)
    (hend : ∀ w, Within v w → ∀ u, Meets W C s t u → ¬ Endless (Retry W C s t w) u) (hvv : Shuf v v') :
    (∃ r r' s1 s2, Loads W C s v t r s1 ∧ Loads W C s v' t r' s2 ∧ Shuf r r') ∨
    ∃ e e' s1 s2, Raises W C s v t e s1 ∧ Raises W C s v' t e' s2 := by
  refine C61_strict hd h1 h2 hl hbc hs hst hcls hk hcall hmiss hv hj.stringKeys (fun x kvs hx hdd => ?_) hend hvv
  have hjx := hj.within hx
  rcases hdd with rfl | ⟨_, rfl, _, _⟩
  · cases hjx with
    | object _ h _ => exact h
  · cases hjx

/-! ## The hypotheses are met -/

theorem Sample.meets_nodeS {u : Ty} (h : Meets Sample.W Sample.strict (fresh []) (.obj 7) u) :
    u = .obj 7 ∨ u = .prim .int ∨ u = .union [.fref "Node", .prim .none] ∨ u = .fref "Node" ∨ u = .prim .none := by
  refine Sample.meets_node ?_
  induction h with
  | self => exact .self
  | known h => exact .known h
  | coll _ ih => exact .coll ih
  | tuple _ hm ih => exact .tuple ih hm
  | dictKey _ ih => exact .dictKey ih
  | dictVal _ ih => exact .dictVal ih
  | union _ hm ih => exact .union ih hm
  | newtype _ ih => exact .newtype ih
  | enum _ hm ih => exact .enum ih hm
  | field _ h1 h2 ih => exact .field ih h1 h2
  | custom hi _ _ => exact absurd hi (not_installed (C := Sample.strict) rfl _)

/-- The hypotheses of `C61_strict` about the types, for the class `Node`, and about its steadiness and termination, whatever the data. -/
theorem Sample.node_orderless (v : Val) : (∀ u, Meets Sample.W Sample.strict (fresh []) (.obj 7) u → Sturdy Sample.W Sample.strict (Known Sample.W (fresh [])) u) ∧
    (∀ c, Meets Sample.W Sample.strict (fresh []) (.obj 7) (.obj c) → WFNames Sample.strict (Sample.W.cls c).kind (Sample.W.cls c).fields ∧ OrderlessInit Sample.W c) ∧
    (∀ k u, Meets Sample.W Sample.strict (fresh []) (.obj 7) (.dict k u) → k = .prim .str) ∧
    (∀ c, Meets Sample.W Sample.strict (fresh []) (.obj 7) (.strcons c) → ∀ x x', Shuf x x' → Alike Shuf (Sample.W.call (.strcons c) x) (Sample.W.call (.strcons c) x')) ∧
    Steady Sample.W Sample.strict (namesIn Sample.W (fresh []) (.obj 7)) v (.obj 7) ∧
    (∀ w, Within v w → ∀ u, Meets Sample.W Sample.strict (fresh []) (.obj 7) u → ¬ Endless (Retry Sample.W Sample.strict (fresh []) (.obj 7) w) u) := by
  refine ⟨?_, ?_, ?_, ?_, ?_, ?_⟩
  · intro u hu
    rcases Sample.meets_nodeS hu with rfl | rfl | rfl | rfl | rfl
    · refine ⟨fun fs x h => (by cases h), fun f hf cv hc => ?_⟩
      have hf' : f ∈ Sample.clsNode.fields := hf
      simp [Sample.clsNode] at hf'
      rcases hf' with rfl | rfl <;> cases hc
    · trivial
    · intro k h
      obtain ⟨_, _, _, h, _⟩ := h (.prim .none) (by simp)
      cases h
    · trivial
    · trivial
  · intro c hc
    have := Sample.meets_nodeS hc
    simp at this
    subst this
    refine ⟨⟨by decide, by decide⟩, fun fs fs' h => Or.inl ⟨fs, fs', rfl, rfl, h⟩⟩
  · intro k u hu; exact absurd (Sample.meets_nodeS hu) (by simp)
  · intro c hc; exact absurd (Sample.meets_nodeS hc) (by simp)
  · refine ⟨fun f n h hu hn => ?_, fun k w hu => ?_, fun k w hu => ?_, fun _ _ _ hu => ?_, fun _ _ _ hu => ?_⟩
    · have := Sample.uses_node rfl hu
      simp at this
      subst this
      cases h
      exact absurd hn (by decide)
    · exact absurd (Sample.uses_node rfl hu) (by simp)
    · exact absurd (Sample.uses_node rfl hu) (by simp)
    · exact absurd (Sample.uses_node rfl hu.uses) (by simp)
    · exact absurd (Sample.uses_node rfl hu.uses) (by simp)
  · intro w _ u hu
    refine not_endless_of_acc (acc_structural (Config.Default.standalone (C := Sample.strict) rfl) ?_ ?_ (sizeOf u + 1) u (by omega) hu)
    · intro n u hn hdn
      have h1 := Sample.meets_nodeS hn
      simp at h1
      subst h1
      obtain ⟨h2, h3 | h3⟩ := hdn
      · obtain ⟨fr, h4, h5⟩ := h3; cases h4; cases h5
      · rcases Sample.meets_nodeS h2 with rfl | rfl | rfl | rfl | rfl <;> simp [Sample.W] at h3
        exact .other (fun _ _ h => (by cases h)) (fun _ h => (by cases h)) (fun _ h => (by cases h)) (fun _ _ h => (by cases h))
          (fun _ h => (by cases h)) (fun _ h => (by cases h))
    · intro e u he _; exact absurd (Sample.meets_nodeS he) (by simp)

/-- Whatever the data (nodes nested to any depth, well formed or not), the order of its keys does not matter to `load(data, Node, basiccast=False)`. -/
example (v v' : Val) (hk : ∀ x kvs, Within v x → DictData Sample.strict x kvs → (kvs.map (·.1)).Nodup) (hvv : Shuf v v') :
    (∃ r r' s1 s2, Loads Sample.W Sample.strict (fresh []) v (.obj 7) r s1 ∧ Loads Sample.W Sample.strict (fresh []) v' (.obj 7) r' s2 ∧ Shuf r r') ∨
    ∃ e e' s1 s2, Raises Sample.W Sample.strict (fresh []) v (.obj 7) e s1 ∧ Raises Sample.W Sample.strict (fresh []) v' (.obj 7) e' s2 :=
  have h := Sample.node_orderless v
  C61_strict (C := Sample.strict) rfl Sample.notRequiredLaw Sample.steadyTags Sample.lawful rfl (Reachable.new (some []) []) h.1 h.2.1 h.2.2.1 h.2.2.2.1
    (fun _ _ _ _ _ => rfl) h.2.2.2.2.1 (fun h => by cases h) hk h.2.2.2.2.2 hvv

/-- The same with what `json.loads` returns. -/
example (v v' : Val) (hj : Json v) (hvv : Shuf v v') :
    (∃ r r' s1 s2, Loads Sample.W Sample.strict (fresh []) v (.obj 7) r s1 ∧ Loads Sample.W Sample.strict (fresh []) v' (.obj 7) r' s2 ∧ Shuf r r') ∨
    ∃ e e' s1 s2, Raises Sample.W Sample.strict (fresh []) v (.obj 7) e s1 ∧ Raises Sample.W Sample.strict (fresh []) v' (.obj 7) e' s2 :=
  have h := Sample.node_orderless v
  C61_json (C := Sample.strict) rfl Sample.notRequiredLaw Sample.steadyTags Sample.lawful rfl (Reachable.new (some []) []) hj h.1 h.2.1 h.2.2.1 h.2.2.2.1
    (fun _ _ _ _ _ => rfl) h.2.2.2.2.1 h.2.2.2.2.2 hvv

/-- The same node in two orders. -/
example : Shuf (.dict [(.str "v", .int 1), (.str "next", .dict [(.str "v", .int 2), (.str "next", .none)])])
    (.dict [(.str "next", .dict [(.str "next", .none), (.str "v", .int 2)]), (.str "v", .int 1)]) :=
  Shuf.of_items (mid := [(.str "v", .int 1), (.str "next", .dict [(.str "next", .none), (.str "v", .int 2)])])
    (.cons ⟨rfl, .same⟩ (.cons ⟨rfl, Shuf.of_items (.cons ⟨rfl, .same⟩ (.cons ⟨rfl, .same⟩ .nil)) (.swap _ _ _)⟩ .nil)) (.swap _ _ _)

/-! ## Where the order does matter -/

theorem shuf_swap (p q : Val × Val) : Shuf (.dict [p, q]) (.dict [q, p]) :=
  Shuf.of_items (.cons ⟨rfl, .same⟩ (.cons ⟨rfl, .same⟩ .nil)) (.swap _ _ _)

/-- `str(d)` for two dictionaries. -/
def Sample.reprW : World := { Sample.W with call := fun t v => match t, v with
  | .prim .str, .dict [(.int 1, .none), (.int 2, .none)] => .ok (.str "{1: None, 2: None}")
  | .prim .str, .dict [(.int 2, .none), (.int 1, .none)] => .ok (.str "{2: None, 1: None}")
  | t, v => Sample.W.call t v }

/-- `load({1: None, 2: None}, str)` is the text of the dictionary, in the order of the items. -/
theorem C61_str_counterexample : ∃ v v' a b s1 s2, Shuf v v' ∧ Loads Sample.reprW Sample.C (fresh []) v (.prim .str) (.str a) s1 ∧
    Loads Sample.reprW Sample.C (fresh []) v' (.prim .str) (.str b) s2 ∧ a ≠ b :=
  ⟨.dict [(.int 1, .none), (.int 2, .none)], .dict [(.int 2, .none), (.int 1, .none)], "{1: None, 2: None}", "{2: None, 1: None}", _, _, shuf_swap _ _,
    ⟨3, rfl⟩, ⟨3, rfl⟩, by decide⟩

/-- `{5: 'a', '5': 'b'}` into `Dict[int, str]`: the last one wins. -/
theorem C61_keys_counterexample : ∃ v v' s1 s2, Shuf v v' ∧ Loads Sample.W Sample.C (fresh []) v (.dict (.prim .int) (.prim .str)) (.dict [(.int 5, .str "b")]) s1 ∧
    Loads Sample.W Sample.C (fresh []) v' (.dict (.prim .int) (.prim .str)) (.dict [(.int 5, .str "a")]) s2 :=
  ⟨.dict [(.int 5, .str "a"), (.str "5", .str "b")], .dict [(.str "5", .str "b"), (.int 5, .str "a")], _, _, shuf_swap _ _, ⟨5, rfl⟩, ⟨5, rfl⟩⟩

/-- `class K: d: timedelta; n: int` -/
def Sample.orderW : World := { Sample.W with cls := fun _ =>
  { kind := .dataclass, name := "K", fields := [ { name := "d", ty := .timedelta }, { name := "n", ty := .prim .int } ] } }

/-- `Union[K, Any]`: in one order `n` is refused and the data is loaded as Any; in the other one OverflowError comes out of `timedelta(inf)` first, and
passes through the union. -/
theorem C61_crash_counterexample : ∃ v v' e s1 s2, Shuf v v' ∧ Loads Sample.orderW Sample.C (fresh []) v (.union [.obj 0, .any]) v s1 ∧
    Raises Sample.orderW Sample.C (fresh []) v' (.union [.obj 0, .any]) e s2 :=
  ⟨.dict [(.str "n", .str "x"), (.str "d", .float (.inf false))], .dict [(.str "d", .float (.inf false)), (.str "n", .str "x")], _, _, _, shuf_swap _ _,
    ⟨6, rfl⟩, ⟨6, rfl⟩⟩

end TL
