import Verif.Spec.ReadBack
import Verif.Props.Completeness
import Verif.Props.Dumping
import Verif.Props.Dumpable
import Verif.Props.RoundTripTypes
/-!
# C78: what was written is read back
-/

namespace TL

variable {W : World} {C : Config} {D : DConfig}

theorem Dumped.prim {v : Val} {a : Ty} {d : Val} {p : Prim} (h : Dumped W D v a d) (hp : typeOf v = .prim p) : d = v := by
  cases h with
  | basic => rfl
  | obj ho => rcases ho with ⟨rfl, _⟩ | ⟨rfl, _⟩ <;> cases hp
  | iso _ hk => cases v <;> first | (cases hk; done) | cases hp
  | _ => cases hp

theorem isInst_prim {p : Prim} {v : Val} (h : isInst p v = true) : ∃ q, typeOf v = .prim q := by
  cases v <;> first | exact ⟨_, rfl⟩ | cases h

theorem Plain.dumped (hdd : D.Default) {v : Val} (h : Plain (· ∈ D.basictypes) v) {a : Ty} {d : Val} (hw : W.LegalDefaults) (hv : Dumped W D v a d) : d = v := by
  obtain ⟨s', h'⟩ := (C75_exact (W := W) hdd hw .new h.legal).2 hv
  exact (C40_identity hdd .new h a d).1 ⟨s', h'⟩

theorem plain_pyIter {v : Val} {xs : List Val} (hi : .int ∈ D.basictypes) (hs : .str ∈ D.basictypes) (hv : Plain (· ∈ D.basictypes) v) (h : pyIter v = some xs)
    {x : Val} (hx : x ∈ xs) : Plain (· ∈ D.basictypes) x := by
  cases v <;> simp [pyIter] at h <;> subst h
  · exact (List.mem_map.1 hx).elim fun c hc => hc.2 ▸ .basic (p := .str) rfl hs
  · exact (List.mem_map.1 hx).elim fun c hc => hc.2 ▸ .basic (p := .int) rfl hi
  · cases hv with
    | basic h => cases h
    | list h => exact h x hx
  · obtain ⟨q, hq, rfl⟩ := List.mem_map.1 hx
    cases hv with
    | basic h => cases h
    | dict h => obtain ⟨p, h1, h2⟩ := h q hq; exact .basic h1 h2
  · cases hv with | basic h => cases h

theorem plain_dictData {v : Val} {kvs : List (Val × Val)} (hv : Plain (· ∈ D.basictypes) v) (h : DictData C v kvs) {p : Val × Val} (hp : p ∈ kvs) :
    Plain (· ∈ D.basictypes) p.1 ∧ Plain (· ∈ D.basictypes) p.2 := by
  rcases h with rfl | ⟨fs, rfl, _, rfl⟩
  · cases hv with
    | basic h => cases h
    | dict h1 h2 _ => obtain ⟨q, h3, h4⟩ := h1 p hp; exact ⟨.basic h3 h4, h2 p hp⟩
  · cases hv with | basic h => cases h

theorem setFold_distinct {ys : List Val} : ∀ {acc : List Val}, Distinct (acc ++ ys) →
    ys.foldl (fun acc y => if acc.any (fun z => pyEq z y) then acc else acc ++ [y]) acc = acc ++ ys := by
  induction ys with
  | nil => intro acc _; simp
  | cons y ys ih =>
    intro acc h
    have hn : acc.any (fun z => pyEq z y) = false := by
      rw [List.any_eq_false]
      intro z hz
      rw [(List.pairwise_append.1 h).2.2 z hz y (by simp)]; simp
    rw [List.foldl_cons, hn]
    simp only [Bool.false_eq_true, if_false]
    rw [ih (by simpa using h)]
    simp

theorem setOf_distinct {k : SeqKind} {ys : List Val} (h : Distinct ys) : setOf k ys = .seq k ys := by
  unfold setOf; rw [setFold_distinct (by simpa using h)]; simp

/-- What a sequence is written as: a list of what its elements are written as, or of the elements themselves. -/
theorem Dumped.seq_inv {k : SeqKind} {xs : List Val} {a : Ty} {d : Val} (h : Dumped W D (.seq k xs) a d) :
    (∃ l : List (Val × Val), xs = l.map (·.1) ∧ d = .list (l.map (·.2)) ∧ ∀ q ∈ l, Dumped W D q.1 .any q.2) ∨ (∃ p, ElementsOf p a ∧ d = .list xs) := by
  generalize hx : Val.seq k xs = x at h
  cases h with
  | basic h => subst hx; cases h
  | seq _ h => cases hx; exact Or.inl ⟨_, rfl, rfl, h⟩
  | copy _ h => cases hx; exact Or.inr ⟨_, h, rfl⟩
  | obj ho => subst hx; rcases ho with ⟨h, _⟩ | ⟨h, _⟩ <;> cases h
  | iso _ h => subst hx; cases h
  | _ => cases hx

theorem Dumped.dict_inv {kvs : List (Val × Val)} {a : Ty} {d : Val} (h : Dumped W D (.dict kvs) a d) :
    ∃ l : List ((Val × Val) × (Val × Val)), kvs = l.map (·.1) ∧ d = dictOf (l.map (·.2)) ∧ (∀ q ∈ l, Dumped W D q.1.1 .any q.2.1) ∧
      (∀ q ∈ l, Dumped W D q.1.2 .any q.2.2) := by
  generalize hx : Val.dict kvs = x at h
  cases h with
  | basic h => subst hx; cases h
  | dict h1 h2 => cases hx; exact ⟨_, rfl, rfl, h1, h2⟩
  | obj ho => subst hx; rcases ho with ⟨h, _⟩ | ⟨h, _⟩ <;> cases h
  | iso _ h => subst hx; cases h
  | _ => cases hx

theorem Dumped.obj_inv {x : Val} {c : Nat} {attrs : List (String × Val)} (ho : IsObject W x c attrs) {a : Ty} {d : Val} (h : Dumped W D x a d) :
    ∃ l m : List (Field × Val × Option Val), attrs = l.map (fun q => (q.1.name, q.2.1)) ∧ (W.cls c).fields = l.map (·.1) ∧
      (∀ q ∈ l, q.2.2 = none ↔ FieldHidden D (W.cls c).kind q.1 q.2.1) ∧
      (∀ q ∈ l, ∀ y, q.2.2 = some y → Dumped W D q.2.1 (fieldAnnotation (W.cls c).kind q.1) y) ∧ m.Perm l ∧
      d = dictOf (m.filterMap (fun q => q.2.2.map (fun y => (.str (fieldKey D (W.cls c).kind q.1), y)))) := by
  cases h with
  | basic h => rcases ho with ⟨rfl, _⟩ | ⟨rfl, _⟩ <;> cases h
  | @obj _ _ c' l m ho' h1 h2 h3 h4 h5 =>
    have : c' = c ∧ l.map (fun q => (q.1.name, q.2.1)) = attrs := by
      rcases ho with ⟨rfl, _⟩ | ⟨rfl, _⟩ <;> rcases ho' with ⟨h, _⟩ | ⟨h, _⟩ <;> cases h <;> exact ⟨rfl, rfl⟩
    obtain ⟨rfl, rfl⟩ := this
    exact ⟨l, m, rfl, h1, h2, h3, h4, rfl⟩
  | iso _ h => rcases ho with ⟨rfl, _⟩ | ⟨rfl, _⟩ <;> cases h
  | _ => rcases ho with ⟨h, _⟩ | ⟨h, _⟩ <;> cases h

theorem dtKind_typeOf {v : Val} {k : DtKind} (h : dtKind v = some k) : typeOf v = .dt k := by
  cases v <;> simp [dtKind] at h <;> subst h <;> rfl

theorem cint_small {i : Int} (h1 : -2147483648 ≤ i) (h2 : i ≤ 2147483647) : CIntOf (.int i) i := Or.inl ⟨rfl, h1, h2⟩

theorem IsDate.small {y m d : Int} (h : IsDate y m d) : CIntOf (.int y) y ∧ CIntOf (.int m) m ∧ CIntOf (.int d) d := by
  have := validDate_ranges ((validDate_iff _ _ _).2 h)
  exact ⟨cint_small (by omega) (by omega), cint_small (by omega) (by omega), cint_small (by omega) (by omega)⟩

theorem IsTime.small {h mi s us : Int} (ht : IsTime h mi s us) : CIntOf (.int h) h ∧ CIntOf (.int mi) mi ∧ CIntOf (.int s) s ∧ CIntOf (.int us) us := by
  obtain ⟨⟨_, _⟩, ⟨_, _⟩, ⟨_, _⟩, ⟨_, _⟩⟩ := ht
  exact ⟨cint_small (by omega) (by omega), cint_small (by omega) (by omega), cint_small (by omega) (by omega), cint_small (by omega) (by omega)⟩

/-- What dates are. -/
def DateShape : DtKind → Val → Prop
  | .date, r => ∃ y m d, r = .date y m d ∧ IsDate y m d
  | .time, r => ∃ h mi s us tz, r = .time h mi s us tz ∧ IsTime h mi s us
  | .datetime, r => ∃ y m d h mi s us tz, r = .datetime y m d h mi s us tz ∧ IsDate y m d ∧ IsTime h mi s us

theorem DateOf.shape (hl : W.Lawful) {k : DtKind} {v r : Val} (h : DateOf W k v r) : DateShape k r := by
  rcases h with ⟨x, rfl, h⟩ | ⟨_, xs, is, n, _, _, h⟩
  · have := hl.iso k x r h
    cases k <;> exact this
  · cases k
    · obtain ⟨_, y, m, d, _, h1, rfl⟩ := h; exact ⟨_, _, _, rfl, h1⟩
    · obtain ⟨_, _, _, _, _, h1, rfl⟩ := h; exact ⟨_, _, _, _, _, rfl, h1⟩
    · obtain ⟨_, _, _, _, _, _, _, _, _, h1, h2, rfl⟩ := h; exact ⟨_, _, _, _, _, _, _, _, rfl, h1, h2⟩

theorem DateOf.back (hl : W.Lawful) {k : DtKind} {v r : Val} (h : DateOf W k v r) {a : Ty} {d : Val} (hd : Dumped W D r a d)
    (hiso : D.isodates = true → ∀ k, dtKind r = some k → W.fromIso k (W.isoformat r) = .ok r) : DateOf W k d r := by
  have hs := h.shape hl
  have iso : D.isodates = true → dtKind r = some k → DateOf W k (.str (W.isoformat r)) r := fun h1 h2 => Or.inl ⟨_, rfl, hiso h1 k h2⟩
  cases k
  · obtain ⟨y, m, d', rfl, h1⟩ := hs
    cases hd with
    | basic h => cases h
    | obj ho => rcases ho with ⟨h, _⟩ | ⟨h, _⟩ <;> cases h
    | iso hi _ => exact iso hi rfl
    | date =>
      obtain ⟨h2, h3, h4⟩ := h1.small
      refine Or.inr ⟨(fun x h => by cases h), _, _, 0, rfl, .cons h2 (.cons h3 (.cons h4 .nil)), ?_⟩
      dsimp only
      exact ⟨rfl, _, _, _, rfl, h1, rfl⟩
  · obtain ⟨hh, mi, sec, us, tz, rfl, h1⟩ := hs
    cases hd with
    | basic h => cases h
    | obj ho => rcases ho with ⟨h, _⟩ | ⟨h, _⟩ <;> cases h
    | iso hi _ => exact iso hi rfl
    | time =>
      obtain ⟨h2, h3, h4, h5⟩ := h1.small
      refine Or.inr ⟨(fun x h => by cases h), _, _, 0, rfl, .cons h2 (.cons h3 (.cons h4 (.cons h5 .nil))), ?_⟩
      dsimp only
      exact ⟨_, _, _, _, rfl, h1, rfl⟩
  · obtain ⟨y, m, d', hh, mi, sec, us, tz, rfl, h0, h1⟩ := hs
    cases hd with
    | basic h => cases h
    | obj ho => rcases ho with ⟨h, _⟩ | ⟨h, _⟩ <;> cases h
    | iso hi _ => exact iso hi rfl
    | datetime =>
      obtain ⟨h2, h3, h4, h5⟩ := h1.small
      obtain ⟨h6, h7, h8⟩ := h0.small
      refine Or.inr ⟨(fun x h => by cases h), _, _, 0, rfl, .cons h6 (.cons h7 (.cons h8 (.cons h2 (.cons h3 (.cons h4 (.cons h5 .nil)))))), ?_⟩
      dsimp only
      exact ⟨_, _, _, _, _, _, _, by omega, rfl, h0, h1, rfl⟩

theorem Converts.prim_exact (hl : W.Lawful) {F : String → Ty → Prop} {v r : Val} {p : Prim} (h : Converts W C F v (.prim p) r) : Converts W C F r (.prim p) r ∧ typeOf r = .prim p := by
  cases h with
  | exact h1 h2 => exact ⟨.exact h1 h2, h2⟩
  | cast _ h1 _ _ h2 => exact ⟨.exact (Or.inl h1) (hl.prim _ _ _ h2), hl.prim _ _ _ h2⟩

theorem ConvertsItem.prim_exact (hl : W.Lawful) {F : String → Ty → Prop} {v r : Val} {p : Prim} (h : ConvertsItem W C F v (.prim p) r) :
    ConvertsItem W C F r (.prim p) r ∧ ∃ q, typeOf r = .prim q := by
  cases h with
  | conv _ h =>
    by_cases hb : BasicInstance C (.prim p) r
    · exact ⟨.keep hb, _, (h.prim_exact hl).2⟩
    · exact ⟨.conv hb (h.prim_exact hl).1, _, (h.prim_exact hl).2⟩
  | keep h => obtain ⟨q, _, _, h2⟩ := id h; exact ⟨.keep h, isInst_prim h2⟩

theorem map_eq_pair {α β γ : Type} {l1 : List (α × β)} {l2 : List (α × β × γ)} {g : α → String} (h1 : l1.map (·.1) = l2.map (·.1))
    (h2 : l1.map (fun q => (g q.1, q.2)) = l2.map (fun q => (g q.1, q.2.1))) : l1 = l2.map (fun q => (q.1, q.2.1)) := by
  induction l1 generalizing l2 with
  | nil => cases l2 with
    | nil => rfl
    | cons => cases h1
  | cons a l1 ih => cases l2 with
    | nil => cases h1
    | cons b l2 =>
      simp only [List.map_cons, List.cons.injEq, Prod.mk.injEq] at h1 h2 ⊢
      exact ⟨by rw [← h1.1, ← h2.1.2], ih h1.2 h2.2⟩

theorem all_some {l : List (Field × Option Val)} (h : ∀ q ∈ l, ∃ y, q.2 = some y) : ∃ l2 : List (Field × Val), l = l2.map (fun q => (q.1, some q.2)) := by
  induction l with
  | nil => exact ⟨[], rfl⟩
  | cons q l ih =>
    obtain ⟨l2, rfl⟩ := ih (fun q hq => h q (by simp [hq]))
    obtain ⟨y, hy⟩ := h q (by simp)
    exact ⟨(q.1, y) :: l2, by simp [← hy]⟩

theorem fieldKey_extName (hm : D.mangleKey = C.mangleKey) {k : ObjKind} (hk : k ≠ .typeddict) {f : Field} (hf : aget f.metadata D.mangleKey ≠ some "") :
    fieldKey D k f = extName C k f := by
  cases k with
  | typeddict => exact absurd rfl hk
  | namedtuple => rfl
  | dataclass => rw [extName_dataclass hm hf]; rfl
  | attrs => rw [extName_attrs hm]; rfl

/-- Objects are read back. -/
theorem obj_back {F : String → Ty → Prop} {c : Nat} {l m : List (Field × Val × Option Val)} (hpm : m.Perm l) (hk : (W.cls c).kind ≠ .typeddict)
    (hn : WFNames C (W.cls c).kind (W.cls c).fields) (hfs : (W.cls c).fields = l.map (·.1))
    (hf : ∀ f ∈ (W.cls c).fields, fieldKey D (W.cls c).kind f = extName C (W.cls c).kind f)
    (hshown : ∀ q ∈ l, ∀ y, q.2.2 = some y → ∃ t, FieldTy (W.cls c).kind q.1 t ∧ Converts W C F y t q.2.1)
    (harg : ∀ f ∈ (W.cls c).fields, Argument (W.cls c).kind f)
    (hhid : ∀ q ∈ l, q.2.2 = none → q.1.default = some q.2.1) {r : Val} (hb : Built W c (l.map (fun q => (q.1.name, q.2.1))) r) :
    Converts W C F (dictOf (m.filterMap (fun q => q.2.2.map (fun y => (.str (fieldKey D (W.cls c).kind q.1), y))))) (.obj c) r := by
  have hmem : ∀ q ∈ l, q.1 ∈ (W.cls c).fields := fun q hq => by rw [hfs]; exact List.mem_map.2 ⟨q, hq, rfl⟩
  have hpairs : ∀ {l : List (Field × Val × Option Val)}, (l.map (fun q => extName C (W.cls c).kind q.1)).Nodup → (∀ q ∈ l, q.1 ∈ (W.cls c).fields) →
      Distinct ((l.filterMap (fun q => q.2.2.map (fun y => ((.str (fieldKey D (W.cls c).kind q.1), y) : Val × Val)))).map (·.1)) := by
    intro l h hm
    induction l with
    | nil => exact .nil
    | cons q l ih =>
      have ih' := ih (List.nodup_cons.1 h).2 (fun q hq => hm q (by simp [hq]))
      rw [List.filterMap_cons]
      cases hq : q.2.2 with
      | none => exact ih'
      | some y =>
        refine List.Pairwise.cons ?_ ih'
        intro k hk
        obtain ⟨p, hp, rfl⟩ := List.mem_map.1 hk
        obtain ⟨q', hq', hp'⟩ := List.mem_filterMap.1 hp
        cases ho : q'.2.2 with
        | none => rw [ho] at hp'; cases hp'
        | some y' =>
          rw [ho] at hp'; cases hp'
          have : extName C (W.cls c).kind q.1 ≠ extName C (W.cls c).kind q'.1 := fun he =>
            (List.nodup_cons.1 h).1 (List.mem_map.2 ⟨q', hq', he.symm⟩)
          simp [pyEq, hf _ (hm q (by simp)), hf _ (hm q' (by simp [hq'])), this]
  have hnd : (l.map (fun q => extName C (W.cls c).kind q.1)).Nodup := by
    have := hn.exts; rw [hfs, List.map_map] at this; exact this
  unfold dictOf
  rw [foldl_pairs (hpairs ((hpm.map _).nodup_iff.2 hnd) (fun q hq => hmem q (hpm.mem_iff.1 hq)))]
  have key : ∀ {k x}, (k, x) ∈ (m.filterMap (fun q => q.2.2.map (fun y => ((.str (fieldKey D (W.cls c).kind q.1), y) : Val × Val)))) →
      ∃ q ∈ l, q.2.2 = some x ∧ k = .str (extName C (W.cls c).kind q.1) := by
    intro k x hx
    obtain ⟨q, hq, hp⟩ := List.mem_filterMap.1 hx
    replace hq := hpm.mem_iff.1 hq
    cases ho : q.2.2 with
    | none => rw [ho] at hp; cases hp
    | some y => rw [ho] at hp; cases hp; exact ⟨q, hq, ho, by rw [hf _ (hmem q hq)]⟩
  refine .obj (l := l.map (fun q => (q.1, some q.2.1))) hk (Or.inl rfl) ?_ ?_ ?_ ?_
  · intro _ p hp
    obtain ⟨q, hq, _, h⟩ := key (k := p.1) (x := p.2) hp
    exact ⟨q.1, hmem q hq, h⟩
  · rw [hfs, List.map_map]; rfl
  · intro p hp
    obtain ⟨q, hq, rfl⟩ := List.mem_map.1 hp
    cases ho : q.2.2 with
    | some y =>
      obtain ⟨t, h1, h2⟩ := hshown q hq y ho
      refine .loaded (harg _ (hmem q hq)) (x := y) ?_ h1 h2
      exact List.mem_filterMap.2 ⟨q, hpm.mem_iff.2 hq, by rw [ho, ← hf _ (hmem q hq)]; rfl⟩
    | none =>
      refine .default ?_ (hhid q hq ho)
      intro hin
      obtain ⟨x, hx⟩ := mem_strKeys.1 hin
      obtain ⟨q', hq', ho', he⟩ := key hx
      have : q = q' := nodup_map_inj hnd hq hq' (by injection he)
      subst this; rw [ho] at ho'; cases ho'
  · have : (l.map (fun q => (q.1, some q.2.1))).filterMap (fun q => q.2.map (fun y => (q.1.name, y))) = l.map (fun q => (q.1.name, q.2.1)) := by
      rw [List.filterMap_map]
      exact congrFun List.filterMap_eq_map l
    rw [this]; exact hb

/-- Annotations that announce no elements of a basic type make no difference. -/
theorem Dumped.any {v : Val} {a : Ty} {d : Val} (ha : ∀ p, ¬ ElementsOf p a) (h : Dumped W D v a d) : Dumped W D v .any d := by
  cases h with
  | basic h1 h2 => exact .basic h1 h2
  | seq _ h => exact .seq (fun p _ h => by cases h) h
  | copy _ h => exact absurd h (ha _)
  | dict h1 h2 h3 => exact .dict h1 h2 h3
  | obj h1 h2 h3 h4 h5 h6 => exact .obj h1 h2 h3 h4 h5 h6
  | enum h1 h2 => exact .enum h1 h2
  | iso h1 h2 => exact .iso h1 h2
  | date h => exact .date h
  | time h => exact .time h
  | datetime h => exact .datetime h
  | timedelta => exact .timedelta
  | pattern => exact .pattern
  | strcons h => exact .strcons h

/-- **What was written is read back.** -/
theorem Converts.back {s : LState} {t0 : Ty} {r0 : Val} (hdd : D.Default) (hw : W.LegalDefaults) (hl : W.Lawful) (hi : .int ∈ D.basictypes) (hstr : .str ∈ D.basictypes)
    (hrb : ReadsBack W C D s t0 r0) (hleg : Legal W r0) {v : Val} {t : Ty} {r : Val} (h : Converts W C (Means (namesIn W s t0)) v t r) :
    Meets W C s t0 t → Plain (· ∈ D.basictypes) v → Inside W r0 r → ∀ a d, (∀ p, ElementsOf p a → a = t) → Dumped W D r a d →
      Converts W C (Means (namesIn W s t0)) d t r := by
  refine Converts.rec (W := W) (C := C) (F := Means (namesIn W s t0))
    (motive_1 := fun v t r _ => Meets W C s t0 t → Plain (· ∈ D.basictypes) v → Inside W r0 r → ∀ a d, (∀ p, ElementsOf p a → a = t) → Dumped W D r a d →
      Converts W C (Means (namesIn W s t0)) d t r)
    (motive_2 := fun v t r _ => Meets W C s t0 t → Plain (· ∈ D.basictypes) v → Inside W r0 r → ∀ d, Dumped W D r .any d →
      ConvertsItem W C (Means (namesIn W s t0)) d t r)
    (motive_3 := fun v t r _ => Meets W C s t0 t → Plain (· ∈ D.basictypes) v → Inside W r0 r → ∀ d, Dumped W D r .any d →
      ConvertsElem W C (Means (namesIn W s t0)) d t r)
    (motive_4 := fun c kvs f o _ => Meets W C s t0 (.obj c) → f ∈ (W.cls c).fields → (∀ p ∈ kvs, Plain (· ∈ D.basictypes) p.2) → ∀ y, o = some y → Inside W r0 y →
      ∀ d, ¬ FieldHidden D (W.cls c).kind f y → Dumped W D y (fieldAnnotation (W.cls c).kind f) d →
      ∃ u, FieldTy (W.cls c).kind f u ∧ Converts W C (Means (namesIn W s t0)) d u y)
    ?_ ?_ ?_ ?_ ?_ ?_ ?_ ?_ ?_ ?_ ?_ ?_ ?_ ?_ ?_ ?_ ?_ ?_ ?_ ?_ ?_ ?_ ?_ ?_ ?_ ?_ h
  · intro p v h1 h2 _ _ _ a d _ hd; rw [hd.prim h2]; exact .exact h1 h2 -- exact
  · intro p v r hc h1 h2 h3 h4 _ _ _ a d _ hd -- cast
    have := hl.prim _ _ _ h4
    rw [hd.prim this]; exact .exact (Or.inl h1) this
  · intro v _ hv _ a d _ hd; rw [hv.dumped hdd hw hd]; exact .any -- any
  · intro vs l v h1 h2 _ hv _ a d _ hd; rw [hv.dumped hdd hw hd]; exact .lit h1 h2 -- lit
  · intro e v m hm _ _ hin a d _ hd -- enum
    obtain ⟨n, x, rfl, _⟩ := enumFirst_member hm
    cases hd with
    | basic h => cases h
    | obj ho => rcases ho with ⟨h, _⟩ | ⟨h, _⟩ <;> cases h
    | enum h1 h2 => exact hrb.enums _ _ _ _ hin h1 h2
    | iso _ h => cases h
  · intro e v u x m _ _ _ hm _ _ _ hin a d _ hd -- hint
    obtain ⟨n, x, rfl, _⟩ := enumFirst_member hm
    cases hd with
    | basic h => cases h
    | obj ho => rcases ho with ⟨h, _⟩ | ⟨h, _⟩ <;> cases h
    | enum h1 h2 => exact hrb.enums _ _ _ _ hin h1 h2
    | iso _ h => cases h
  · intro k v r h _ _ hin a d _ hd -- dt
    exact .dt (h.back hl hd (fun hi k hk => hrb.dates hi _ k hin hk))
  · intro v r h _ _ hin a d _ hd -- timedelta
    obtain ⟨us, rfl⟩ := secondsOf_td h
    cases hd with
    | basic h => cases h
    | obj ho => rcases ho with ⟨h, _⟩ | ⟨h, _⟩ <;> cases h
    | iso _ h => cases h
    | timedelta => exact .timedelta (Or.inr (Or.inr ⟨_, _, rfl, hrb.timedeltas us hin, rfl⟩))
  · intro a' v r h _ hv hin a d _ hd -- pattern
    rcases h with ⟨h1, h2, rfl⟩ | ⟨⟨x, rfl⟩, rfl⟩
    · cases hd with
      | basic h => cases h
      | obj ho => rcases ho with ⟨h, _⟩ | ⟨h, _⟩ <;> cases h
      | iso _ h => cases h
      | pattern => exact .pattern (Or.inl ⟨h1, h2, rfl⟩)
    · cases hv with | basic h => cases h
  · intro c v r hc h _ _ hin a d _ hd -- strcons
    obtain ⟨x, rfl⟩ := hl.strcons _ _ _ h
    cases hd with
    | basic h => cases h
    | obj ho => rcases ho with ⟨h, _⟩ | ⟨h, _⟩ <;> cases h
    | iso _ h => cases h
    | strcons => exact .strcons hc (hrb.strs _ _ hin)
  · intro k t v l hk _ hit hc ih hg hv hin a d ha hd -- coll
    rcases hd.seq_inv with ⟨l', h1, rfl, h2⟩ | ⟨p, h1, rfl⟩
    · rw [h1] at hin ⊢
      have := Converts.coll (W := W) (C := C) (F := Means (namesIn W s t0)) (k := k) (t := t) (v := .list (l'.map (·.2))) (l := l'.map (fun q => (q.2, q.1))) hk rfl
        (by simp [pyIter, Function.comp_def]) (fun q hq => ?_)
      · simpa [Function.comp_def] using this
      · obtain ⟨q', hq', rfl⟩ := List.mem_map.1 hq
        obtain ⟨q0, hq0, he⟩ := List.mem_map.1 (show q'.1 ∈ l.map (·.2) by rw [h1]; exact List.mem_map.2 ⟨q', hq', rfl⟩)
        have := ih q0 hq0 (.coll hg) (plain_pyIter hi hstr hv hit (List.mem_map.2 ⟨q0, hq0, rfl⟩)) (by rw [he]; exact .elem hin (List.mem_map.2 ⟨q', hq', rfl⟩))
          q'.2 (by rw [he]; exact h2 q' hq')
        rw [he] at this; exact this
    · have := ha p h1
      subst this
      cases h1
      have := Converts.coll (W := W) (C := C) (F := Means (namesIn W s t0)) (k := k) (t := .prim p) (v := .list (l.map (·.2))) (l := l.map (fun q => (q.2, q.2))) hk rfl
        (by simp [pyIter, Function.comp_def]) (fun q hq => ?_)
      · simpa [Function.comp_def] using this
      · obtain ⟨q', hq', rfl⟩ := List.mem_map.1 hq
        exact ((hc q' hq').prim_exact hl).1
  · intro k t v l hk _ hit hc hh ih hg hv hin a d ha hd -- set
    have hdist : ∀ {xs : List Val}, setOf k (l.map (·.2)) = .seq k xs → Distinct xs := by
      intro xs he
      have := (hleg.inside hin).top
      rw [he] at this
      exact (this hk).1
    have hsub : ∀ {xs : List Val}, setOf k (l.map (·.2)) = .seq k xs → ∀ x ∈ xs, ∃ q ∈ l, q.2 = x := by
      intro xs he x hx
      unfold setOf at he
      injection he with _ he
      rw [← he] at hx
      rcases mem_setFold hx with h | h
      · cases h
      · exact List.mem_map.1 h
    obtain ⟨xs, hxs⟩ : ∃ xs, setOf k (l.map (·.2)) = .seq k xs := ⟨_, rfl⟩
    have h3 := hdist hxs
    have h4 := hsub hxs
    rw [hxs] at hin hd ⊢
    rcases hd.seq_inv with ⟨l', h1, rfl, h2⟩ | ⟨p, h1, rfl⟩
    · rw [h1] at hin h3 h4 ⊢
      have := Converts.set (W := W) (C := C) (F := Means (namesIn W s t0)) (k := k) (t := t) (v := .list (l'.map (·.2))) (l := l'.map (fun q => (q.2, q.1))) hk rfl
        (by simp [pyIter, Function.comp_def]) (fun q hq => ?_) (fun q hq => ?_)
      · rw [← setOf_distinct h3]; simpa [Function.comp_def] using this
      · obtain ⟨q', hq', rfl⟩ := List.mem_map.1 hq
        obtain ⟨q0, hq0, he⟩ := h4 q'.1 (List.mem_map.2 ⟨q', hq', rfl⟩)
        have := ih q0 hq0 (.coll hg) (plain_pyIter hi hstr hv hit (List.mem_map.2 ⟨q0, hq0, rfl⟩)) (by rw [he]; exact .elem hin (List.mem_map.2 ⟨q', hq', rfl⟩))
          q'.2 (by rw [he]; exact h2 q' hq')
        rw [he] at this; exact this
      · obtain ⟨q', hq', rfl⟩ := List.mem_map.1 hq
        obtain ⟨q0, hq0, he⟩ := h4 q'.1 (List.mem_map.2 ⟨q', hq', rfl⟩)
        have := hh q0 hq0
        rw [he] at this; exact this
    · have := ha p h1
      subst this
      cases h1
      have := Converts.set (W := W) (C := C) (F := Means (namesIn W s t0)) (k := k) (t := .prim p) (v := .list xs) (l := xs.map (fun q => (q, q))) hk rfl
        (by simp [pyIter, Function.comp_def]) (fun q hq => ?_) (fun q hq => ?_)
      · rw [← setOf_distinct h3]; simpa [Function.comp_def] using this
      · obtain ⟨q', hq', rfl⟩ := List.mem_map.1 hq
        obtain ⟨q0, hq0, rfl⟩ := h4 q' hq'
        exact ((hc q0 hq0).prim_exact hl).1
      · obtain ⟨q', hq', rfl⟩ := List.mem_map.1 hq
        obtain ⟨q0, hq0, rfl⟩ := h4 q' hq'
        exact hh q0 hq0
  · intro v l rest _ hit _ hc ih hg hv hin a d ha hd -- tuple
    rcases hd.seq_inv with ⟨l', h1, rfl, h2⟩ | ⟨p, h1, rfl⟩
    · have hz : ∀ {l : List (Val × Ty × Val)} {l' : List (Val × Val)}, l.map (·.2.2) = l'.map (·.1) → ∃ m : List ((Val × Ty × Val) × Val),
          l = m.map (·.1) ∧ l'.map (·.2) = m.map (·.2) ∧ ∀ q ∈ m, (q.1.2.2, q.2) ∈ l' := by
        intro l
        induction l with
        | nil => intro l' h; cases l' with
          | nil => exact ⟨[], rfl, rfl, by simp⟩
          | cons => cases h
        | cons q l ih => intro l' h; cases l' with
          | nil => cases h
          | cons q' l' =>
            simp only [List.map_cons, List.cons.injEq] at h
            obtain ⟨m, h1, h2, h3⟩ := ih h.2
            refine ⟨(q, q'.2) :: m, by simp [← h1], by simp [h2], ?_⟩
            intro x hx
            rcases List.mem_cons.1 hx with rfl | hx
            · dsimp only; rw [h.1]; simp
            · exact List.mem_cons_of_mem _ (h3 x hx)
      obtain ⟨m, rfl, hm, hm'⟩ := hz h1
      rw [hm]
      have := Converts.tuple (W := W) (C := C) (F := Means (namesIn W s t0)) (v := .list (m.map (·.2))) (l := m.map (fun q => (q.2, q.1.2.1, q.1.2.2))) (rest := []) rfl
        (by simp [pyIter, Function.comp_def]) (fun _ => rfl) (fun q hq => ?_)
      · simpa [Function.comp_def] using this
      · obtain ⟨q', hq', rfl⟩ := List.mem_map.1 hq
        have hq1 : q'.1 ∈ m.map (·.1) := List.mem_map.2 ⟨q', hq', rfl⟩
        exact ih q'.1 hq1 (.tuple hg (List.mem_map.2 ⟨_, hq1, rfl⟩)) (plain_pyIter hi hstr hv hit (List.mem_append.2 (Or.inl (List.mem_map.2 ⟨_, hq1, rfl⟩))))
          (.elem hin (List.mem_map.2 ⟨_, hq1, rfl⟩)) .any q'.2 (fun p h => by cases h) (h2 _ (hm' q' hq'))
    · have := ha p h1
      subst this
      have hprim : ∀ q ∈ l, q.2.1 = .prim p := by
        intro q hq
        generalize hts : l.map (·.2.1) = ts at h1
        have : q.2.1 ∈ ts := by rw [← hts]; exact List.mem_map.2 ⟨q, hq, rfl⟩
        cases h1; simpa [Function.comp_def] using this
      have := Converts.tuple (W := W) (C := C) (F := Means (namesIn W s t0)) (v := .list (l.map (·.2.2))) (l := l.map (fun q => (q.2.2, q.2.1, q.2.2))) (rest := []) rfl
        (by simp [pyIter, Function.comp_def]) (fun _ => rfl) (fun q hq => ?_)
      · simpa [Function.comp_def] using this
      · obtain ⟨q', hq', rfl⟩ := List.mem_map.1 hq
        have h := hc q' hq'
        dsimp only
        rw [hprim q' hq'] at h ⊢
        exact (h.prim_exact hl).1
  · intro kt vt v l hdata hk hvs hh ihk ihv hg hv hin a d _ hd -- dict
    obtain ⟨kvs, hkvs⟩ : ∃ kvs, dictOf (l.map (·.2)) = .dict kvs := ⟨_, rfl⟩
    have hall : ∀ p ∈ kvs, (∃ q ∈ l, q.2.1 = p.1) ∧ ∃ q ∈ l, q.2.2 = p.2 := by
      unfold dictOf at hkvs
      injection hkvs with hkvs
      rw [← hkvs]
      refine dictFold_all (A := fun k => ∃ q ∈ l, q.2.1 = k) (B := fun x => ∃ q ∈ l, q.2.2 = x) (l := l.map (·.2)) (acc := []) ?_ (by simp)
      intro p hp
      obtain ⟨q, hq, rfl⟩ := List.mem_map.1 hp
      exact ⟨⟨q, hq, rfl⟩, ⟨q, hq, rfl⟩⟩
    rw [hkvs] at hin hd ⊢
    obtain ⟨l', rfl, rfl, h1, h2⟩ := hd.dict_inv
    have hd1 : Distinct ((l'.map (·.1)).map (·.1)) := (hleg.inside hin).top.1
    have hd2 : Distinct ((l'.map (·.2)).map (·.1)) := by
      have := hrb.keys _ hin
      rw [List.pairwise_map] at this
      unfold Distinct
      rw [List.pairwise_map, List.pairwise_map]
      exact this.imp_of_mem (fun ha hb h => h _ _ (h1 _ ha) (h1 _ hb))
    have hfold : dictOf (l'.map (·.2)) = .dict (l'.map (·.2)) := by unfold dictOf; rw [foldl_pairs hd2]
    rw [hfold]
    have := Converts.dict (W := W) (C := C) (F := Means (namesIn W s t0)) (kt := kt) (vt := vt) (v := .dict (l'.map (·.2))) (l := l'.map (fun q => (q.2, q.1)))
      (Or.inl (by simp)) (fun q hq => ?_) (fun q hq => ?_) (fun q hq => ?_)
    · rw [show (l'.map (fun q => (q.2, q.1))).map (·.2) = l'.map (·.1) by simp] at this
      unfold dictOf at this
      rw [foldl_pairs hd1] at this
      exact this
    · obtain ⟨q', hq', rfl⟩ := List.mem_map.1 hq
      have hm : q'.1 ∈ l'.map (·.1) := List.mem_map.2 ⟨q', hq', rfl⟩
      obtain ⟨⟨q0, hq0, he⟩, _⟩ := hall q'.1 hm
      have := ihk q0 hq0 (.dictKey hg) (plain_dictData hv hdata (List.mem_map.2 ⟨q0, hq0, rfl⟩)).1 (by rw [he]; exact .key (x := q'.1.2) hin hm)
        q'.2.1 (by rw [he]; exact h1 q' hq')
      rw [he] at this; exact this
    · obtain ⟨q', hq', rfl⟩ := List.mem_map.1 hq
      have hm : q'.1 ∈ l'.map (·.1) := List.mem_map.2 ⟨q', hq', rfl⟩
      obtain ⟨_, ⟨q0, hq0, he⟩⟩ := hall q'.1 hm
      have := ihv q0 hq0 (.dictVal hg) (plain_dictData hv hdata (List.mem_map.2 ⟨q0, hq0, rfl⟩)).2 (by rw [he]; exact .val (k := q'.1.1) hin hm)
        q'.2.2 (by rw [he]; exact h2 q' hq')
      rw [he] at this; exact this
    · obtain ⟨q', hq', rfl⟩ := List.mem_map.1 hq
      obtain ⟨⟨q0, hq0, he⟩, _⟩ := hall q'.1 (List.mem_map.2 ⟨q', hq', rfl⟩)
      have := hh q0 hq0
      rw [he] at this; exact this
  · intro ts u v r hu _ h ih hg hv hin a d ha hd -- union
    have ha' : ∀ p, ElementsOf p a → False := fun p h => by have := ha p h; subst this; cases h
    refine .union hu (fun hb => ?_) (ih (.union hg hu) hv hin a d (fun p h => (ha' p h).elim) hd)
    exact hrb.unions ts u r d hg hu hin ⟨_, h⟩ (hd.any (fun p h => (ha' p h).elim)) hb
  · intro n u v r hu _ ih hg hv hin a d ha hd -- fref
    exact .fref hu (ih (means_meets hu) hv hin a d (fun p h => by have := ha p h; subst this; cases h) hd)
  · intro n u v r _ ih hg hv hin a d ha hd -- newtype
    exact .newtype (ih (.newtype hg) hv hin a d (fun p h => by have := ha p h; subst this; cases h) hd)
  · intro c v kvs l hk hdata _ hfil hfs hc hreq ih hg hv hin a d _ hd -- typeddict
    obtain ⟨l', h0, rfl, h1, h2⟩ := hd.dict_inv
    have hd1 : Distinct ((l'.map (·.1)).map (·.1)) := by rw [← h0]; exact (hleg.inside hin).top.1
    have hz : ∀ {l : List (Field × Val × Val)} {l' : List ((Val × Val) × (Val × Val))}, l.map (fun q => (Val.str q.1.name, q.2.2)) = l'.map (·.1) →
        (∀ q ∈ l', Dumped W D q.1.1 .any q.2.1) → ∃ m : List ((Field × Val × Val) × Val),
          l = m.map (·.1) ∧ l'.map (·.2) = m.map (fun q => (Val.str q.1.1.name, q.2)) ∧ ∀ q ∈ m, ((Val.str q.1.1.name, q.1.2.2), (Val.str q.1.1.name, q.2)) ∈ l' := by
        intro l
        induction l with
        | nil => intro l' h _; cases l' with
          | nil => exact ⟨[], rfl, rfl, by simp⟩
          | cons => cases h
        | cons q l ih => intro l' h hk; cases l' with
          | nil => cases h
          | cons q' l' =>
            simp only [List.map_cons, List.cons.injEq] at h
            obtain ⟨m, h1, h2, h3⟩ := ih h.2 (fun q hq => hk q (by simp [hq]))
            obtain ⟨⟨k, x⟩, ⟨kd, xd⟩⟩ := q'
            obtain ⟨he, _⟩ := h
            cases he
            have : kd = .str q.1.name := (hk _ (List.mem_cons_self ..)).prim (p := .str) rfl
            subst this
            refine ⟨(q, xd) :: m, by simp [← h1], by simp [h2], ?_⟩
            intro x hx
            rcases List.mem_cons.1 hx with rfl | hx
            · simp
            · exact List.mem_cons_of_mem _ (h3 x hx)
    obtain ⟨m, rfl, hm, hm'⟩ := hz h0 h1
    rw [← h0] at hd1
    have hd2 : Distinct ((m.map (fun q => (Val.str q.1.1.name, q.2))).map (·.1)) := by
      simpa [List.map_map, Function.comp_def] using hd1
    rw [hm]
    unfold dictOf
    rw [foldl_pairs hd2]
    have := Converts.typeddict (W := W) (C := C) (F := Means (namesIn W s t0)) (c := c) (v := .dict (m.map (fun q => (Val.str q.1.1.name, q.2))))
      (l := m.map (fun q => (q.1.1, q.2, q.1.2.2))) hk (Or.inl rfl) (fun _ p hp => ?_) ?_ (fun q hq => ?_) (fun q hq => ?_) ?_
    · simpa [List.map_map, Function.comp_def] using this
    · obtain ⟨q, hq, rfl⟩ := List.mem_map.1 hp
      exact ⟨q.1.1, hfs q.1 (List.mem_map.2 ⟨q, hq, rfl⟩), by rw [hk]; rfl⟩
    · rw [List.map_map]
      refine List.filter_eq_self.2 (fun p hp => ?_)
      obtain ⟨q, hq, rfl⟩ := List.mem_map.1 hp
      exact isFieldKey_iff.2 ⟨_, List.mem_map.2 ⟨q.1.1, hfs q.1 (List.mem_map.2 ⟨q, hq, rfl⟩), rfl⟩, rfl⟩
    · obtain ⟨q', hq', rfl⟩ := List.mem_map.1 hq
      exact hfs q'.1 (List.mem_map.2 ⟨q', hq', rfl⟩)
    · obtain ⟨q', hq', rfl⟩ := List.mem_map.1 hq
      have hq1 : q'.1 ∈ m.map (·.1) := List.mem_map.2 ⟨q', hq', rfl⟩
      have hmem : (Val.str q'.1.1.name, q'.1.2.1) ∈ kvs := by
        have : (Val.str q'.1.1.name, q'.1.2.1) ∈ kvs.filter (fun p => isFieldKey ((W.cls c).fields.map (·.name)) p.1) := by
          rw [hfil]; exact List.mem_map.2 ⟨_, hq1, rfl⟩
        exact (List.mem_filter.1 this).1
      refine ih q'.1 hq1 (.field hg (hfs _ hq1) (.declared (by rw [hk]; intro h; cases h))) (plain_dictData hv hdata hmem).2 ?_ .any q'.2 (fun p h => by cases h)
        (h2 _ (hm' q' hq'))
      exact .val (k := .str q'.1.1.name) hin (List.mem_map.2 ⟨_, hq1, rfl⟩)
    · intro f hf h3 h4
      have := hreq f hf h3 h4
      simpa [List.map_map, Function.comp_def] using this
  · intro c v kvs r l hk hdata _ hfs hc hb ih hg hv hin a d _ hd -- obj
    obtain ⟨harg, hst⟩ := hrb.stores c hg hk
    obtain ⟨l2, rfl⟩ := all_some (l := l) (fun q hq => by
      have hf : q.1 ∈ (W.cls c).fields := by rw [hfs]; exact List.mem_map.2 ⟨q, hq, rfl⟩
      have ha := (harg _ hf).1
      have hc' := hc q hq
      generalize q.2 = o at hc'
      cases hc' with
      | loaded => exact ⟨_, rfl⟩
      | default => exact ⟨_, rfl⟩
      | unset h1 _ _ h2 =>
        have : (W.cls c).kind = .dataclass ∨ (W.cls c).kind = .attrs := by
          cases hkk : (W.cls c).kind <;> simp_all
        rw [(ha this).1] at h2; cases h2)
    have hfm : (l2.map (fun q => (q.1, some q.2))).filterMap (fun q => q.2.map (fun y => (q.1.name, y))) = l2.map (fun q => (q.1.name, q.2)) := by
      rw [List.filterMap_map]; exact congrFun List.filterMap_eq_map l2
    rw [hfm] at hb
    have hobj : IsObject W r c (l2.map (fun q => (q.1.name, q.2))) := by
      have hb' := hb
      unfold Built at hb'
      split at hb'
      · cases hb'
      · next hkk => exact Or.inl ⟨hb', hkk⟩
      all_goals
        next hkk =>
        obtain ⟨fs', h1, rfl⟩ := hb'
        rw [hst _ _ h1]
        exact Or.inr ⟨rfl, by simp [hkk]⟩
    have hin' : ∀ {n y}, (n, y) ∈ l2.map (fun q => (q.1.name, q.2)) → Inside W r0 y := by
      intro n y hy
      rcases hobj with ⟨rfl, _⟩ | ⟨rfl, _⟩
      · exact .item hin hy
      · exact .attr hin hy
    obtain ⟨l3, m3, h1, h2, h3, h4, hpm, rfl⟩ := hd.obj_inv hobj
    have h12 : l2 = l3.map (fun q => (q.1, q.2.1)) := by
      refine map_eq_pair (g := Field.name) ?_ h1
      rw [← h2, hfs, List.map_map]; rfl
    subst h12
    have hmem : ∀ q ∈ l3, q.1 ∈ (W.cls c).fields := fun q hq => by rw [h2]; exact List.mem_map.2 ⟨q, hq, rfl⟩
    refine obj_back hpm hk (hrb.classes c hg) h2 (fun f hf => fieldKey_extName hrb.mangle hk (harg f hf).2) (fun q hq y hy => ?_) (fun f hf => (harg f hf).1)
      (fun q hq hn => ?_) (by rw [← h1]; exact hb)
    · have hq2 : (q.1, some q.2.1) ∈ (l3.map (fun q => (q.1, q.2.1))).map (fun q => (q.1, some q.2)) :=
        List.mem_map.2 ⟨(q.1, q.2.1), List.mem_map.2 ⟨q, hq, rfl⟩, rfl⟩
      refine ih _ hq2 hg (hmem q hq) (fun p hp => (plain_dictData hv hdata hp).2) q.2.1 rfl ?_ y ?_ (h4 q hq y hy)
      · exact hin' (n := q.1.name) (by rw [h1]; exact List.mem_map.2 ⟨q, hq, rfl⟩)
      · intro hh; rw [(h3 q hq).2 hh] at hy; cases hy
    · exact hrb.hidden r c _ hin hobj q.1 (hmem q hq) q.2.1 (by rw [h1]; exact List.mem_map.2 ⟨q, hq, rfl⟩) ((h3 q hq).1 hn)
  · intro v t r hn h ih hg hv hin d hd
    cases t with
    | prim p =>
      have h' := ConvertsItem.prim_exact hl (.conv hn h)
      obtain ⟨_, hp⟩ := h'.2
      rw [hd.prim hp]; exact h'.1
    | _ => exact .conv (fun hb => by obtain ⟨p, h, _⟩ := hb; cases h) (ih hg hv hin .any d (fun p h => by cases h) hd)
  · intro t v hb hg hv hin d hd
    obtain ⟨p, _, _, h⟩ := id hb
    obtain ⟨q, hq⟩ := isInst_prim h
    rw [hd.prim hq]; exact .keep hb
  · intro v t r _ ih hg hv hin d hd
    exact .conv (ih hg hv hin .any d (fun p h => by cases h) hd)
  · intro p v hp hb hg hv hin d hd
    obtain ⟨q, hq⟩ := isInst_prim hb
    rw [hd.prim hq]; exact .keep hp hb
  · intro c kvs f x t y _ hm ht _ ih hg hfm hk y' hy hin d _ hd
    cases hy
    refine ⟨t, ht, ih (.field hg hfm ht) (hk _ hm) hin _ d (fun p h => ?_) hd⟩
    unfold fieldAnnotation at h ⊢
    split at h
    · next hkk =>
      rw [if_pos hkk]
      rw [hkk] at ht
      cases ht with
      | declared => rfl
      | converter _ h => cases h
      | untyped _ h => cases h
      | manyHints _ h => cases h
    · cases h
  · intro c kvs f d0 _ hd0 hg hfm hk y hy hin d hnh hd
    cases hy
    exact hrb.defaults c f _ d hg hfm hd0 hnh hd
  · intro c kvs f _ _ _ _ _ _ _ y hy; cases hy

theorem dictAcc_fold {l : List (Val × Val)} (h : ∀ p ∈ l, Legal W p.1 ∧ Legal W p.2 ∧ W.hash p.1 = true) : ∀ {acc : List (Val × Val)},
    DictAcc W (Legal W) (Legal W) acc → DictAcc W (Legal W) (Legal W) (l.foldl (fun a q => dset a q.1 q.2) acc) := by
  induction l with
  | nil => intro acc h; exact h
  | cons p l ih =>
    intro acc ha
    obtain ⟨h1, h2, h3⟩ := h p (by simp)
    exact ih (fun q hq => h q (by simp [hq])) (ha.add h1 h2 h3)

theorem Dumped.legal {v : Val} {a : Ty} {d : Val} (h : Dumped W D v a d) : Legal W v → Legal W d := by
  induction h with
  | basic => exact id
  | seq _ _ ih =>
    intro hv
    refine legal_seq (fun x hx => ?_) (fun h => by cases h)
    obtain ⟨q, hq, rfl⟩ := List.mem_map.1 hx
    exact ih q hq (hv.inside (.elem .self (List.mem_map.2 ⟨q, hq, rfl⟩)))
  | copy _ _ => intro hv; exact legal_seq (fun x hx => hv.inside (.elem .self hx)) (fun h => by cases h)
  | @dict _ l _ _ hh ihk ihv =>
    intro hv
    refine legal_dict (dictAcc_fold (fun p hp => ?_) .nil)
    obtain ⟨q, hq, rfl⟩ := List.mem_map.1 hp
    have hm : q.1 ∈ l.map (·.1) := List.mem_map.2 ⟨q, hq, rfl⟩
    exact ⟨ihk q hq (hv.inside (.key (x := q.1.2) .self hm)), ihv q hq (hv.inside (.val (k := q.1.1) .self hm)), hh q hq⟩
  | @obj v _ c l m ho _ _ _ hpm _ ih =>
    intro hv
    refine legal_dict (dictAcc_fold (fun p hp => ?_) .nil)
    obtain ⟨q, hq, hp⟩ := List.mem_filterMap.1 hp
    replace hq := hpm.mem_iff.1 hq
    cases hy : q.2.2 with
    | none => rw [hy] at hp; cases hp
    | some y =>
      rw [hy] at hp; cases hp
      refine ⟨legal_str _, ih q hq y hy ?_, rfl⟩
      have hm : (q.1.name, q.2.1) ∈ l.map (fun q => (q.1.name, q.2.1)) := List.mem_map.2 ⟨q, hq, rfl⟩
      rcases ho with ⟨rfl, _⟩ | ⟨rfl, _⟩
      · exact hv.inside (.item .self hm)
      · exact hv.inside (.attr .self hm)
  | enum h _ ih => intro hv; exact ih (hv.inside (.member .self h))
  | iso => intro _; exact legal_str _
  | date => intro _; refine legal_seq (fun x hx => ?_) (fun h => by cases h); simp at hx; rcases hx with rfl | rfl | rfl <;> exact legal_int _
  | time => intro _; refine legal_seq (fun x hx => ?_) (fun h => by cases h); simp at hx; rcases hx with rfl | rfl | rfl | rfl <;> exact legal_int _
  | datetime => intro _; refine legal_seq (fun x hx => ?_) (fun h => by cases h); simp at hx; rcases hx with rfl | rfl | rfl | rfl | rfl | rfl | rfl <;> exact legal_int _
  | timedelta => intro _; exact legal_prim (p := .float) rfl
  | pattern => intro hv; exact hv.inside (.source .self)
  | strcons => intro _; exact legal_str _

/-- **C76** What a dumper returns for a value that can exist in Python can exist in Python: the keys of its dictionaries are hashable and distinct.  For every
value, annotation, configuration with the default handlers and history of the dumper. -/
theorem C76_dump (hdd : D.Default) (hw : W.LegalDefaults) {sd sd' : DState} (hs : DReachable W D sd) {v : Val} (hv : Legal W v) {a : Ty} {d : Val}
    (h : Dumps W D sd v a d sd') : Legal W d := ((C75_exact hdd hw hs hv).1 ⟨sd', h⟩).legal hv

/-- A chain of nodes, of any length, is dumped as something that can exist. -/
example (l : List Int) (d : Val) (sd' : DState) (h : Dumps Sample.W Sample.D {} (Sample.chain l) .any d sd') : Legal Sample.W d :=
  C76_dump (show Sample.D.Default from rfl) Sample.legalDefaults .new (Sample.chain_legal l) h

theorem Sample.chain_dumped (l : List Int) (a : Ty) : ∃ d, Dumped Sample.W Sample.D (Sample.chain l) a d := by
  induction l generalizing a with
  | nil => exact ⟨_, .basic (p := .none) rfl (by decide)⟩
  | cons i l ih =>
    obtain ⟨d, hd⟩ := ih (.union [.fref "Node", .prim .none])
    refine ⟨_, .obj (c := 7) (l := [({ name := "v", ty := .prim .int }, .int i, some (.int i)),
      ({ name := "next", ty := .union [.fref "Node", .prim .none] }, Sample.chain l, some d)]) (Or.inr ⟨rfl, Or.inl rfl⟩) rfl ?_ ?_ (.refl _) rfl⟩
    · intro q hq
      simp only [List.mem_cons, List.not_mem_nil, or_false] at hq
      rcases hq with rfl | rfl <;> simp [FieldHidden, Sample.W, Sample.cls, Sample.clsNode]
    · intro q hq y hy
      simp only [List.mem_cons, List.not_mem_nil, or_false] at hq
      rcases hq with rfl | rfl
      · cases hy; exact .basic (p := .int) rfl (by decide)
      · cases hy; exact hd

/-- They are dumped. -/
example (l : List Int) : ∃ d sd', Dumps Sample.W Sample.D {} (Sample.chain l) .any d sd' := by
  obtain ⟨d, h⟩ := Sample.chain_dumped l .any
  obtain ⟨sd', h'⟩ := (C75_exact (show Sample.D.Default from rfl) Sample.legalDefaults .new (Sample.chain_legal l)).2 h
  exact ⟨d, sd', h'⟩

section
variable (hmx : C.Mixed) (hcc : CalmConditions W C) (hmk : ∀ i x u, Installed C (.custom i) → Legal W x → (W.customLoad i x u).Makes W)
  (hdd : D.Default) (hW : W.NeverStops) (hm : W.Makes) (hlaw : W.NotRequiredLaw) (hdbg : C.uniondebugconflict = false)
  (hi : .int ∈ D.basictypes) (hstr : .str ∈ D.basictypes)
include hmx hcc hmk hdd hW hm hlaw hdbg hi hstr

/-- The dump of what was loaded has the loaded value as its conversion. -/
theorem reads_back_user {s s' : LState} (hs : Reachable W C s) {v : Val} {t : Ty} (hus : ∀ u, Meets W C s t u → C.Usual W u) (hc : Consistent W C s v t) (hv : Plain (· ∈ D.basictypes) v) {r : Val}
    (h : Loads W C s v t r s') (hrb : ReadsBack W C D s t r) {sd sd' : DState} (hsd : DReachable W D sd) {a : Ty} (ha : a = .any ∨ a = t) {d : Val}
    (hdu : Dumps W D sd r a d sd') : Converts W C (Means (namesIn W s t)) d t r ∧ Legal W d := by
  have hl := hm.toLawful
  have hr := C76_wellformed hm hmk hs hv.legal h
  have hdd' := (C75_exact hdd hm.defaults hsd hr).1 ⟨sd', hdu⟩
  refine ⟨?_, hdd'.legal hr⟩
  refine (loads_converts_user hmx hcc hW hl hlaw hdbg hs hus hc (hv.legal (W := W)).keysDistinct h).back hdd hm.defaults hl hi hstr hrb hr .self hv .self a d ?_ hdd'
  rintro p hp
  rcases ha with rfl | rfl
  · cases hp
  · rfl

/-- **C78** (partial), with handlers of the user for other types. **What was written is accepted again**: if `load(v, t)` returned `r` for plain data `v`, and `dump(r)` (possibly with the annotation `t`)
returned `d`, then `load(d, t)` does not raise.  `s2` is any loader that knows the same names as the one that loaded `v`; another one, the same one.
Missing: the conditions of `ReadsBack` (`C78_union_counterexample`, `C78_hidden_counterexample`) and of C74. -/
theorem C78_accepted_user_partial {s s' : LState} (hs : Reachable W C s) {v : Val} {t : Ty} (hus : ∀ u, Meets W C s t u → C.Usual W u) (hc : Consistent W C s v t) (hv : Plain (· ∈ D.basictypes) v) {r : Val}
    (h : Loads W C s v t r s') (hrb : ReadsBack W C D s t r) {sd sd' : DState} (hsd : DReachable W D sd) {a : Ty} (ha : a = .any ∨ a = t) {d : Val}
    (hdu : Dumps W D sd r a d sd') {s2 : LState} (hs2 : Reachable W C s2) (hn : namesIn W s2 t = namesIn W s t) (hus2 : ∀ u, Meets W C s2 t u → C.Usual W u) (hc2 : Consistent W C s2 d t)
    (hterm : ¬ Diverges W C s2 d t) : ∃ r' s'', Loads W C s2 d t r' s'' := by
  obtain ⟨h1, h2⟩ := reads_back_user hmx hcc hmk hdd hW hm hlaw hdbg hi hstr hs hus hc hv h hrb hsd ha hdu
  rw [← hn] at h1
  exact (C74_accepts_iff_user_partial hmx hcc hW hm.toLawful hlaw hdbg hs2 hus2 hc2 h2.keysDistinct hterm).2 ⟨r, h1⟩

/-- **C78** (partial), with handlers of the user for other types. **What was loaded, written and loaded again is the same value**: `load(dump(load(v, t)), t) = load(v, t)` when the annotations are
unambiguous for the written data.  Missing: as in `C78_accepted_partial`. -/
theorem C78_restored_user_partial {s s' : LState} (hs : Reachable W C s) {v : Val} {t : Ty} (hus : ∀ u, Meets W C s t u → C.Usual W u) (hc : Consistent W C s v t) (hv : Plain (· ∈ D.basictypes) v) {r : Val}
    (h : Loads W C s v t r s') (hrb : ReadsBack W C D s t r) {sd sd' : DState} (hsd : DReachable W D sd) {a : Ty} (ha : a = .any ∨ a = t) {d : Val}
    (hdu : Dumps W D sd r a d sd') {s2 : LState} (hs2 : Reachable W C s2) (hn : namesIn W s2 t = namesIn W s t) (hus2 : ∀ u, Meets W C s2 t u → C.Usual W u) (hreg : Regular W C s2 d t)
    (hu : Unambiguous W C s2 d t) (hterm : ¬ Diverges W C s2 d t) (r' : Val) : (∃ s'', Loads W C s2 d t r' s'') ↔ r' = r := by
  obtain ⟨h1, h2⟩ := reads_back_user hmx hcc hmk hdd hW hm hlaw hdbg hi hstr hs hus hc hv h hrb hsd ha hdu
  rw [← hn] at h1
  have key := C74_exact_user_partial hmx hcc hW hm.toLawful hlaw hdbg hs2 hus2 hreg hu h2.keysDistinct hterm
  constructor
  · intro h'
    exact ((h1.unique h2.keysDistinct hreg.classes hu .self .self _ ((key r').1 h'))).symm
  · rintro rfl; exact (key r').2 h1
end

section
variable (hd : C.Default) (hdd : D.Default) (hW : W.NeverStops) (hm : W.Makes) (hlaw : W.NotRequiredLaw) (hdbg : C.uniondebugconflict = false)
  (hi : .int ∈ D.basictypes) (hstr : .str ∈ D.basictypes)
include hd hdd hW hm hlaw hdbg hi hstr

/-- **C78** (partial). **What was written is accepted again**: if `load(v, t)` returned `r` for plain data `v`, and `dump(r)` (possibly with the annotation `t`)
returned `d`, then `load(d, t)` does not raise.  `s2` is any loader that knows the same names as the one that loaded `v`; another one, the same one.
Missing: the conditions of `ReadsBack` (`C78_union_counterexample`, `C78_hidden_counterexample`) and of C74. -/
theorem C78_accepted_partial {s s' : LState} (hs : Reachable W C s) {v : Val} {t : Ty} (hc : Consistent W C s v t) (hv : Plain (· ∈ D.basictypes) v) {r : Val}
    (h : Loads W C s v t r s') (hrb : ReadsBack W C D s t r) {sd sd' : DState} (hsd : DReachable W D sd) {a : Ty} (ha : a = .any ∨ a = t) {d : Val}
    (hdu : Dumps W D sd r a d sd') {s2 : LState} (hs2 : Reachable W C s2) (hn : namesIn W s2 t = namesIn W s t) (hc2 : Consistent W C s2 d t)
    (hterm : ¬ Diverges W C s2 d t) : ∃ r' s'', Loads W C s2 d t r' s'' :=
  C78_accepted_user_partial hd.mixed hd.calm (fun i _ _ hi _ => absurd hi (not_installed hd i)) hdd hW hm hlaw hdbg hi hstr hs (fun _ _ => hd.usual) hc hv h hrb hsd ha hdu
    hs2 hn (fun _ _ => hd.usual) hc2 hterm

/-- **C78** (partial). **What was loaded, written and loaded again is the same value**: `load(dump(load(v, t)), t) = load(v, t)` when the annotations are
unambiguous for the written data.  Missing: as in `C78_accepted_partial`. -/
theorem C78_restored_partial {s s' : LState} (hs : Reachable W C s) {v : Val} {t : Ty} (hc : Consistent W C s v t) (hv : Plain (· ∈ D.basictypes) v) {r : Val}
    (h : Loads W C s v t r s') (hrb : ReadsBack W C D s t r) {sd sd' : DState} (hsd : DReachable W D sd) {a : Ty} (ha : a = .any ∨ a = t) {d : Val}
    (hdu : Dumps W D sd r a d sd') {s2 : LState} (hs2 : Reachable W C s2) (hn : namesIn W s2 t = namesIn W s t) (hreg : Regular W C s2 d t)
    (hu : Unambiguous W C s2 d t) (hterm : ¬ Diverges W C s2 d t) (r' : Val) : (∃ s'', Loads W C s2 d t r' s'') ↔ r' = r :=
  C78_restored_user_partial hd.mixed hd.calm (fun i _ _ hi _ => absurd hi (not_installed hd i)) hdd hW hm hlaw hdbg hi hstr hs (fun _ _ => hd.usual) hc hv h hrb hsd ha hdu
    hs2 hn (fun _ _ => hd.usual) hreg hu hterm r'
end

/-- The condition `enums` holds for members whose value is of a basic type and differs from the values of the members before it. -/
theorem ReadsBack.enum {s : LState} {t : Ty} {e : Nat} {n : String} {x : Val} {p : Prim} (hx : aget (W.enm e).members n = some x) (hp : typeOf x = .prim p)
    (he : pyEq x x = true) (hfirst : ∀ q ∈ (W.enm e).members, pyEq q.2 x = true → q.1 = n) (hn : ((W.enm e).members.map (·.1)).Nodup) (d : Val) (hd : Dumped W D x .any d) :
    Converts W C (Means (namesIn W s t)) d (.enum e) (.enumv e n) := by
  rw [hd.prim hp]
  obtain ⟨i, hi, hget⟩ := List.getElem_of_mem (aget_mem hx)
  refine .enum (Or.inr (Or.inl ⟨(fun q _ h => by subst h; cases hp), i, n, x, by rw [List.getElem?_eq_getElem hi, hget], he, fun j hj q hq => ?_, rfl⟩))
  cases hb : pyEq q.2 x with
  | false => rfl
  | true =>
    exfalso
    have hjl : j < (W.enm e).members.length := by omega
    rw [List.getElem?_eq_getElem hjl] at hq
    have hq' : (W.enm e).members[j] = q := by injection hq
    have h1 := hfirst q (by rw [← hq']; exact List.getElem_mem hjl) hb
    have h2 := (List.nodup_iff_pairwise_ne.1 hn)
    rw [List.pairwise_map] at h2
    have := List.pairwise_iff_getElem.1 h2 j i hjl hi hj
    rw [hq', hget] at this
    exact this h1

/-! ## The hypotheses are met -/

theorem Sample.inside_chain {l : List Int} {x : Val} (h : Inside Sample.W (Sample.chain l) x) : (∃ l', x = Sample.chain l') ∨ ∃ i, x = .int i := by
  induction h with
  | self => exact Or.inl ⟨l, rfl⟩
  | attr _ hm ih =>
    rcases ih with ⟨l', h⟩ | ⟨i, h⟩
    · cases l' with
      | nil => cases h
      | cons i l' =>
        cases h
        simp only [List.mem_cons, Prod.mk.injEq, List.not_mem_nil, or_false] at hm
        rcases hm with ⟨_, rfl⟩ | ⟨_, rfl⟩
        · exact Or.inr ⟨_, rfl⟩
        · exact Or.inl ⟨_, rfl⟩
    · cases h
  | elem _ _ ih => rcases ih with ⟨l', h⟩ | ⟨i, h⟩ <;> first | (cases l' <;> cases h) | cases h
  | key _ _ ih => rcases ih with ⟨l', h⟩ | ⟨i, h⟩ <;> first | (cases l' <;> cases h) | cases h
  | val _ _ ih => rcases ih with ⟨l', h⟩ | ⟨i, h⟩ <;> first | (cases l' <;> cases h) | cases h
  | arg _ _ ih => rcases ih with ⟨l', h⟩ | ⟨i, h⟩ <;> first | (cases l' <;> cases h) | cases h
  | item _ _ ih => rcases ih with ⟨l', h⟩ | ⟨i, h⟩ <;> first | (cases l' <;> cases h) | cases h
  | member _ _ ih => rcases ih with ⟨l', h⟩ | ⟨i, h⟩ <;> first | (cases l' <;> cases h) | cases h
  | source _ ih => rcases ih with ⟨l', h⟩ | ⟨i, h⟩ <;> first | (cases l' <;> cases h) | cases h

theorem Sample.chain_cases (l : List Int) : Sample.chain l = .none ∨ ∃ fs, Sample.chain l = .inst 7 fs := by
  cases l with
  | nil => exact Or.inl rfl
  | cons i l => exact Or.inr ⟨_, rfl⟩

theorem Sample.chain_cases' {l : List Int} {x : Val} (h : Inside Sample.W (Sample.chain l) x) : x = .none ∨ (∃ fs, x = .inst 7 fs) ∨ ∃ i, x = .int i := by
  rcases Sample.inside_chain h with ⟨l', rfl⟩ | h
  · rcases Sample.chain_cases l' with h | h
    · exact Or.inl h
    · exact Or.inr (Or.inl h)
  · exact Or.inr (Or.inr h)

theorem Sample.readsBack_chain (l : List Int) : ReadsBack Sample.W Sample.C Sample.D (fresh []) (.obj 7) (Sample.chain l) where
  mangle := rfl
  hidden x c attrs hx ho f hf y hy hh := by
    exfalso
    have : c = 7 := by
      rcases Sample.chain_cases' hx with rfl | ⟨fs, rfl⟩ | ⟨i, rfl⟩ <;> rcases ho with ⟨h, _⟩ | ⟨h, _⟩ <;> cases h <;> rfl
    subst this
    have hf' : f ∈ Sample.clsNode.fields := hf
    simp [Sample.clsNode] at hf'
    rcases hf' with rfl | rfl <;> simp [FieldHidden, Sample.W, Sample.cls, Sample.clsNode] at hh
  enums e n x d h := by rcases Sample.chain_cases' h with h | ⟨_, h⟩ | ⟨_, h⟩ <;> cases h
  dates h := by cases h
  timedeltas us h := by rcases Sample.chain_cases' h with h | ⟨_, h⟩ | ⟨_, h⟩ <;> cases h
  strs c x h := by rcases Sample.chain_cases' h with h | ⟨_, h⟩ | ⟨_, h⟩ <;> cases h
  keys kvs h := by rcases Sample.chain_cases' h with h | ⟨_, h⟩ | ⟨_, h⟩ <;> cases h
  unions ts u y d h hu hy hc hdu hb := by
    have := Sample.meets_node h; simp at this; subst this
    have hb1 : typeOf d = .prim .none := by have := hb.2; simp at this; rcases this with h | h; exact absurd h (by cases d <;> simp [typeOf]); exact h
    rw [hb1]
    rcases Sample.chain_cases' hy with rfl | ⟨fs, rfl⟩ | ⟨i, rfl⟩
    · simp at hu
      rcases hu with rfl | rfl
      · exfalso
        obtain ⟨x, hc⟩ := hc
        cases hc with
        | fref hm hc =>
          obtain ⟨f, h1, h2⟩ := hm
          cases h1
          simp [fresh, aget, Sample.W, Sample.cls, Sample.clsNode] at h2
          subst h2
          cases hc with
          | obj _ _ _ _ _ hb => unfold Built at hb; obtain ⟨fs', _, h⟩ := hb; cases h
      · rfl
    · exfalso
      obtain ⟨l', _, _, _, _, _, _, rfl⟩ := hdu.obj_inv (c := 7) (attrs := fs) (Or.inr ⟨rfl, Or.inl rfl⟩)
      cases hb1
    · exfalso
      have := hdu.prim (p := .int) rfl
      subst this; cases hb1
  classes c h := by
    have := Sample.meets_node h; simp at this; subst this
    constructor <;> decide
  stores c h _ := by
    have := Sample.meets_node h; simp at this; subst this
    refine ⟨fun f hf => ?_, fun fs fs' h => by cases h; rfl⟩
    have hf' : f ∈ Sample.clsNode.fields := hf
    simp [Sample.clsNode] at hf'
    rcases hf' with rfl | rfl <;> exact ⟨fun _ => ⟨rfl, fun h => by cases h⟩, by simp [aget]⟩
  defaults c f d0 d h hf hd := by
    have := Sample.meets_node h; simp at this; subst this
    have hf' : f ∈ Sample.clsNode.fields := hf
    simp [Sample.clsNode] at hf'
    rcases hf' with rfl | rfl <;> cases hd

theorem Sample.node_ends (v : Val) : ¬ Diverges Sample.W Sample.C (fresh []) v (.obj 7) := by
  intro hdiv
  have := C45_classes (W := Sample.W) (Config.Default.standalone (C := Sample.C) rfl) (Reachable.new (some []) []) v (.obj 7) ?_ ?_
  · rcases this with ⟨r, s', n, h⟩ | ⟨r, s', n, h⟩
    · exact absurd ((hdiv n).symm.trans h) (by simp)
    · exact absurd ((hdiv n).symm.trans h) (by simp)
  · intro n u hn hd
    have h1 := Sample.meets_node hn
    simp at h1
    subst h1
    obtain ⟨h2, h3 | h3⟩ := hd
    · obtain ⟨fr, h4, h5⟩ := h3; cases h4; cases h5
    · rw [Sample.node_name h3]
      exact .other (fun _ _ h => (by cases h)) (fun _ h => (by cases h)) (fun _ h => (by cases h)) (fun _ _ h => (by cases h))
        (fun _ h => (by cases h)) (fun _ h => (by cases h))
  · intro e u he _
    have := Sample.meets_node he
    simp at this

/-- Data of any shape that was loaded as a chain of nodes, of any length: the chain is written, and exactly the chain is read back. -/
example (v : Val) (hv : Plain (· ∈ Sample.D.basictypes) v) (l : List Int) (s' : LState) (h : Loads Sample.W Sample.C (fresh []) v (.obj 7) (Sample.chain l) s') :
    ∃ d sd', Dumps Sample.W Sample.D {} (Sample.chain l) .any d sd' ∧ ∀ r', (∃ s'', Loads Sample.W Sample.C (fresh []) d (.obj 7) r' s'') ↔ r' = Sample.chain l := by
  obtain ⟨d, hd⟩ := Sample.chain_dumped l .any
  obtain ⟨sd', hdu⟩ := (C75_exact (show Sample.D.Default from rfl) Sample.legalDefaults .new (Sample.chain_legal l)).2 hd
  have hs : Reachable Sample.W Sample.C (fresh []) := .new (some []) []
  exact ⟨d, sd', hdu, C78_restored_partial (show Sample.C.Default from rfl) (show Sample.D.Default from rfl) Sample.neverStops Sample.makes Sample.notRequiredLaw rfl
    (by decide) (by decide) hs ((Sample.unambiguous_node v).consistent (hv.legal (W := Sample.W)).keysDistinct (Sample.regular_node v)) hv h
    (Sample.readsBack_chain l) .new (Or.inl rfl) hdu hs rfl (Sample.regular_node d) (Sample.unambiguous_node d) (Sample.node_ends d)⟩

/-- There is such data. -/
example : ∃ v s', Plain (· ∈ Sample.D.basictypes) v ∧ Loads Sample.W Sample.C (fresh []) v (.obj 7) (Sample.chain [5, 2]) s' := by
  refine ⟨.dict [(.str "v", .str "5"), (.str "next", .dict [(.str "v", .int 2), (.str "next", .none)])], _, ?_, ⟨12, rfl⟩⟩
  have hb : ∀ {x : Val} {p}, typeOf x = .prim p → p ∈ Sample.D.basictypes → Plain (· ∈ Sample.D.basictypes) x := fun h1 h2 => .basic h1 h2
  refine .dict ?_ ?_ ?_
  · intro q hq; simp at hq; rcases hq with rfl | rfl <;> exact ⟨.str, rfl, by decide⟩
  · intro q hq; simp at hq
    rcases hq with rfl | rfl
    · exact hb (p := .str) rfl (by decide)
    · refine .dict ?_ ?_ ?_
      · intro q hq; simp at hq; rcases hq with rfl | rfl <;> exact ⟨.str, rfl, by decide⟩
      · intro q hq; simp at hq
        rcases hq with rfl | rfl
        · exact hb (p := .int) rfl (by decide)
        · exact hb (p := .none) rfl (by decide)
      · simp [Distinct, pyEq]
  · simp [Distinct, pyEq]

/-- **C78** fails for `Union[float, timedelta]`: the number 5 is loaded as an interval, which is written as a number with decimals, which is loaded as a number. -/
theorem C78_union_counterexample : ∃ r d r' s' sd' s'', Loads Sample.W Sample.C (fresh []) (.int 5) (.union [.prim .float, .timedelta]) r s' ∧
    r = .timedelta 5000000 ∧ Dumps Sample.W Sample.D {} r .any d sd' ∧
    Loads Sample.W Sample.C (fresh []) d (.union [.prim .float, .timedelta]) r' s'' ∧ r' ≠ r := by
  refine ⟨_, _, _, _, _, _, ⟨9, rfl⟩, rfl, ⟨9, rfl⟩, ⟨9, rfl⟩, ?_⟩
  intro h; cases h

/-- **C78** fails when hidedefault hides a value that is equal to the default but not the same: with `x: Any = 1`, the data `{'x': True}` is loaded as
`K(True)`, which is written as `{}`, which is loaded as `K(1)`. -/
theorem C78_hidden_counterexample : ∃ (W : World) (r d r' : Val) (s' s'' : LState) (sd' : DState),
    (W.cls 0).fields = [{ name := "x", ty := .any, default := some (.int 1) }] ∧
    Loads W Sample.C (fresh []) (.dict [(.str "x", .bool true)]) (.obj 0) r s' ∧
    Dumps W Sample.D {} r .any d sd' ∧ Loads W Sample.C (fresh []) d (.obj 0) r' s'' ∧ r = .inst 0 [("x", .bool true)] ∧ r' = .inst 0 [("x", .int 1)] :=
  ⟨{ Sample.W with cls := fun _ => { kind := .dataclass, name := "K", fields := [{ name := "x", ty := .any, default := some (.int 1) }] } },
    _, _, _, _, _, _, rfl, ⟨9, rfl⟩, ⟨9, rfl⟩, ⟨9, rfl⟩, rfl, rfl⟩

theorem Sample.inside_optional {x : Val} (h : Inside Sample.WB (.list [.int 5, .none]) x) : x = .list [.int 5, .none] ∨ x = .int 5 ∨ x = .none := by
  induction h with
  | self => simp
  | elem _ hm ih =>
    rcases ih with h | h | h <;> cases h
    simp at hm; rcases hm with rfl | rfl <;> simp
  | _ => simp_all

theorem Sample.readsBack_optional :
    ReadsBack Sample.WB Sample.CB Sample.D (fresh []) (.coll .list (.union [.prim .int, .prim .none])) (.list [.int 5, .none]) where
  mangle := rfl
  hidden x c attrs hx ho := by rcases Sample.inside_optional hx with rfl | rfl | rfl <;> rcases ho with ⟨h, _⟩ | ⟨h, _⟩ <;> cases h
  enums e n x d h := by have := Sample.inside_optional h; simp at this
  dates h := by cases h
  timedeltas us h := by have := Sample.inside_optional h; simp at this
  strs c x h := by have := Sample.inside_optional h; simp at this
  keys kvs h := by have := Sample.inside_optional h; simp at this
  unions ts u y d h hu hy hc hdu hb := by
    have := Sample.meets_optional h; simp at this; subst this
    have hb1 := hb.2
    obtain ⟨x, hc⟩ := hc
    simp at hu
    have hn : ∀ {F r}, Converts Sample.WB Sample.CB F x (.prim .none) r → r = .none := by
      intro F r h
      cases h with
      | exact _ h => cases x <;> first | (cases h; done) | rfl
      | cast _ _ h => exact absurd rfl h
    have hi : ∀ {F r}, Converts Sample.WB Sample.CB F x (.prim .int) r → typeOf r = .prim .int := by
      intro F r h
      cases h with
      | exact _ h => exact h
      | cast _ _ _ _ h => exact Sample.lawfulB.prim _ _ _ h
    rcases hu with rfl | rfl
    · have := hi hc; rw [hdu.prim this]; exact this.symm
    · have := hn hc; subst this; rw [hdu.prim (p := .none) rfl]; rfl
  classes c h := by have := Sample.meets_optional h; simp at this
  stores c h := by have := Sample.meets_optional h; simp at this
  defaults c f d0 d h := by have := Sample.meets_optional h; simp at this

/-- The hypotheses of `C78_restored_user_partial`: with a handler of the user for other types, `['5', None]` becomes `[5, None]`, is written, and exactly that is
read back. -/
example : ∃ r s' d sd', Loads Sample.WB Sample.CB (fresh []) (.list [.str "5", .none]) (.coll .list (.union [.prim .int, .prim .none])) r s' ∧
    Dumps Sample.WB Sample.D {} r .any d sd' ∧
    ∀ r', (∃ s'', Loads Sample.WB Sample.CB (fresh []) d (.coll .list (.union [.prim .int, .prim .none])) r' s'') ↔ r' = r := by
  have hl : ∃ s', Loads Sample.WB Sample.CB (fresh []) (.list [.str "5", .none]) (.coll .list (.union [.prim .int, .prim .none])) (.list [.int 5, .none]) s' := ⟨_, 9, rfl⟩
  have hdu : ∃ d sd', Dumps Sample.WB Sample.D {} (.list [.int 5, .none]) .any d sd' ∧ d = .list [.int 5, .none] := ⟨_, _, ⟨9, rfl⟩, rfl⟩
  obtain ⟨s', hl⟩ := hl
  obtain ⟨d, sd', hdu, rfl⟩ := hdu
  have hv : Plain (· ∈ Sample.D.basictypes) (.list [.str "5", .none]) := by
    refine .list (fun x hx => ?_)
    simp at hx
    rcases hx with rfl | rfl
    · exact .basic (p := .str) rfl (by decide)
    · exact .basic (p := .none) rfl (by decide)
  have hus : ∀ u, Meets Sample.WB Sample.CB (fresh []) (.coll .list (.union [.prim .int, .prim .none])) u → Sample.CB.Usual Sample.WB u :=
    fun u hu => by rcases Sample.meets_optional hu with rfl | rfl | rfl | rfl <;> rfl
  refine ⟨_, s', _, sd', hl, hdu, C78_restored_user_partial Sample.mixedB Sample.calmB (fun i x u _ => Sample.makesB_user i x u) (show Sample.D.Default from rfl)
    ⟨Sample.neverStops.1, Sample.neverStops.2, Sample.neverStops.3, Sample.neverStops.4⟩ Sample.makesB (fun c => Sample.notRequiredLaw c) rfl (by decide) (by decide)
    (.new _ _) hus ((Sample.unambiguous_optional _).consistent (hv.legal (W := Sample.WB)).keysDistinct (Sample.regular_optional _)) hv hl
    Sample.readsBack_optional .new (Or.inl rfl) hdu (.new (some []) []) rfl hus (Sample.regular_optional _) (Sample.unambiguous_optional _) ?_⟩
  intro hdiv
  have : ∃ r s', load Sample.WB Sample.CB 9 (.list [.int 5, .none]) (.coll .list (.union [.prim .int, .prim .none])) (fresh []) = .ok r s' := ⟨_, _, rfl⟩
  obtain ⟨r, s', h⟩ := this
  have := hdiv 9; rw [h] at this; cases this

end TL
