import Verif.Spec.Dumping
import Verif.Lemmas.Equality
/-!
# One step of the dumper, as a relation
-/

namespace TL

variable {W : World} {C : DConfig}

/-- `Dumped` with the parts dumped by `R`. -/
inductive DStep (W : World) (C : DConfig) (R : Val → Ty → Val → Prop) : Val → Ty → Val → Prop
  | basic {v t p} : typeOf v = .prim p → p ∈ C.basictypes → DStep W C R v t v
  | seq {k t} {l : List (Val × Val)} : (∀ p ∈ C.basictypes, ¬ ElementsOf p t) → (∀ q ∈ l, R q.1 .any q.2) →
      DStep W C R (.seq k (l.map (·.1))) t (.list (l.map (·.2)))
  | copy {k t p xs} : p ∈ C.basictypes → ElementsOf p t → DStep W C R (.seq k xs) t (.list xs)
  | dict {t} {l : List ((Val × Val) × (Val × Val))} : (∀ q ∈ l, R q.1.1 .any q.2.1) → (∀ q ∈ l, R q.1.2 .any q.2.2) →
      (∀ q ∈ l, W.hash q.2.1 = true) → DStep W C R (.dict (l.map (·.1))) t (dictOf (l.map (·.2)))
  | obj {v t c} {l m : List (Field × Val × Option Val)} : IsObject W v c (l.map (fun q => (q.1.name, q.2.1))) → (W.cls c).fields = l.map (·.1) →
      (∀ q ∈ l, q.2.2 = none ↔ FieldHidden C (W.cls c).kind q.1 q.2.1) →
      (∀ q ∈ l, ∀ y, q.2.2 = some y → R q.2.1 (fieldAnnotation (W.cls c).kind q.1) y) →
      m.Perm l → m.map (·.1.name) = writeOrder W c →
      DStep W C R v t (dictOf (m.filterMap (fun q => q.2.2.map (fun y => (.str (fieldKey C (W.cls c).kind q.1), y)))))
  | enum {e n x t r} : aget (W.enm e).members n = some x → R x .any r → DStep W C R (.enumv e n) t r
  | iso {v k t} : C.isodates = true → dtKind v = some k → DStep W C R v t (.str (W.isoformat v))
  | date {y m d t} : C.isodates = false → DStep W C R (.date y m d) t (.list [.int y, .int m, .int d])
  | time {h mi s us t} : C.isodates = false → DStep W C R (.time h mi s us none) t (.list [.int h, .int mi, .int s, .int us])
  | datetime {y m d h mi s us t} : C.isodates = false →
      DStep W C R (.datetime y m d h mi s us none) t (.list [.int y, .int m, .int d, .int h, .int mi, .int s, .int us])
  | timedelta {us t} : DStep W C R (.timedelta us) t (.float (W.totalSeconds us))
  | pattern {src t} : DStep W C R (.pattern src) t src
  | strcons {c s t} : c ∈ C.strconstructed → DStep W C R (.strobj c s) t (.str (W.strOf (.strobj c s)))

theorem zip2_pairs {α β : Type} {R : α → β → Prop} {as : List α} {bs : List β} :
    Zip2 R as bs ↔ ∃ l : List (α × β), as = l.map (·.1) ∧ bs = l.map (·.2) ∧ ∀ q ∈ l, R q.1 q.2 := by
  constructor
  · intro h
    induction h with
    | nil => exact ⟨[], rfl, rfl, by simp⟩
    | @cons a b as bs h _ ih =>
      obtain ⟨l, rfl, rfl, h3⟩ := ih
      exact ⟨(a, b) :: l, rfl, rfl, fun q hq => by rcases List.mem_cons.1 hq with rfl | hq <;> [exact h; exact h3 q hq]⟩
  · rintro ⟨l, rfl, rfl, h⟩
    induction l with
    | nil => exact .nil
    | cons q l ih => exact .cons (h q (by simp)) (ih (fun q hq => h q (by simp [hq])))

theorem zip2_filter {α β : Type} {R : α → β → Prop} {p : α → Bool} {as : List α} {bs : List β} :
    Zip2 R (as.filter p) bs ↔ ∃ l : List (α × Option β), as = l.map (·.1) ∧ bs = l.filterMap (·.2) ∧
      ∀ q ∈ l, (q.2 = none ↔ p q.1 = false) ∧ ∀ b, q.2 = some b → R q.1 b := by
  constructor
  · induction as generalizing bs with
    | nil => intro h; cases h; exact ⟨[], rfl, rfl, by simp⟩
    | cons a as ih =>
      intro h
      cases hp : p a with
      | false =>
        rw [List.filter_cons_of_neg (by simp [hp])] at h
        obtain ⟨l, rfl, rfl, h3⟩ := ih h
        exact ⟨(a, none) :: l, rfl, rfl, by simpa [hp] using h3⟩
      | true =>
        rw [List.filter_cons_of_pos hp] at h
        cases h with
        | @cons _ b _ bs h h' =>
        obtain ⟨l, rfl, rfl, h3⟩ := ih h'
        refine ⟨(a, some b) :: l, rfl, rfl, fun q hq => ?_⟩
        rcases List.mem_cons.1 hq with rfl | hq
        · exact ⟨by simp [hp], fun b' hb => by cases hb; exact h⟩
        · exact h3 q hq
  · rintro ⟨l, rfl, rfl, h⟩
    induction l with
    | nil => exact .nil
    | cons q l ih =>
      have h1 := h q (by simp)
      have ih := ih (fun q hq => h q (by simp [hq]))
      obtain ⟨a, o⟩ := q
      cases o with
      | none =>
        have : p a = false := h1.1.1 rfl
        simp [this]; exact ih
      | some b =>
        have : p a = true := by cases hp : p a with
          | true => rfl
          | false => have := h1.1.2 hp; cases this
        simp [this]; exact .cons (h1.2 b rfl) ih

/-- The attributes of an object, with their fields. -/
theorem attrs_fields {fields : List Field} {attrs : List (String × Val)} (h : attrs.map (·.1) = fields.map (·.name)) :
    ∃ m : List (Field × Val), fields = m.map (·.1) ∧ attrs = m.map (fun q => (q.1.name, q.2)) := by
  induction fields generalizing attrs with
  | nil => cases attrs with
    | nil => exact ⟨[], rfl, rfl⟩
    | cons => cases h
  | cons f fields ih => cases attrs with
    | nil => cases h
    | cons a attrs =>
      simp at h
      obtain ⟨m, rfl, rfl⟩ := ih h.2
      exact ⟨(f, a.2) :: m, rfl, by simp [← h.1]⟩

theorem option_lists {m : List (Field × Val)} {P : Field → Val → Prop} {key : Field → String} {S : Field → Val → Val → Prop} {kvs : List (Val × Val)} :
    (∃ l : List ((Field × Val) × Option (Val × Val)), m = l.map (·.1) ∧ kvs = l.filterMap (·.2) ∧
      ∀ q ∈ l, (q.2 = none ↔ P q.1.1 q.1.2) ∧ ∀ b, q.2 = some b → b.1 = .str (key q.1.1) ∧ S q.1.1 q.1.2 b.2) ↔
    ∃ l : List (Field × Val × Option Val), m = l.map (fun q => (q.1, q.2.1)) ∧ kvs = l.filterMap (fun q => q.2.2.map (fun y => (.str (key q.1), y))) ∧
      ∀ q ∈ l, (q.2.2 = none ↔ P q.1 q.2.1) ∧ ∀ y, q.2.2 = some y → S q.1 q.2.1 y := by
  constructor
  · rintro ⟨l, rfl, rfl, h⟩
    refine ⟨l.map (fun q => (q.1.1, q.1.2, q.2.map (·.2))), by simp [Function.comp_def], ?_, ?_⟩
    · rw [List.filterMap_map]
      refine List.filterMap_congr (fun q hq => ?_)
      cases hq2 : q.2 with
      | none => simp [hq2]
      | some b => simp [hq2, ← ((h q hq).2 b hq2).1]
    · intro q hq
      obtain ⟨q', hq', rfl⟩ := List.mem_map.1 hq
      refine ⟨by simpa using (h q' hq').1, fun y hy => ?_⟩
      simp at hy
      obtain ⟨k, hy⟩ := hy
      exact ((h q' hq').2 _ hy).2
  · rintro ⟨l, rfl, rfl, h⟩
    refine ⟨l.map (fun q => ((q.1, q.2.1), q.2.2.map (fun y => (.str (key q.1), y)))), by simp [Function.comp_def], by rw [List.filterMap_map]; rfl, ?_⟩
    intro q hq
    obtain ⟨q', hq', rfl⟩ := List.mem_map.1 hq
    refine ⟨by simpa using (h q' hq').1, fun y hy => ?_⟩
    simp at hy
    obtain ⟨z, hz, rfl⟩ := hy
    exact ⟨rfl, (h q' hq').2 z hz⟩

theorem zip2_map_left {α β γ : Type} {f : γ → α} {R : α → β → Prop} {cs : List γ} {bs : List β} :
    Zip2 R (cs.map f) bs ↔ Zip2 (fun c b => R (f c) b) cs bs := by
  constructor
  · induction cs generalizing bs with
    | nil => intro h; cases h; exact .nil
    | cons c cs ih => intro h; cases h with
      | cons h h' => exact .cons h (ih h')
  · intro h
    induction h with
    | nil => exact .nil
    | cons h _ ih => exact .cons h ih

/-- A loop over the fields of an object. -/
theorem loop_fields {m : List (Field × Val)} {α : Type} {f : Field × Val → α} {p : α → Bool} {R : α → Val × Val → Prop} {P : Field → Val → Prop}
    {key : Field → String} {S : Field → Val → Val → Prop} (hp : ∀ q ∈ m, p (f q) = false ↔ P q.1 q.2)
    (hR : ∀ q ∈ m, ∀ b, R (f q) b ↔ b.1 = .str (key q.1) ∧ S q.1 q.2 b.2) {kvs : List (Val × Val)} :
    Zip2 R ((m.map f).filter p) kvs ↔
    ∃ l : List (Field × Val × Option Val), m = l.map (fun q => (q.1, q.2.1)) ∧ kvs = l.filterMap (fun q => q.2.2.map (fun y => (.str (key q.1), y))) ∧
      ∀ q ∈ l, (q.2.2 = none ↔ P q.1 q.2.1) ∧ ∀ y, q.2.2 = some y → S q.1 q.2.1 y := by
  rw [List.filter_map, zip2_map_left, zip2_filter, ← option_lists]
  constructor
  · rintro ⟨l, rfl, rfl, h⟩
    refine ⟨l, rfl, rfl, fun q hq => ?_⟩
    have hm : q.1 ∈ l.map (·.1) := List.mem_map.2 ⟨q, hq, rfl⟩
    exact ⟨(h q hq).1.trans (hp _ hm), fun b hb => (hR _ hm b).1 ((h q hq).2 b hb)⟩
  · rintro ⟨l, rfl, rfl, h⟩
    refine ⟨l, rfl, rfl, fun q hq => ?_⟩
    have hm : q.1 ∈ l.map (·.1) := List.mem_map.2 ⟨q, hq, rfl⟩
    exact ⟨(h q hq).1.trans (hp _ hm).symm, fun b hb => (hR _ hm b).2 ((h q hq).2 b hb)⟩

theorem foldl_eq_dictOf (l : List (Val × Val)) : Val.dict (l.foldl (fun a q => dset a q.1 q.2) []) = dictOf l := rfl

theorem iterItemTy_of {p : Prim} {t : Ty} (h : ElementsOf p t) : iterItemTy t = .prim p := by cases h <;> rfl

/-- Fields of a legal object. -/
theorem hidden_iff (hw : W.LegalDefaults) {c : Nat} {f : Field} (hf : f ∈ (W.cls c).fields) {x : Val} (hx : Legal W x) :
    (∃ d, f.default = some d ∧ pyEq d x = true) ↔ ∃ d, f.default = some d ∧ Equal d x := by
  constructor <;> rintro ⟨d, h1, h2⟩ <;> refine ⟨d, h1, ?_⟩
  · exact (pyEq_iff_equal (hw c f hf d h1) hx).1 h2
  · exact (pyEq_iff_equal (hw c f hf d h1) hx).2 h2

theorem hidden_iff' (hw : W.LegalDefaults) {c : Nat} {f : Field} (hf : f ∈ (W.cls c).fields) {x : Val} (hx : Legal W x) :
    attrIsDefault f x = true ↔ ∃ d, f.default = some d ∧ Equal d x := by
  unfold attrIsDefault
  cases hd : f.default with
  | none => simp
  | some d =>
    simp
    rw [pyEq_iff_equal hx (hw c f hf d hd)]
    exact ⟨Equal.symm, Equal.symm⟩

theorem isDefault_iff (hw : W.LegalDefaults) {c : Nat} {f : Field} (hf : f ∈ (W.cls c).fields) (hn : ((W.cls c).fields.map (·.name)).Nodup) {x : Val}
    (hx : Legal W x) : isDefault (classDefaults (W.cls c)) f.name x = true ↔ ∃ d, f.default = some d ∧ Equal d x := by
  unfold isDefault
  rw [show aget (classDefaults (W.cls c)) f.name = f.default from aget_classDefaults hn hf]
  cases hd : f.default with
  | none => simp
  | some d =>
    simp
    exact pyEq_iff_equal (hw c f hf d hd) hx

theorem pairs_eq {m : List (Field × Val)} {l : List (Field × Val × Option Val)} (h1 : m.map (·.1) = l.map (·.1))
    (h2 : m.map (fun q => (q.1.name, q.2)) = l.map (fun q => (q.1.name, q.2.1))) : m = l.map (fun q => (q.1, q.2.1)) := by
  induction m generalizing l with
  | nil => cases l with
    | nil => rfl
    | cons => cases h1
  | cons q m ih => cases l with
    | nil => cases h1
    | cons p l =>
      simp at h1 h2
      obtain ⟨f, x⟩ := q
      simp at h1 h2 ⊢
      exact ⟨⟨h1.1, h2.1.2⟩, ih h1.2 h2.2⟩

theorem perm_keys_eq {α β : Type} {f : α → β} {a b : List α} (hp : a.Perm b) (he : a.map f = b.map f) (hn : (b.map f).Nodup) : a = b := by
  refine List.ext_getElem? (fun i => ?_)
  have h := congrArg (·[i]?) he
  simp only [List.getElem?_map] at h
  cases ha : a[i]? with
  | none => rw [ha] at h; cases hb : b[i]? with
    | none => rfl
    | some y => rw [hb] at h; cases h
  | some x => rw [ha] at h; cases hb : b[i]? with
    | none => rw [hb] at h; cases h
    | some y =>
      rw [hb] at h
      simp only [Option.map_some, Option.some.injEq] at h
      rw [nodup_map_inj hn (hp.mem_iff.1 (List.mem_of_getElem? ha)) (List.mem_of_getElem? hb) h]

/-- `m` are the fields with their values, `m'` the same in the order in which they are written. -/
theorem obj_step {R : Val → Ty → Val → Prop} {v : Val} {c : Nat} {m m' : List (Field × Val)} (hobj : IsObject W v c (m.map (fun q => (q.1.name, q.2))))
    (hm : (W.cls c).fields = m.map (·.1)) (hn : (m.map (·.1.name)).Nodup) (hp : m'.Perm m) (ho : m'.map (·.1.name) = writeOrder W c) {t : Ty} {r : Val} :
    DStep W C R v t r ↔
    ∃ l : List (Field × Val × Option Val), m' = l.map (fun q => (q.1, q.2.1)) ∧
      r = dictOf (l.filterMap (fun q => q.2.2.map (fun y => (.str (fieldKey C (W.cls c).kind q.1), y)))) ∧
      ∀ q ∈ l, (q.2.2 = none ↔ FieldHidden C (W.cls c).kind q.1 q.2.1) ∧ ∀ y, q.2.2 = some y → R q.2.1 (fieldAnnotation (W.cls c).kind q.1) y := by
  constructor
  · intro h
    have hty : (∃ attrs, v = .nt c attrs) ∨ ∃ attrs, v = .inst c attrs := by
      rcases hobj with ⟨h, _⟩ | ⟨h, _⟩
      · exact Or.inl ⟨_, h⟩
      · exact Or.inr ⟨_, h⟩
    cases h with
    | @obj _ _ c' l k h1 h2 h3 h4 h5 h6 =>
      have : c' = c ∧ m.map (fun q => (q.1.name, q.2)) = l.map (fun q => (q.1.name, q.2.1)) := by
        rcases hobj with ⟨h, _⟩ | ⟨h, _⟩ <;> rcases h1 with ⟨h', _⟩ | ⟨h', _⟩ <;> rw [h] at h' <;> first | (cases h') | (injection h' with e1 e2; exact ⟨e1.symm, e2⟩)
      obtain ⟨rfl, he⟩ := this
      have hml := pairs_eq (by rw [← hm, h2]) he
      refine ⟨k, ?_, rfl, fun q hq => ⟨h3 q (h5.mem_iff.1 hq), h4 q (h5.mem_iff.1 hq)⟩⟩
      have hpk : (k.map (fun q => (q.1, q.2.1))).Perm m := by rw [hml]; exact h5.map _
      refine perm_keys_eq (f := fun q => q.1.name) (hp.trans hpk.symm) ?_ ((hpk.map _).nodup_iff.2 hn)
      rw [List.map_map]
      exact ho.trans h6.symm
    | basic h => rcases hty with ⟨_, rfl⟩ | ⟨_, rfl⟩ <;> cases h
    | iso _ h => rcases hty with ⟨_, rfl⟩ | ⟨_, rfl⟩ <;> cases h
    | _ => rcases hty with ⟨_, h⟩ | ⟨_, h⟩ <;> cases h
  · rintro ⟨k, rfl, rfl, h⟩
    obtain ⟨l, hl1, hl2⟩ := perm_map_exists hp.symm (l := k) rfl
    subst hl2
    refine .obj (l := l) ?_ (by rw [hm, List.map_map]; rfl) (fun q hq => (h q (hl1.mem_iff.1 hq)).1) (fun q hq => (h q (hl1.mem_iff.1 hq)).2) hl1.symm
      (by rw [← ho, List.map_map]; rfl)
    rw [List.map_map] at hobj; exact hobj

theorem writeOrder_decl {c : Nat} (h : (W.cls c).kind ≠ .dataclass) {m : List (Field × Val)} (hm : (W.cls c).fields = m.map (·.1)) :
    m.map (·.1.name) = writeOrder W c := by
  unfold writeOrder
  rw [if_neg h, hm, List.map_map]; rfl

/-- One step of the dumper without caches. -/
theorem refdump_succ (hd : C.Default) (hw : W.LegalDefaults) {v : Val} (hl : Legal W v) {n : Nat} {t : Ty} {r : Val} :
    Ref.dump W C (n + 1) v t () = .ok r () ↔ DStep W C (fun x u y => Ref.dump W C n x u () = .ok y ()) v t r := by
  have hs : Ref.dump W C (n + 1) v t = (match dPick W C v with
      | .error e => M.throw e
      | .ok h => dstep W C (fun c => Pure.pure (mkDataDesc W (W.cls c))) (Ref.dump W C n) h v t) := rfl
  rw [hs, dPick_eq hd]
  unfold dHandlerOf
  by_cases hb : C.isBasic (typeOf v) = true
  · rw [if_pos hb]
    obtain ⟨p, h1, h2⟩ := dconfig_isBasic hb
    constructor
    · intro h; cases h; exact .basic h1 h2
    · intro h
      have : r = v := by
        cases h with
        | basic => rfl
        | obj h => rcases h with ⟨rfl, _⟩ | ⟨rfl, _⟩ <;> cases h1
        | iso _ h => cases v <;> first | (cases h1; done) | (cases h; done)
        | _ => cases h1
      rw [this]; rfl
  rw [if_neg hb]
  have nb : ∀ p, typeOf v = .prim p → p ∉ C.basictypes := fun p h1 h2 => hb (by rw [h1]; simpa [DConfig.isBasic] using h2)
  cases v with
  | nt c fs =>
    obtain ⟨hk, hnames, hnd⟩ := hl.top
    have hnf : ((W.cls c).fields.map (·.name)).Nodup := hnames ▸ hnd
    obtain ⟨m, hm1, rfl⟩ := attrs_fields hnames
    have hmem : ∀ q ∈ m, q.1 ∈ (W.cls c).fields := fun q hq => hm1 ▸ List.mem_map.2 ⟨q, hq, rfl⟩
    have hleg : ∀ q ∈ m, Legal W q.2 := fun q hq => hl.inside (.item (n := q.1.name) .self (List.mem_map.2 ⟨q, hq, rfl⟩))
    rw [obj_step (Or.inl ⟨rfl, hk⟩) hm1 (by rw [hm1, List.map_map] at hnf; exact hnf) (.refl _) (writeOrder_decl (by rw [hk]; simp) hm1), hk]
    dsimp only
    unfold dstep
    dsimp only
    rw [R.bind_ok]
    have hstep := fun kvs => (dumpNt_ok (C := C) (rec := Ref.dump W C n) (defaults := classDefaults (W.cls c)) (fs := m.map (fun q => (q.1.name, q.2))) (r := kvs)).trans
      (loop_fields (m := m) (f := fun q => (q.1.name, q.2)) (P := FieldHidden C .namedtuple) (key := fieldKey C .namedtuple)
        (S := fun f x y => Ref.dump W C n x (fieldAnnotation .namedtuple f) () = .ok y ())
        (fun q hq => by
          unfold FieldHidden
          rw [← isDefault_iff hw (hmem q hq) hnf (hleg q hq)]
          simp)
        (fun q hq b => Iff.rfl))
    have hdist : ∀ l : List (Field × Val × Option Val), m = l.map (fun q => (q.1, q.2.1)) →
        Val.dict (l.filterMap (fun q => q.2.2.map (fun y => (.str (fieldKey C .namedtuple q.1), y)))) =
        dictOf (l.filterMap (fun q => q.2.2.map (fun y => (.str (fieldKey C .namedtuple q.1), y)))) := by
      intro l hl
      unfold dictOf
      rw [foldl_dset_distinct (acc := [])]
      · rfl
      rw [List.nil_append]
      have h1 : (l.map (fun q => q.1.name)).Nodup := by
        rw [hm1, hl, List.map_map, List.map_map] at hnf; exact hnf
      clear hl
      unfold Distinct
      rw [List.pairwise_map, List.pairwise_filterMap]
      have h1 : (l.map (fun q => q.1.name)).Pairwise (· ≠ ·) := h1
      rw [List.pairwise_map] at h1
      refine h1.imp (fun {a b} hab x hx y hy => ?_)
      simp at hx hy
      obtain ⟨_, _, rfl⟩ := hx
      obtain ⟨_, _, rfl⟩ := hy
      simpa [pyEq, fieldKey] using hab
    constructor
    · rintro ⟨kvs, h1, h2⟩
      obtain ⟨l, hl1, rfl, h3⟩ := (hstep kvs).1 h1
      cases h2
      exact ⟨l, hl1, hdist l hl1, h3⟩
    · rintro ⟨l, hl1, rfl, h3⟩
      exact ⟨_, (hstep _).2 ⟨l, hl1, rfl, h3⟩, by rw [← hdist l hl1]; rfl⟩
  | inst c fs =>
    obtain ⟨hk', hnames, hnd⟩ := hl.top
    have hnf : ((W.cls c).fields.map (·.name)).Nodup := hnames ▸ hnd
    obtain ⟨m, hm1, rfl⟩ := attrs_fields hnames
    have hmem : ∀ q ∈ m, q.1 ∈ (W.cls c).fields := fun q hq => hm1 ▸ List.mem_map.2 ⟨q, hq, rfl⟩
    have hleg : ∀ q ∈ m, Legal W q.2 := fun q hq => hl.inside (.attr (n := q.1.name) .self (List.mem_map.2 ⟨q, hq, rfl⟩))
    have hget : ∀ q ∈ m, aget (m.map (fun q => (q.1.name, q.2))) q.1.name = some q.2 := fun q hq => aget_of_mem hnd (List.mem_map.2 ⟨q, hq, rfl⟩)
    rcases hk' with hk | hk
    · obtain ⟨m', hpm, hom⟩ := perm_map_exists (W.setOrder_perm ((W.cls c).fields.map (·.name))) (l := m) (f := fun q => q.1.name)
        (by rw [hm1, List.map_map]; rfl)
      rw [obj_step (Or.inr ⟨rfl, Or.inl hk⟩) hm1 (by rw [hm1, List.map_map] at hnf; exact hnf) hpm (by unfold writeOrder; rw [if_pos hk]; exact hom)]
      replace hmem : ∀ q ∈ m', q.1 ∈ (W.cls c).fields := fun q hq => hmem q (hpm.mem_iff.1 hq)
      replace hleg : ∀ q ∈ m', Legal W q.2 := fun q hq => hleg q (hpm.mem_iff.1 hq)
      replace hget : ∀ q ∈ m', aget (m.map (fun q => (q.1.name, q.2))) q.1.name = some q.2 := fun q hq => hget q (hpm.mem_iff.1 hq)
      dsimp only
      rw [hk]
      dsimp only
      unfold dstep
      dsimp only
      rw [R.bind_ok]
      have hall : ∀ f ∈ W.setOrder ((W.cls c).fields.map (·.name)), ∃ x, aget (m.map (fun q => (q.1.name, q.2))) f = some x := by
        intro f hf
        rw [← hom] at hf
        obtain ⟨q, hq, rfl⟩ := List.mem_map.1 hf
        exact ⟨_, hget q hq⟩
      have hz := fun kvs => (loop_fields (m := m') (f := fun q => q.1.name)
        (p := fun f => !(C.hidedefault && isDefault (classDefaults (W.cls c)) f ((aget (m.map (fun q => (q.1.name, q.2))) f).getD .none)))
        (R := fun f q => q.1 = .str (dumpName C (W.cls c) f) ∧ ∃ x, aget (m.map (fun q => (q.1.name, q.2))) f = some x ∧
          Ref.dump W C n x ((aget ((W.cls c).fields.map (fun f => (f.name, f.ty))) f).getD .any) () = .ok q.2 ())
        (P := FieldHidden C .dataclass) (key := fieldKey C .dataclass)
        (S := fun f x y => Ref.dump W C n x (fieldAnnotation .dataclass f) () = .ok y ()) (kvs := kvs)
        (fun q hq => by
          unfold FieldHidden
          rw [← isDefault_iff hw (hmem q hq) hnf (hleg q hq), hget q hq]
          simp)
        (fun q hq b => by
          rw [dumpName_eq hnf (hmem q hq), aget_hints_of hnf (hmem q hq), hget q hq]
          simp [fieldKey, dumpKey, fieldAnnotation]))
      constructor
      · rintro ⟨d, hd', h⟩
        cases hd'
        rw [R.bind_ok] at h
        obtain ⟨kvs, h1, h2⟩ := h
        cases h2
        obtain ⟨_, l, h3, rfl⟩ := dumpFields_ok.1 h1
        obtain ⟨l', hl1, rfl, h4⟩ := (hz l).1 (by
          have : (mkDataDesc W (W.cls c)).fields = m'.map (fun q => q.1.name) := hom.symm
          rw [this] at h3; exact h3)
        exact ⟨l', hl1, rfl, h4⟩
      · rintro ⟨l, hl1, rfl, h3⟩
        refine ⟨_, rfl, ?_⟩
        rw [R.bind_ok]
        refine ⟨_, dumpFields_ok.2 ⟨hall, _, ?_, rfl⟩, rfl⟩
        have : (mkDataDesc W (W.cls c)).fields = m'.map (fun q => q.1.name) := hom.symm
        rw [this]
        exact (hz _).2 ⟨l, hl1, rfl, h3⟩
    · rw [obj_step (Or.inr ⟨rfl, Or.inr hk⟩) hm1 (by rw [hm1, List.map_map] at hnf; exact hnf) (.refl _) (writeOrder_decl (by rw [hk]; simp) hm1)]
      dsimp only
      rw [hk]
      dsimp only
      unfold dstep
      dsimp only
      rw [R.bind_ok]
      have hz := fun kvs => (loop_fields (m := m) (f := fun q => q.1)
        (p := fun f => f.repr && !(C.hidedefault && attrIsDefault f ((aget (m.map (fun q => (q.1.name, q.2))) f.name).getD .none)))
        (R := fun f q => q.1 = .str ((aget f.metadata C.mangleKey).getD f.name) ∧ ∃ x, aget (m.map (fun q => (q.1.name, q.2))) f.name = some x ∧
          Ref.dump W C n x .any () = .ok q.2 ())
        (P := FieldHidden C .attrs) (key := fieldKey C .attrs)
        (S := fun f x y => Ref.dump W C n x (fieldAnnotation .attrs f) () = .ok y ()) (kvs := kvs)
        (fun q hq => by
          unfold FieldHidden
          rw [← hidden_iff' hw (hmem q hq) (hleg q hq), hget q hq]
          cases q.1.repr <;> simp)
        (fun q hq b => by
          rw [hget q hq]
          simp [fieldKey, fieldAnnotation]))
      constructor
      · rintro ⟨kvs, h1, h2⟩
        cases h2
        obtain ⟨_, l, h3, rfl⟩ := dumpAttrs_ok.1 h1
        obtain ⟨l', hl1, rfl, h4⟩ := (hz l).1 (by rw [hm1] at h3; exact h3)
        exact ⟨l', hl1, rfl, h4⟩
      · rintro ⟨l, hl1, rfl, h3⟩
        refine ⟨_, dumpAttrs_ok.2 ⟨?_, _, ?_, rfl⟩, rfl⟩
        · intro f hf
          rw [hm1] at hf
          obtain ⟨q, hq, rfl⟩ := List.mem_map.1 hf
          exact ⟨_, hget q hq⟩
        · rw [hm1]; exact (hz _).2 ⟨l, hl1, rfl, h3⟩
  | seq k xs =>
    dsimp only
    unfold dstep
    dsimp only
    unfold iteratordump
    have hid : (C.handlers.head?.map (·.2) == some DHandler.identity) = true := by rw [show C.handlers = _ from hd]; rfl
    rw [hid, Bool.and_true]
    by_cases hc : C.isBasic (iterItemTy t) = true
    · rw [if_pos hc]
      obtain ⟨p, hp1, hp2⟩ := iterItemTy_basic hc
      constructor
      · intro h; cases h; exact .copy hp2 hp1
      · intro h
        cases h with
        | basic h => cases h
        | seq h => exact absurd hp1 (h p hp2)
        | copy => rfl
        | obj h => rcases h with ⟨h, _⟩ | ⟨h, _⟩ <;> cases h
        | iso _ h => cases h
    · rw [if_neg hc]
      have hno : ∀ p ∈ C.basictypes, ¬ ElementsOf p t := fun p hp he => hc (by rw [iterItemTy_of he]; simpa [DConfig.isBasic] using hp)
      rw [R.bind_ok]
      constructor
      · rintro ⟨ys, h1, h2⟩
        cases h2
        obtain ⟨l, h3, rfl, h4⟩ := zip2_pairs.1 (dumpList_ok.1 h1)
        have h3 : xs = _ := h3
        subst h3
        exact .seq hno h4
      · intro h
        cases h with
        | basic h => cases h
        | seq _ h => exact ⟨_, dumpList_ok.2 (zip2_pairs.2 ⟨_, rfl, rfl, h⟩), rfl⟩
        | copy h1 h2 => exact absurd h2 (hno _ h1)
        | obj h => rcases h with ⟨h, _⟩ | ⟨h, _⟩ <;> cases h
        | iso _ h => cases h
  | enumv e m =>
    dsimp only
    unfold dstep
    dsimp only
    constructor
    · intro h
      cases hm : aget (W.enm e).members m with
      | none => rw [hm] at h; cases h
      | some x => rw [hm] at h; exact .enum hm h
    · intro h
      cases h with
      | basic h => cases h
      | enum h1 h2 => rw [h1]; exact h2
      | obj h => rcases h with ⟨h, _⟩ | ⟨h, _⟩ <;> cases h
      | iso _ h => cases h
  | dict kvs =>
    dsimp only
    unfold dstep
    dsimp only
    rw [R.bind_ok]
    constructor
    · rintro ⟨kvs', h1, h2⟩
      cases h2
      obtain ⟨l, hz, rfl⟩ := dumpDict_ok.1 h1
      obtain ⟨l', rfl, rfl, h3⟩ := zip2_pairs.1 hz
      exact .dict (fun q hq => (h3 q hq).1) (fun q hq => (h3 q hq).2.1) (fun q hq => (h3 q hq).2.2)
    · intro h
      cases h with
      | basic h => cases h
      | dict h1 h2 h3 => exact ⟨_, dumpDict_ok.2 ⟨_, zip2_pairs.2 ⟨_, rfl, rfl, fun q hq => ⟨h1 q hq, h2 q hq, h3 q hq⟩⟩, rfl⟩, rfl⟩
      | obj h => rcases h with ⟨h, _⟩ | ⟨h, _⟩ <;> cases h
      | iso _ h => cases h
  | date y m d =>
    dsimp only
    unfold dstep
    dsimp only
    unfold datetimedump
    cases hi : C.isodates with
    | true =>
      constructor
      · intro h; cases h; exact .iso (k := .date) hi rfl
      · intro h
        cases h with
        | basic h => cases h
        | obj h => rcases h with ⟨h, _⟩ | ⟨h, _⟩ <;> cases h
        | iso => rfl
        | date h => rw [hi] at h; cases h
    | false =>
      constructor
      · intro h; cases h; exact .date hi
      · intro h
        cases h with
        | basic h => cases h
        | obj h => rcases h with ⟨h, _⟩ | ⟨h, _⟩ <;> cases h
        | iso h => rw [hi] at h; cases h
        | date h => rfl
  | time a b c d tz =>
    dsimp only
    unfold dstep
    dsimp only
    unfold datetimedump
    cases hi : C.isodates with
    | true =>
      constructor
      · intro h; cases h; exact .iso (k := .time) hi rfl
      · intro h
        cases h with
        | basic h => cases h
        | obj h => rcases h with ⟨h, _⟩ | ⟨h, _⟩ <;> cases h
        | iso => rfl
        | time h => rw [hi] at h; cases h
    | false =>
      constructor
      · intro h
        cases tz with
        | some => cases h
        | none => cases h; exact .time hi
      · intro h
        cases h with
        | basic h => cases h
        | obj h => rcases h with ⟨h, _⟩ | ⟨h, _⟩ <;> cases h
        | iso h => rw [hi] at h; cases h
        | time h => rfl
  | datetime y m d a b c e tz =>
    dsimp only
    unfold dstep
    dsimp only
    unfold datetimedump
    cases hi : C.isodates with
    | true =>
      constructor
      · intro h; cases h; exact .iso (k := .datetime) hi rfl
      · intro h
        cases h with
        | basic h => cases h
        | obj h => rcases h with ⟨h, _⟩ | ⟨h, _⟩ <;> cases h
        | iso => rfl
        | datetime h => rw [hi] at h; cases h
    | false =>
      constructor
      · intro h
        cases tz with
        | some => cases h
        | none => cases h; exact .datetime hi
      · intro h
        cases h with
        | basic h => cases h
        | obj h => rcases h with ⟨h, _⟩ | ⟨h, _⟩ <;> cases h
        | iso h => rw [hi] at h; cases h
        | datetime h => rfl
  | timedelta us =>
    constructor
    · intro h; cases h; exact .timedelta
    · intro h
      cases h with
      | basic h => cases h
      | obj h => rcases h with ⟨h, _⟩ | ⟨h, _⟩ <;> cases h
      | iso _ h => cases h
      | timedelta => rfl
  | pattern p =>
    constructor
    · intro h; cases h; exact .pattern
    · intro h
      cases h with
      | basic h => cases h
      | obj h => rcases h with ⟨h, _⟩ | ⟨h, _⟩ <;> cases h
      | iso _ h => cases h
      | pattern => rfl
  | strobj c' s' =>
    dsimp only
    constructor
    · intro h
      cases hc : C.strconstructed.contains c' with
      | true => rw [hc] at h; cases h; exact .strcons (by simpa using hc)
      | false => rw [hc] at h; cases h
    · intro h
      cases h with
      | basic h => cases h
      | obj h => rcases h with ⟨h, _⟩ | ⟨h, _⟩ <;> cases h
      | iso _ h => cases h
      | strcons h => rw [if_pos (by simpa using h)]; rfl
  | _ =>
    constructor
    · intro h; cases h
    · intro h
      cases h with
      | basic h1 h2 => exact absurd h2 (nb _ h1)
      | obj h => rcases h with ⟨h, _⟩ | ⟨h, _⟩ <;> cases h
      | iso _ h => cases h


/-- The parts of a legal value are legal. -/
theorem DStep.legal {R S : Val → Ty → Val → Prop} {v : Val} {t : Ty} {r : Val} (h : DStep W C R v t r) (hl : Legal W v)
    (hrs : ∀ x u y, Legal W x → R x u y → S x u y) : DStep W C S v t r := by
  cases h with
  | basic h1 h2 => exact .basic h1 h2
  | seq h1 h2 => exact .seq h1 (fun q hq => hrs _ _ _ (hl.inside (.elem .self (List.mem_map.2 ⟨q, hq, rfl⟩))) (h2 q hq))
  | copy h1 h2 => exact .copy h1 h2
  | dict h1 h2 h3 =>
    exact .dict (fun q hq => hrs _ _ _ (hl.inside (.key (x := q.1.2) .self (List.mem_map.2 ⟨q, hq, rfl⟩))) (h1 q hq))
      (fun q hq => hrs _ _ _ (hl.inside (.val (k := q.1.1) .self (List.mem_map.2 ⟨q, hq, rfl⟩))) (h2 q hq)) h3
  | obj h1 h2 h3 h4 h5 h6 =>
    refine .obj h1 h2 h3 (fun q hq y hy => hrs _ _ _ ?_ (h4 q hq y hy)) h5 h6
    rcases h1 with ⟨rfl, _⟩ | ⟨rfl, _⟩
    · exact hl.inside (.item (n := q.1.name) .self (List.mem_map.2 ⟨q, hq, rfl⟩))
    · exact hl.inside (.attr (n := q.1.name) .self (List.mem_map.2 ⟨q, hq, rfl⟩))
  | enum h1 h2 => exact .enum h1 (hrs _ _ _ (hl.inside (.member .self h1)) h2)
  | iso h1 h2 => exact .iso h1 h2
  | date h => exact .date h
  | time h => exact .time h
  | datetime h => exact .datetime h
  | timedelta => exact .timedelta
  | pattern => exact .pattern
  | strcons h => exact .strcons h

theorem DStep.dumped {v : Val} {t : Ty} {r : Val} (h : DStep W C (Dumped W C) v t r) : Dumped W C v t r := by
  cases h with
  | basic h1 h2 => exact .basic h1 h2
  | seq h1 h2 => exact .seq h1 h2
  | copy h1 h2 => exact .copy h1 h2
  | dict h1 h2 h3 => exact .dict h1 h2 h3
  | obj h1 h2 h3 h4 h5 h6 => exact .obj h1 h2 h3 h4 h5 h6
  | enum h1 h2 => exact .enum h1 h2
  | iso h1 h2 => exact .iso h1 h2
  | date h => exact .date h
  | time h => exact .time h
  | datetime h => exact .datetime h
  | timedelta => exact .timedelta
  | pattern => exact .pattern
  | strcons h => exact .strcons h

theorem refdump_dumped (hd : C.Default) (hw : W.LegalDefaults) {n : Nat} {v : Val} {t : Ty} {r : Val} (hl : Legal W v)
    (h : Ref.dump W C n v t () = .ok r ()) : Dumped W C v t r := by
  induction n generalizing v t r with
  | zero => cases h
  | succ n ih => exact (((refdump_succ hd hw hl).1 h).legal hl (fun x u y hx hr => ih hx hr)).dumped

theorem one_fuel {α : Type} {P : Nat → α → Prop} (hm : ∀ {n m a}, n ≤ m → P n a → P m a) {l : List α} (h : ∀ a ∈ l, ∃ n, P n a) :
    ∃ n, ∀ a ∈ l, P n a := by
  induction l with
  | nil => exact ⟨0, by simp⟩
  | cons a l ih =>
    obtain ⟨n, hn⟩ := h a (by simp)
    obtain ⟨m, hm'⟩ := ih (fun a ha => h a (by simp [ha]))
    refine ⟨max n m, fun b hb => ?_⟩
    rcases List.mem_cons.1 hb with rfl | hb
    · exact hm (Nat.le_max_left _ _) hn
    · exact hm (Nat.le_max_right _ _) (hm' b hb)

theorem dumped_refdump (hd : C.Default) (hw : W.LegalDefaults) {v : Val} {t : Ty} {r : Val} (h : Dumped W C v t r) (hl : Legal W v) :
    ∃ n, Ref.dump W C n v t () = .ok r () := by
  suffices h' : ∃ n, DStep W C (fun x u y => Ref.dump W C n x u () = .ok y ()) v t r by
    obtain ⟨n, h⟩ := h'
    exact ⟨n + 1, (refdump_succ hd hw hl).2 h⟩
  have one : ∀ {v t r}, Legal W v → (∃ n, DStep W C (fun x u y => Ref.dump W C n x u () = .ok y ()) v t r) → ∃ n, Ref.dump W C n v t () = .ok r () :=
    fun hl ⟨n, h⟩ => ⟨n + 1, (refdump_succ hd hw hl).2 h⟩
  induction h with
  | basic h1 h2 => exact ⟨0, .basic h1 h2⟩
  | @seq k t l h1 h2 ih =>
    obtain ⟨n, hn⟩ := one_fuel (P := fun n (q : Val × Val) => Ref.dump W C n q.1 .any () = .ok q.2 ()) (fun {_ _ _} h h2 => refdump_le h h2) (l := l)
      (fun q hq => have hl' := hl.inside (.elem .self (List.mem_map.2 ⟨q, hq, rfl⟩)); one hl' (ih q hq hl'))
    exact ⟨n, .seq h1 hn⟩
  | copy h1 h2 => exact ⟨0, .copy h1 h2⟩
  | @dict t l h1 h2 h3 ih1 ih2 =>
    obtain ⟨n, hn⟩ := one_fuel (P := fun n (q : (Val × Val) × (Val × Val)) => Ref.dump W C n q.1.1 .any () = .ok q.2.1 ()) (fun {_ _ _} h h2 => refdump_le h h2) (l := l)
      (fun q hq => have hl' := hl.inside (.key (x := q.1.2) .self (List.mem_map.2 ⟨q, hq, rfl⟩)); one hl' (ih1 q hq hl'))
    obtain ⟨m, hm⟩ := one_fuel (P := fun n (q : (Val × Val) × (Val × Val)) => Ref.dump W C n q.1.2 .any () = .ok q.2.2 ()) (fun {_ _ _} h h2 => refdump_le h h2) (l := l)
      (fun q hq => have hl' := hl.inside (.val (k := q.1.1) .self (List.mem_map.2 ⟨q, hq, rfl⟩)); one hl' (ih2 q hq hl'))
    exact ⟨max n m, .dict (fun q hq => refdump_le (Nat.le_max_left _ _) (hn q hq)) (fun q hq => refdump_le (Nat.le_max_right _ _) (hm q hq)) h3⟩
  | @obj v t c l m h1 h2 h3 h4 h5 h6 ih =>
    have hin : ∀ q ∈ l, Legal W q.2.1 := by
      intro q hq
      rcases h1 with ⟨rfl, _⟩ | ⟨rfl, _⟩
      · exact hl.inside (.item (n := q.1.name) .self (List.mem_map.2 ⟨q, hq, rfl⟩))
      · exact hl.inside (.attr (n := q.1.name) .self (List.mem_map.2 ⟨q, hq, rfl⟩))
    obtain ⟨n, hn⟩ := one_fuel (P := fun n (q : Field × Val × Option Val) => ∀ y, q.2.2 = some y → Ref.dump W C n q.2.1 (fieldAnnotation (W.cls c).kind q.1) () = .ok y ())
      (fun {_ _ _} h h2 y hy => refdump_le h (h2 y hy)) (l := l) (fun q hq => by
        cases hq2 : q.2.2 with
        | none => exact ⟨0, fun y hy => by cases hy⟩
        | some z =>
          obtain ⟨n, hn⟩ := one (hin q hq) (ih q hq z hq2 (hin q hq))
          exact ⟨n, fun y hy => by cases hy; exact hn⟩)
    exact ⟨n, .obj h1 h2 h3 hn h5 h6⟩
  | enum h1 h2 ih =>
    have hl' := hl.inside (.member .self h1)
    obtain ⟨n, hn⟩ := one hl' (ih hl')
    exact ⟨n, .enum h1 hn⟩
  | iso h1 h2 => exact ⟨0, .iso h1 h2⟩
  | date h => exact ⟨0, .date h⟩
  | time h => exact ⟨0, .time h⟩
  | datetime h => exact ⟨0, .datetime h⟩
  | timedelta => exact ⟨0, .timedelta⟩
  | pattern => exact ⟨0, .pattern⟩
  | strcons h => exact ⟨0, .strcons h⟩

end TL
