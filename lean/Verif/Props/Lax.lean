import Verif.Lemmas.Lax
/-!
# C24, C25: strict options only reject
-/

namespace TL

variable {W : World} {C : Config}

/-- No union is met while loading into `t`, and no enum that tries the types of its annotations. -/
def UnionFree (W : World) (Γ : Env) (t : Ty) : Prop :=
  (∀ ts, ¬ Uses W Γ t (.union ts)) ∧ ∀ e, Uses W Γ t (.enum e) → (W.enm e).hints = []

theorem UnionFree.straight {Γ : Env} {t : Ty} (h : UnionFree W Γ t) : Straight W Γ (Uses W Γ t) where
  coll _ _ h := .coll h
  tuple _ h _ hu := .tuple h hu
  dictKey _ _ h := .dictKey h
  dictVal _ _ h := .dictVal h
  newtype _ _ h := .newtype h
  field _ h _ hf _ ht := .field h hf ht
  fref f _ _ hΓ hn hf := .fref f hn hΓ hf
  noUnion := h.1
  noHints := h.2

theorem Reaches.but {Γ : Env} {v x : Val} {t u : Ty} {bc fe : Bool} (h : Reaches W (C.but bc fe) Γ v t x u) : Reaches W C Γ v t x u := by
  induction h with
  | self => exact .self
  | elem _ h0 h1 h2 ih => exact .elem ih h0 h1 h2
  | item _ h0 h1 h2 ih => exact .item ih h0 h1 h2
  | key _ h1 h2 ih => exact .key ih h1 h2
  | val _ h1 h2 ih => exact .val ih h1 h2
  | member _ hu ih => exact .member ih hu
  | newtype _ ih => exact .newtype ih
  | hint _ hu ih => exact .hint ih hu
  | field _ hd hf hk hx ht ih =>
    refine .field ih hd hf ?_ hx ht
    cases hk with
    | name => exact .name
    | renamed g h1 h2 h3 => exact .renamed g h1 h2 h3
  | fref f _ h1 h2 ih => exact .fref f ih h1 h2

theorem Steady.but {Γ : Env} {v : Val} {t : Ty} {bc fe : Bool} (h : Steady W C Γ v t) : Steady W (C.but bc fe) Γ v t where
  unnamed := h.unnamed
  dictSafe k w hu := by
    have := h.dictSafe k w hu
    unfold DictSafe at *
    simp only [isBasic_but]
    exact this
  dictColl := h.dictColl
  intKeys d kvs w hr hd := h.intKeys d kvs w (hr.but) hd
  intVals d kvs w hr hd := h.intVals d kvs w (hr.but) hd

/-- **C24 and C25** A successful load is the same with a configuration that converts more (`basiccast`) and rejects less
(`failonextra`), whatever loads the two loaders did before. -/
theorem lax_loads {bc fe : Bool} (hbc : C.basiccast = true → bc = true) (hfe : fe = true → C.failonextra = true)
    (hd : C.Default) (h1 : W.NotRequiredLaw) (h2 : W.SteadyTags) {s s' : LState} (hs : Reachable W C s)
    (hs' : Reachable W (C.but bc fe) s') {v : Val} {t : Ty} (hn : SameNames W (namesIn W s t) (namesIn W s' t) t)
    (hst : Steady W C (namesIn W s t) v t) (hu : UnionFree W (namesIn W s t) t) {r : Val} {s1 : LState} (h : Loads W C s v t r s1) :
    ∃ s2, Loads W (C.but bc fe) s' v t r s2 := by
  obtain ⟨n, hr⟩ := (loads_ref hd h1 h2 hs (.refl _ _) hst r).1 ⟨s1, h⟩
  refine (loads_ref (C := C.but bc fe) hd h1 h2 hs' hn hst.but r).2 ⟨n, ?_⟩
  have := Le.load hd hu.straight hbc hfe n v t .self
  unfold Le at this
  rw [hr] at this
  exact this

/-- **C24** What loads with `basiccast=False` loads with `basiccast=True`, and the result is the same (any two loaders, in any state). -/
theorem C24_partial (hd : C.Default) (h1 : W.NotRequiredLaw) (h2 : W.SteadyTags) {s s' : LState} (hs : Reachable W C s)
    (hs' : Reachable W { C with basiccast := true } s') {v : Val} {t : Ty} (hn : SameNames W (namesIn W s t) (namesIn W s' t) t)
    (hst : Steady W C (namesIn W s t) v t) (hu : UnionFree W (namesIn W s t) t) {r : Val} {s1 : LState} (h : Loads W C s v t r s1) :
    ∃ s2, Loads W { C with basiccast := true } s' v t r s2 :=
  lax_loads (bc := true) (fe := C.failonextra) (fun _ => rfl) id hd h1 h2 hs hs' hn hst hu h

/-- **C24** for new loaders. -/
theorem C24_fresh_partial (hd : C.Default) (h1 : W.NotRequiredLaw) (h2 : W.SteadyTags) {v : Val} {t : Ty}
    (hst : Steady W C (namesIn W (fresh []) t) v t) (hu : UnionFree W (namesIn W (fresh []) t) t) {r : Val} {s1 : LState}
    (h : Loads W C (fresh []) v t r s1) : ∃ s2, Loads W { C with basiccast := true } (fresh []) v t r s2 :=
  C24_partial hd h1 h2 (.new (some []) []) (.new (some []) []) (.refl _ _) hst hu h

/-- **C25** What loads with `failonextra=True` loads with `failonextra=False`, and the result is the same (any two loaders, in any state). -/
theorem C25_partial (hd : C.Default) (h1 : W.NotRequiredLaw) (h2 : W.SteadyTags) {s s' : LState} (hs : Reachable W C s)
    (hs' : Reachable W { C with failonextra := false } s') {v : Val} {t : Ty} (hn : SameNames W (namesIn W s t) (namesIn W s' t) t)
    (hst : Steady W C (namesIn W s t) v t) (hu : UnionFree W (namesIn W s t) t) {r : Val} {s1 : LState} (h : Loads W C s v t r s1) :
    ∃ s2, Loads W { C with failonextra := false } s' v t r s2 :=
  lax_loads (bc := C.basiccast) (fe := false) id (fun h => by cases h) hd h1 h2 hs hs' hn hst hu h

/-- **C25** for new loaders. -/
theorem C25_fresh_partial (hd : C.Default) (h1 : W.NotRequiredLaw) (h2 : W.SteadyTags) {v : Val} {t : Ty}
    (hst : Steady W C (namesIn W (fresh []) t) v t) (hu : UnionFree W (namesIn W (fresh []) t) t) {r : Val} {s1 : LState}
    (h : Loads W C (fresh []) v t r s1) : ∃ s2, Loads W { C with failonextra := false } (fresh []) v t r s2 :=
  C25_partial hd h1 h2 (.new (some []) []) (.new (some []) []) (.refl _ _) hst hu h

/-! ## Counterexamples -/

/-- With unions: `Union[Tuple[int], Tuple[str]]` on `["5"]`. -/
theorem C24_union_counterexample : ∃ r s1 r' s2,
    Loads Sample.W { basiccast := false } (fresh []) (.list [.str "5"]) (.union [.tuple [.prim .int], .tuple [.prim .str]]) r s1 ∧
    Loads Sample.W { basiccast := true } (fresh []) (.list [.str "5"]) (.union [.tuple [.prim .int], .tuple [.prim .str]]) r' s2 ∧ r ≠ r' :=
  ⟨_, _, _, _, ⟨9, rfl⟩, ⟨9, rfl⟩, by decide⟩

/-- With the confusion of handlers in `_dictload`: `Dict[timedelta, int]` on `{5: 1}` is five seconds with `basiccast=False` and
five days with `basiccast=True`. -/
theorem C24_dict_counterexample :
    (∃ s1, Loads Sample.W { basiccast := false } (fresh []) (.dict [(.int 5, .int 1)]) (.dict .timedelta (.prim .int))
      (.dict [(.timedelta 5000000, .int 1)]) s1) ∧
    ∃ s2, Loads Sample.W { basiccast := true } (fresh []) (.dict [(.int 5, .int 1)]) (.dict .timedelta (.prim .int))
      (.dict [(.timedelta 432000000000, .int 1)]) s2 :=
  ⟨⟨_, 9, rfl⟩, ⟨_, 9, rfl⟩⟩

/-- With unions: `Union[Tuple[int], Tuple[int, int]]` on `[1, 2]`. -/
theorem C25_union_counterexample : ∃ r s1 r' s2,
    Loads Sample.W { failonextra := true } (fresh []) (.list [.int 1, .int 2]) (.union [.tuple [.prim .int], .tuple [.prim .int, .prim .int]]) r s1 ∧
    Loads Sample.W { failonextra := false } (fresh []) (.list [.int 1, .int 2]) (.union [.tuple [.prim .int], .tuple [.prim .int, .prim .int]]) r' s2 ∧
    r ≠ r' :=
  ⟨_, _, _, _, ⟨9, rfl⟩, ⟨9, rfl⟩, by decide⟩

/-- With unions inside sets, permissive loading may even refuse: `Set[Union[List[int], Tuple[str]]]` on `[["5"]]` is `{("5",)}` with
`basiccast=False`; with `basiccast=True` the element becomes the list `[5]`, which no set can hold. -/
theorem C24_refused_counterexample :
    (∃ s1, Loads Sample.W { basiccast := false } (fresh []) (.list [.list [.str "5"]])
      (.coll .set (.union [.coll .list (.prim .int), .tuple [.prim .str]])) (.seq .set [.tuple [.str "5"]]) s1) ∧
    ∃ e s2, Raises Sample.W { basiccast := true } (fresh []) (.list [.list [.str "5"]])
      (.coll .set (.union [.coll .list (.prim .int), .tuple [.prim .str]])) e s2 :=
  ⟨⟨_, 9, rfl⟩, ⟨_, _, 9, rfl⟩⟩

/-- The same for failonextra: `Set[Union[Tuple[List[int]], Tuple[Tuple[int], int]]]` on `[[[1], 2]]`. -/
theorem C25_refused_counterexample :
    (∃ s1, Loads Sample.W { failonextra := true } (fresh []) (.list [.list [.list [.int 1], .int 2]])
      (.coll .set (.union [.tuple [.coll .list (.prim .int)], .tuple [.tuple [.prim .int], .prim .int]])) (.seq .set [.tuple [.tuple [.int 1], .int 2]]) s1) ∧
    ∃ e s2, Raises Sample.W { failonextra := false } (fresh []) (.list [.list [.list [.int 1], .int 2]])
      (.coll .set (.union [.tuple [.coll .list (.prim .int)], .tuple [.tuple [.prim .int], .prim .int]])) e s2 :=
  ⟨⟨_, 9, rfl⟩, ⟨_, _, 9, rfl⟩⟩

/-! ## The hypotheses are met -/

/-- The types met when loading a list of `P`. -/
theorem Sample.uses_P {Γ : Env} {u : Ty} (h : Uses Sample.W Γ (.coll .list (.obj 0)) u) :
    u = .coll .list (.obj 0) ∨ u = .obj 0 ∨ u = .prim .int ∨ u = .prim .str := by
  induction h with
  | self => exact Or.inl rfl
  | coll _ ih => simp at ih; obtain ⟨_, rfl⟩ := ih; simp
  | tuple _ _ ih => simp at ih
  | dictKey _ ih => simp at ih
  | dictVal _ ih => simp at ih
  | newtype _ ih => simp at ih
  | enum _ _ ih => simp at ih
  | union _ hu ih => simp at ih
  | field _ hf ht ih =>
    simp at ih; subst ih
    have hf' : _ ∈ Sample.clsP.fields := hf
    simp [Sample.clsP] at hf'
    rcases hf' with rfl | rfl | rfl <;> (cases ht <;> first | (simp; done) | contradiction)
  | fref f _ hΓ hn ih => simp at ih

/-- A list of dataclass instances, with strict options. -/
example (v r : Val) (s1 : LState) (h : Loads Sample.W { basiccast := false, failonextra := true } (fresh []) v (.coll .list (.obj 0)) r s1) :
    (∃ s2, Loads Sample.W { basiccast := true, failonextra := true } (fresh []) v (.coll .list (.obj 0)) r s2) ∧
    ∃ s2, Loads Sample.W { basiccast := false, failonextra := false } (fresh []) v (.coll .list (.obj 0)) r s2 := by
  have hst : Steady Sample.W { basiccast := false, failonextra := true } (namesIn Sample.W (fresh []) (.coll .list (.obj 0))) v (.coll .list (.obj 0)) :=
    ⟨fun f n _ hu => absurd (Sample.uses_P hu) (by simp), fun k w hu => absurd (Sample.uses_P hu) (by simp),
      fun k w hu => absurd (Sample.uses_P hu) (by simp), fun _ _ _ hu => absurd (Sample.uses_P hu.uses) (by simp),
      fun _ _ _ hu => absurd (Sample.uses_P hu.uses) (by simp)⟩
  have hu : UnionFree Sample.W (namesIn Sample.W (fresh []) (.coll .list (.obj 0))) (.coll .list (.obj 0)) :=
    ⟨fun ts hu => absurd (Sample.uses_P hu) (by simp), fun e hu => absurd (Sample.uses_P hu) (by simp)⟩
  exact ⟨C24_fresh_partial (C := { basiccast := false, failonextra := true }) rfl Sample.notRequiredLaw Sample.steadyTags hst hu h,
    C25_fresh_partial (C := { basiccast := false, failonextra := true }) rfl Sample.notRequiredLaw Sample.steadyTags hst hu h⟩
/-- And such loads exist. -/
example : ∃ r s1, Loads Sample.W { basiccast := false, failonextra := true } (fresh [])
    (.list [.dict [(.str "x", .int 1), (.str "zed", .str "q")]]) (.coll .list (.obj 0)) r s1 := ⟨_, _, 9, rfl⟩

end TL
