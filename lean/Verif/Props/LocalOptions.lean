import Verif.Props.Local
/-!
# C85: `strconstructed`, `basictypes` and `mangle_key` only affect the types they concern
-/

namespace TL

variable {W : World} {C : Config}

/-- **C85** Two loaders that cannot be told apart by looking at the types that can be met while loading into `t` behave the same on `t`, for every
value, after any history and to any depth: the same result or the same exception, and the same state afterwards. -/
theorem C85_same_view {s : LState} (hs : Reachable W C s) (t : Ty) (C' : Config) (h : Config.Agree W C C' (Meets W C s t)) (n : Nat) (v : Val) :
    load W C' n v t s = load W C n v t s :=
  (SameAt.loadWith h (Meets.closed s t) (SameAt.run h (Meets.closed s t) n) v .self none s (hs.good_meets t)).symm

/-- `firstOf` looks at the configuration through the conditions and `raiseconditionerrors` only. -/
theorem firstOf_congr {C' : Config} {t : Ty} (hr : C'.raiseconditionerrors = C.raiseconditionerrors)
    (he : ∀ c, evalCond W C' c t = evalCond W C c t) (l : List (Cond × Handler)) : firstOf W C' t l = firstOf W C t l := by
  induction l with
  | nil => rfl
  | cons p l ih => obtain ⟨c, h⟩ := p; unfold firstOf; rw [he, ih, hr]

/-- **C85** `loader.strconstructed` may be anything, as far as types are concerned that do not meet the difference. -/
theorem C85_strconstructed {s : LState} (hs : Reachable W C s) (t : Ty) (names : List String)
    (hsame : ∀ c, Meets W C s t (.strcons c) → (c ∈ names ↔ c ∈ C.strconstructed)) (n : Nat) (v : Val) :
    load W { C with strconstructed := names } n v t s = load W C n v t s := by
  refine C85_same_view hs t { C with strconstructed := names } ⟨rfl, rfl, rfl, rfl, fun _ _ => rfl, fun _ _ _ _ => rfl, fun u hu => ?_⟩ n v
  rw [pick_firstOf, pick_firstOf]
  refine (firstOf_congr (C := C) (C' := { C with strconstructed := names }) rfl (fun c => ?_) _).symm
  cases c <;> try rfl
  cases u <;> try rfl
  rename_i c
  simp only [evalCond]
  rw [Except.ok.injEq, Bool.eq_iff_iff, List.contains_iff_mem, List.contains_iff_mem]
  exact hsame c hu

/-- **C85** `loader.basictypes` may be anything, as far as types are concerned that do not meet the difference. -/
theorem C85_basictypes {s : LState} (hs : Reachable W C s) (t : Ty) (basics : List Prim)
    (hsame : ∀ p, Meets W C s t (.prim p) → (p ∈ basics ↔ p ∈ C.basictypes)) (n : Nat) (v : Val) :
    load W { C with basictypes := basics } n v t s = load W C n v t s := by
  have hb : ∀ u, Meets W C s t u → ({ C with basictypes := basics } : Config).isBasic u = C.isBasic u := by
    intro u hu
    cases u <;> try rfl
    rename_i p
    simp only [Config.isBasic]
    rw [Bool.eq_iff_iff, List.contains_iff_mem, List.contains_iff_mem]
    exact hsame p hu
  refine C85_same_view hs t { C with basictypes := basics } ⟨rfl, rfl, rfl, rfl, hb, fun _ _ _ _ => rfl, fun u hu => ?_⟩ n v
  rw [pick_firstOf, pick_firstOf]
  refine (firstOf_congr (C := C) (C' := { C with basictypes := basics }) rfl (fun c => ?_) _).symm
  cases c <;> try rfl
  simp only [evalCond]
  rw [hb u hu]

/-- **C85** `loader.mangle_key` may be anything, as far as types are concerned in which no field has metadata under the one key or the other. -/
theorem C85_mangle_key {s : LState} (hs : Reachable W C s) (t : Ty) (key : String)
    (hsame : ∀ c, Meets W C s t (.obj c) → ∀ f ∈ (W.cls c).fields, aget f.metadata key = aget f.metadata C.mangleKey) (n : Nat) (v : Val) :
    load W { C with mangleKey := key } n v t s = load W C n v t s := by
  refine C85_same_view hs t { C with mangleKey := key } ⟨rfl, rfl, rfl, rfl, fun _ _ => rfl, hsame, fun u hu => ?_⟩ n v
  rw [pick_firstOf, pick_firstOf]
  exact (firstOf_congr (C := C) (C' := { C with mangleKey := key }) rfl (fun c => by cases c <;> rfl) _).symm

/-- The hypotheses, for the types met while loading into a list of objects of a recursive class: no string constructed type, the basic types
`int` and `None` in both sets, no metadata... -/
example : (∀ c, Meets Sample.WB Sample.C (fresh []) (.coll .list (.obj 7)) (.strcons c) → (c ∈ ["Decimal"] ↔ c ∈ Sample.C.strconstructed)) ∧
    (∀ p, Meets Sample.WB Sample.C (fresh []) (.coll .list (.obj 7)) (.prim p) → (p ∈ [Prim.int, .none, .bytes] ↔ p ∈ Sample.C.basictypes)) ∧
    (∀ c, Meets Sample.WB Sample.C (fresh []) (.coll .list (.obj 7)) (.obj c) → ∀ f ∈ (Sample.WB.cls c).fields,
      aget f.metadata "alias" = aget f.metadata Sample.C.mangleKey) := by
  refine ⟨fun c hc => ?_, fun p hp => ?_, fun c hc => ?_⟩
  · have := Sample.meets_nodes hc; simp at this
  · have := Sample.meets_nodes hp
    simp at this
    rcases this with rfl | rfl <;> decide
  · have := Sample.meets_nodes hc
    simp at this
    subst this
    decide
/-- ...and loads that the options do change: `Path` is not known any more, a string is not taken for a `bool` any more, and a renamed field is
read under its own name. -/
example : (apiLoad Sample.WB Sample.C 9 (.str "a") (.strcons "Path") []).val? = some (.strobj "Path" "a") ∧
    (apiLoad Sample.WB { Sample.C with strconstructed := ["Decimal"] } 9 (.str "a") (.strcons "Path") []).val? = none ∧
    (apiLoad Sample.WB Sample.C 9 (.str "5") (.prim .int) []).val? = some (.int 5) ∧
    (apiLoad Sample.WB { Sample.C with basictypes := [.str] } 9 (.str "5") (.prim .int) []).val? = none ∧
    (apiLoad Sample.WB Sample.C 9 (.dict [(.str "x", .int 1), (.str "zed", .str "b")]) (.obj 0) []).val? =
      some (.inst 0 [("x", .int 1), ("z", .str "b"), ("y", .int 5)]) ∧
    (apiLoad Sample.WB { Sample.C with mangleKey := "alias" } 9 (.dict [(.str "x", .int 1), (.str "zed", .str "b")]) (.obj 0) []).val? = none := by
  decide

end TL
