import Verif.Props.Simple
/-!
# C64: basic types are converted by calling them
-/

namespace TL

variable {W : World} {C : Config}

theorem step_basicload (rec : Rec) (p : Prim) (v : Val) (s : LState) : step W C rec .basicload v (.prim p) s =
    M.lift (if typeOf v = .prim p then .ok v else if C.basiccast then (match W.call (.prim p) v with
      | .ok x => .ok x
      | .error e => .error (if e.isValue then mkExc .tlValue (.py e) v (.prim p)
          else if e.isType then mkExc .tlType (.py e) v (.prim p)
          else mkExc .tlBase (.py e) v (.prim p)))
      else .error (mkExc .tlValue (.wrongType v (.prim p)) v (.prim p))) s := by
  simp only [step, basicload, pyCall]
  by_cases h : typeOf v = .prim p
  · simp [h]; rfl
  · simp only [h, ne_eq, not_false_eq_true, if_true, if_false]
    cases C.basiccast
    · rfl
    · simp only [if_true]
      cases W.call (.prim p) v with
      | ok x => rfl
      | error e => dsimp only; (repeat' split) <;> rfl

/-- **C64** A value of exactly the basic type asked for is returned as it is (nothing is called); any other is, with `basiccast`, what calling the type on it
returns, and nothing without. -/
theorem C64_loads {s : LState} {p : Prim} (hd : C.Usual W (.prim p)) (hs : Reachable W C s) (hp : p ∈ C.basictypes) (hn : p ≠ .none) (v r : Val) :
    (∃ s', Loads W C s v (.prim p) r s') ↔
      (typeOf v = .prim p ∧ r = v) ∨ (typeOf v ≠ .prim p ∧ C.basiccast = true ∧ W.call (.prim p) v = .ok r) := by
  rw [leaf_loads hs.coh (hd.basic hp hn) (fun rec s => step_basicload rec p v s)]
  by_cases h : typeOf v = .prim p
  · rw [if_pos h]
    constructor
    · intro hr; cases hr; exact Or.inl ⟨h, rfl⟩
    · rintro (⟨_, rfl⟩ | ⟨hh, _⟩)
      · rfl
      · exact absurd h hh
  · cases C.basiccast
    · simp [h]
    · simp only [h, if_false, if_true, false_and, false_or, not_false_eq_true, true_and, ne_eq]
      cases W.call (.prim p) v <;> simp

/-- **C64** (failures). An exception raised by calling the type becomes the corresponding TypedloadException: ValueError and TypeError their counterparts, anything
else TypedloadException; without `basiccast` a value of another type raises TypedloadValueError.  The exception holds the value and the type, and its trace has the
one entry of the call of `load`. -/
theorem C64_raises {s : LState} {p : Prim} (hd : C.Usual W (.prim p)) (hs : Reachable W C s) (hp : p ∈ C.basictypes) (hn : p ≠ .none) (v : Val) (e : Exc) :
    (∃ s', Raises W C s v (.prim p) e s') → e.value = v ∧ e.ty = some (.prim p) ∧ e.trace = [⟨v, .prim p, none⟩] ∧ e.subs = [] ∧ typeOf v ≠ .prim p ∧
      ((C.basiccast = false ∧ e.cls = .tlValue) ∨
       (C.basiccast = true ∧ ∃ x, W.call (.prim p) v = .error x ∧ e.cls = (if x.isValue then .tlValue else if x.isType then .tlType else .tlBase))) := by
  rw [leaf_raises hs.coh (hd.basic hp hn) (fun rec s => step_basicload rec p v s)]
  rintro ⟨e', h1, rfl⟩
  by_cases h : typeOf v = .prim p
  · simp [h] at h1
  · simp only [h, if_false] at h1
    cases hb : C.basiccast
    · simp only [hb, Bool.false_eq_true, if_false, Except.error.injEq] at h1
      subst h1
      simp [loadExc, mkExc, ExcClass.isTL, h]
    · simp only [hb, if_true] at h1
      cases hc : W.call (.prim p) v with
      | ok x => rw [hc] at h1; cases h1
      | error x =>
        rw [hc] at h1
        simp only [Except.error.injEq] at h1
        subst h1
        cases h2 : x.isValue <;> cases h3 : x.isType <;> simp [loadExc, mkExc, ExcClass.isTL, h, h2, h3]

/-- **C64** A load into a basic type ends. -/
theorem C64_ends {s : LState} {p : Prim} (hd : C.Usual W (.prim p)) (hs : Reachable W C s) (hp : p ∈ C.basictypes) (hn : p ≠ .none) (v : Val) :
    (∃ r s', Loads W C s v (.prim p) r s') ∨ ∃ e s', Raises W C s v (.prim p) e s' := by
  have h1 := leaf_loads hs.coh (hd.basic hp hn) (fun rec s => step_basicload rec p v s)
  have h2 := leaf_raises hs.coh (hd.basic hp hn) (fun rec s => step_basicload rec p v s)
  revert h1 h2
  generalize (if typeOf v = .prim p then Except.ok v else if C.basiccast then (match W.call (.prim p) v with
      | .ok x => Except.ok x
      | .error e => .error (if e.isValue then mkExc .tlValue (.py e) v (.prim p)
          else if e.isType then mkExc .tlType (.py e) v (.prim p)
          else mkExc .tlBase (.py e) v (.prim p)))
      else .error (mkExc .tlValue (.wrongType v (.prim p)) v (.prim p)) : Except Exc Val) = x
  intro h1 h2
  cases x with
  | ok r => exact Or.inl ⟨r, (h1 r).2 rfl⟩
  | error e => exact Or.inr ⟨_, (h2 _).2 ⟨e, rfl, rfl⟩⟩

example : Sample.C.Usual Sample.W (.prim .int) ∧ Prim.int ∈ Sample.C.basictypes ∧ Reachable Sample.W Sample.C (fresh []) := ⟨rfl, by decide, .new _ _⟩
/-- `load("5", int)` is `int("5")`; `load("x", int)` raises TypedloadValueError; `load([], int)` TypedloadTypeError. -/
example : (load Sample.W Sample.C 1 (.str "5") (.prim .int) (fresh [])).val? = some (.int 5) := by decide
example : (load Sample.W Sample.C 1 (.str "x") (.prim .int) (fresh [])).err?.map (·.cls) = some .tlValue := by decide
example : (load Sample.W Sample.C 1 (.list []) (.prim .int) (fresh [])).err?.map (·.cls) = some .tlType := by decide

end TL
