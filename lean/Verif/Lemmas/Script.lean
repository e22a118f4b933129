import Verif.Lemmas.Load
/-!
# User-supplied handlers that call the loader back
-/

namespace TL

/-- The end of a computation, as a pair of an outcome and a state. -/
def Res.mk {σ : Type} (o : Except Exc Val) (s : σ) : Res σ Exc Val :=
  match o with
  | .ok r => .ok r s
  | .error e => .err e s

theorem Res.mk_inj {σ : Type} {o o' : Except Exc Val} {s s' : σ} (h : Res.mk o s = Res.mk o' s') : o = o' ∧ s = s' := by
  cases o <;> cases o' <;> simp [Res.mk] at h <;> simp [h]

theorem Res.mk_ne_div {σ : Type} (o : Except Exc Val) (s : σ) : Res.mk o s ≠ .div := by cases o <;> simp [Res.mk]

theorem Res.eq_mk {σ : Type} (r : Res σ Exc Val) : r = .div ∨ ∃ o s, r = Res.mk o s := by
  cases r with
  | ok a s => exact Or.inr ⟨.ok a, s, rfl⟩
  | err e s => exact Or.inr ⟨.error e, s, rfl⟩
  | div => exact Or.inl rfl

/-- Running a handler with calls that are defined up to some fuel, and the relation of their ends. -/
theorem plays_iff {σ : Type} {f : Nat → Val → Ty → Option Annotation → M σ Exc Val}
    (hmono : ∀ n m, n ≤ m → ∀ v t a, LeM (f n v t a) (f m v t a)) (p : Script) : ∀ (s : σ) (o : Except Exc Val) (s' : σ),
    (∃ n, p.run (f n) s = Res.mk o s') ↔ Plays (fun s v t a o s' => ∃ n, f n v t a s = Res.mk o s') p s o s' := by
  induction p with
  | ret v =>
    intro s o s'
    constructor
    · rintro ⟨n, h⟩
      obtain ⟨rfl, rfl⟩ := Res.mk_inj (o := .ok v) (s := s) h
      exact .ret
    · intro h; cases h; exact ⟨0, rfl⟩
  | raise e =>
    intro s o s'
    constructor
    · rintro ⟨n, h⟩
      obtain ⟨rfl, rfl⟩ := Res.mk_inj (o := .error e) (s := s) h
      exact .raise
    · intro h; cases h; exact ⟨0, rfl⟩
  | call v t a next ih =>
    intro s o s'
    have step : ∀ n o1 s1, f n v t a s = Res.mk o1 s1 → (Script.call v t a next).run (f n) s = (next o1).run (f n) s1 := by
      intro n o1 s1 h
      show M.handle _ _ _ s = _
      rw [M.handle_apply, h]
      cases o1 <;> rfl
    constructor
    · rintro ⟨n, h⟩
      rcases Res.eq_mk (f n v t a s) with hd | ⟨o1, s1, h1⟩
      · exfalso
        have : (Script.call v t a next).run (f n) s = .div := by
          show M.handle _ _ _ s = _
          rw [M.handle_apply, hd]
        rw [this] at h
        exact Res.mk_ne_div _ _ h.symm
      · exact .call ⟨n, h1⟩ ((ih o1 s1 o s').1 ⟨n, by rw [← step n o1 s1 h1]; exact h⟩)
    · intro h
      cases h with
      | call h1 h2 =>
        obtain ⟨n, h1⟩ := h1
        obtain ⟨m, h2⟩ := (ih _ _ _ _).2 h2
        refine ⟨max n m, ?_⟩
        have e1 := hmono n (max n m) (by omega) v t a s (by rw [h1]; exact Res.mk_ne_div _ _)
        rw [step (max n m) _ _ (e1.trans h1)]
        have e2 := LeM.script (hmono m (max n m) (by omega)) (next _) _ (by rw [h2]; exact Res.mk_ne_div _ _)
        exact e2.trans h2

variable {W : World} {C : Config}

theorem answers_iff {s s' : LState} {v : Val} {t : Ty} {a : Option Annotation} {o : Except Exc Val} :
    Answers W C s v t a o s' ↔ ∃ n, loadWith W C (run W C n) v t a s = Res.mk o s' := by
  unfold Answers; cases o <;> rfl

/-- What a user-supplied handler does. -/
theorem custom_run {s s' : LState} {i : Nat} {v : Val} {t : Ty} {o : Except Exc Val} :
    (∃ n, run W C n (.custom i) v t s = Res.mk o s') ↔ Plays (Answers W C) (W.customLoad i v t) s o s' := by
  have key := plays_iff (f := fun n => loadWith W C (run W C n)) (fun n m h v t a => loadWith_le h v t a) (W.customLoad i v t) s o s'
  have hA : (fun s v t a o s' => ∃ n, loadWith W C (run W C n) v t a s = Res.mk o s') = Answers W C := by
    funext s v t a o s'; exact propext answers_iff.symm
  rw [hA] at key
  rw [← key]
  constructor
  · rintro ⟨n, h⟩
    cases n with
    | zero => exact absurd h.symm (Res.mk_ne_div _ _)
    | succ n => exact ⟨n, h⟩
  · rintro ⟨n, h⟩; exact ⟨n + 1, h⟩

/-- The answers without annotation are those of `load`. -/
theorem answers_none {s s' : LState} {v : Val} {t : Ty} {o : Except Exc Val} : Answers W C s v t none o s' ↔
    match o with
    | .ok r => Loads W C s v t r s'
    | .error e => Raises W C s v t e s' := by
  cases o <;> exact Iff.rfl

/-- With an annotation, the result is the same, and the exceptions are the same up to the trace. -/
theorem answers_ok {s s' : LState} (hc : Coh W C s) {v r : Val} {t : Ty} {a : Option Annotation} :
    Answers W C s v t a (.ok r) s' ↔ Loads W C s v t r s' := by
  unfold Answers Loads
  constructor
  · rintro ⟨n, h⟩
    refine ⟨n, ?_⟩
    dsimp only at h
    rw [loadWith_eq hc] at h
    rw [load_eq hc]
    cases hp : pick W C t with
    | error c => rw [hp] at h; cases h
    | ok hh =>
      rw [hp] at h
      dsimp only at h ⊢
      cases hr : run W C n hh v t (cacheReg W t hh s) with
      | ok x s1 => rw [hr] at h; exact h
      | err x s1 => rw [hr] at h; cases h
      | div => rw [hr] at h; cases h
  · rintro ⟨n, h⟩
    refine ⟨n, ?_⟩
    dsimp only
    rw [loadWith_eq hc]
    rw [load_eq hc] at h
    cases hp : pick W C t with
    | error c => rw [hp] at h; cases h
    | ok hh =>
      rw [hp] at h
      dsimp only at h ⊢
      cases hr : run W C n hh v t (cacheReg W t hh s) with
      | ok x s1 => rw [hr] at h; exact h
      | err x s1 => rw [hr] at h; cases h
      | div => rw [hr] at h; cases h

end TL
