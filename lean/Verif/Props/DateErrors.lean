import Verif.Props.Simple
/-!
# C33: how unusable dates, times and datetimes are refused
-/

namespace TL

variable {W : World} {C : Config}

/-- The numbers of arguments that `date`, `time` and `datetime` accept. -/
def DtArity : DtKind → Nat → Prop
  | .date, n => n = 3
  | .time, n => n ≤ 4
  | .datetime, n => 3 ≤ n ∧ n ≤ 7

theorem raises_dt {s : LState} {k : DtKind} (hd : C.Usual W (.dt k)) (hs : Reachable W C s) (v : Val) {c : ExcClass} (hp : dtParse W k v = .error c) :
    ∃ e s', Raises W C s v (.dt k) e s' ∧ (c = .value → e.cls = .tlValue) ∧ (c = .type → e.cls = .tlType) := by
  obtain ⟨s', hr⟩ := (leaf_raises hs.coh (hd.dt) (fun rec s => step_dt rec k v s) _).2 ⟨_, by rw [hp], rfl⟩
  refine ⟨_, s', hr, ?_, ?_⟩
  · rintro rfl; simp [loadExc, mkExc, ExcClass.isTL, ExcClass.isType, ExcClass.isValue]
  · rintro rfl; simp [loadExc, mkExc, ExcClass.isTL, ExcClass.isType]

theorem dtParse_iter {k : DtKind} {v : Val} (hv : ∀ x, v ≠ .str x) : dtParse W k v = match pyIter v with
    | some xs => dtCall k xs
    | none => .error .type := by
  unfold dtParse; cases v <;> first | rfl | exact absurd rfl (hv _)

/-- **C33** (out of range). The right number of ints that are no date, time or datetime (a month 13, an hour 24, a 30th of February) is refused with
TypedloadValueError, for every loader and every container of the numbers. -/
theorem C33_out_of_range {s : LState} {k : DtKind} (hd : C.Usual W (.dt k)) (hs : Reachable W C s) {v : Val} {xs : List Val} {is : List Int}
    (hv : ∀ x, v ≠ .str x) (hx : pyIter v = some xs) (hi : Zip2 CIntOf xs is) (ha : DtArity k xs.length) :
    (∃ r s', Loads W C s v (.dt k) r s') ∨ ∃ e s', Raises W C s v (.dt k) e s' ∧ e.cls = .tlValue := by
  cases hp : dtParse W k v with
  | ok r => left; obtain ⟨s', h⟩ := (loads_dt hd hs v r).2 hp; exact ⟨r, s', h⟩
  | error c =>
    right
    obtain ⟨e, s', hr, h1, _⟩ := raises_dt hd hs v hp
    refine ⟨e, s', hr, h1 ?_⟩
    rw [dtParse_iter hv, hx] at hp
    dsimp only at hp
    unfold dtCall at hp
    have hc := toCInts_ok.2 hi
    have hl := hi.length_eq
    cases k with
    | date =>
      dsimp only [DtArity] at ha hp
      rw [if_neg (by omega), hc] at hp
      match is, hl with
      | [y, m, d], _ => dsimp only at hp; split at hp <;> cases hp; rfl
      | [], h => exfalso; rw [h] at ha; simp at ha
      | [_], h => exfalso; rw [h] at ha; simp at ha
      | [_, _], h => exfalso; rw [h] at ha; simp at ha
      | _ :: _ :: _ :: _ :: _, h => exfalso; rw [h] at ha; simp at ha
    | time =>
      dsimp only [DtArity] at ha hp
      rw [if_neg (by omega), hc] at hp
      dsimp only at hp; split at hp <;> cases hp; rfl
    | datetime =>
      dsimp only [DtArity] at ha hp
      rw [if_neg (by omega), hc] at hp
      dsimp only at hp; split at hp <;> cases hp; rfl

theorem toCInts_type : ∀ {xs : List Val}, (∀ x ∈ xs, ∀ n, x = .int n → -2147483648 ≤ n ∧ n ≤ 2147483647) →
    (∃ x ∈ xs, (∀ n, x ≠ .int n) ∧ ∀ b, x ≠ .bool b) → toCInts xs = .error .type
  | [], _, h => by simp at h
  | x :: xs, hf, h => by
    unfold toCInts
    by_cases hx : (∀ n, x ≠ .int n) ∧ ∀ b, x ≠ .bool b
    · have : toCInt x = .error .type := by
        unfold toCInt; cases x <;> first | rfl | exact absurd rfl (hx.1 _) | exact absurd rfl (hx.2 _)
      rw [this]
    · have h' : ∃ x ∈ xs, (∀ n, x ≠ .int n) ∧ ∀ b, x ≠ .bool b := by
        obtain ⟨y, hy, h1⟩ := h
        rcases List.mem_cons.1 hy with rfl | hy
        · exact absurd h1 hx
        · exact ⟨y, hy, h1⟩
      have ih := toCInts_type (fun y hy => hf y (by simp [hy])) h'
      have : ∃ i, toCInt x = .ok i := by
        unfold toCInt
        cases x with
        | bool b => exact ⟨_, rfl⟩
        | int n => exact ⟨n, if_pos (hf _ (by simp) n rfl)⟩
        | _ => exact absurd ⟨fun _ => by simp, fun _ => by simp⟩ hx
      obtain ⟨i, hi⟩ := this
      rw [hi, ih]

/-- **C33** (no arguments for the constructor). Data that is no string and cannot be iterated, or with a wrong number of elements, or with an element that is no
int, is refused with TypedloadTypeError. -/
theorem C33_wrong_shape {s : LState} {k : DtKind} (hd : C.Usual W (.dt k)) (hs : Reachable W C s) {v : Val} (hv : ∀ x, v ≠ .str x)
    (h : pyIter v = none ∨ ∃ xs, pyIter v = some xs ∧ (¬ DtArity k xs.length ∨
      (∀ x ∈ xs, ∀ n, x = .int n → -2147483648 ≤ n ∧ n ≤ 2147483647) ∧ ∃ x ∈ xs, (∀ n, x ≠ .int n) ∧ ∀ b, x ≠ .bool b)) :
    ∃ e s', Raises W C s v (.dt k) e s' ∧ e.cls = .tlType := by
  have hp : dtParse W k v = .error .type := by
    rw [dtParse_iter hv]
    rcases h with h | ⟨xs, hx, h⟩
    · rw [h]
    · rw [hx]
      dsimp only
      unfold dtCall
      rcases h with h | ⟨h1, h2⟩
      · cases k with
        | date => dsimp only [DtArity] at h ⊢; rw [if_pos h]
        | time => dsimp only [DtArity] at h ⊢; rw [if_pos (by omega)]
        | datetime => dsimp only [DtArity] at h ⊢; rw [if_pos (by omega)]
      · rw [toCInts_type h1 h2]
        cases k <;> dsimp only <;> split <;> rfl
  obtain ⟨e, s', hr, _, h2⟩ := raises_dt hd hs v hp
  exact ⟨e, s', hr, h2 rfl⟩

/-- Data as in the hypotheses: a month 13, an hour 24; a date of two numbers, a time with a string. -/
example : Sample.C.Usual Sample.W (.dt .date) ∧ pyIter (.list [.int 2024, .int 13, .int 1]) = some [.int 2024, .int 13, .int 1] ∧
    Zip2 CIntOf [.int 2024, .int 13, .int 1] [2024, 13, 1] ∧ DtArity .date [Val.int 2024, .int 13, .int 1].length ∧
    (¬ ∃ r s', Loads Sample.W Sample.C (fresh []) (.list [.int 2024, .int 13, .int 1]) (.dt .date) r s') ∧
    ¬ DtArity .date [Val.int 2024, .int 13].length ∧ DtArity .time [Val.int 24].length := by
  have hu : Sample.C.Usual Sample.W (.dt .date) := (show Sample.C.Default from rfl).usual
  refine ⟨hu, rfl, toCInts_ok.1 rfl, rfl, ?_, by simp [DtArity], by simp [DtArity]⟩
  rintro ⟨r, s', h⟩
  have := (loads_dt hu (.new _ _) _ _).1 ⟨s', h⟩
  cases this

end TL
