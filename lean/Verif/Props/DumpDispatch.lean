import Verif.Props.DumpTotal
import Verif.Lemmas.Script
/-!
# C53: dump handlers added by the user
-/

namespace TL

variable {W : World} {C : DConfig}

/-- The condition passes over the value: it is false, or it raises and errors in conditions are ignored. -/
def DRejects (W : World) (C : DConfig) (c : DCond) (v : Val) : Prop :=
  dEvalCond W C c v = .ok false ∨ (C.raiseconditionerrors = false ∧ ∃ x, dEvalCond W C c v = .error x)

theorem dIndexFrom_ok_iff (v : Val) (hs : List (DCond × DHandler)) : ∀ (k i : Nat),
    dIndexFrom W C v hs k = .ok i ↔ ∃ (j : Nat) (p : DCond × DHandler), i = k + j ∧ hs[j]? = some p ∧ dEvalCond W C p.1 v = .ok true ∧
      ∀ j' < j, ∀ q, hs[j']? = some q → DRejects W C q.1 v := by
  induction hs with
  | nil => intro k i; simp [dIndexFrom]
  | cons p hs ih =>
    obtain ⟨c, h⟩ := p
    intro k i
    have tail : DRejects W C c v → dEvalCond W C c v ≠ .ok true → (dIndexFrom W C v hs (k + 1) = .ok i ↔
        ∃ (j : Nat) (p : DCond × DHandler), i = k + j ∧ ((c, h) :: hs)[j]? = some p ∧ dEvalCond W C p.1 v = .ok true ∧
          ∀ j' < j, ∀ q, ((c, h) :: hs)[j']? = some q → DRejects W C q.1 v) := by
      intro hrej hnt
      rw [ih]
      constructor
      · rintro ⟨j, p, rfl, hp, ht, hb⟩
        refine ⟨j + 1, p, by omega, by simpa using hp, ht, fun j' hj q hq => ?_⟩
        cases j' with
        | zero => simp only [List.getElem?_cons_zero, Option.some.injEq] at hq; subst hq; exact hrej
        | succ j' => exact hb j' (by omega) q (by simpa using hq)
      · rintro ⟨j, p, rfl, hp, ht, hb⟩
        cases j with
        | zero => simp only [List.getElem?_cons_zero, Option.some.injEq] at hp; subst hp; exact absurd ht hnt
        | succ j => exact ⟨j, p, by omega, by simpa using hp, ht, fun j' hj q hq => hb (j' + 1) (by omega) q (by simpa using hq)⟩
    unfold dIndexFrom
    cases hc : dEvalCond W C c v with
    | error x =>
      dsimp only
      cases hr : C.raiseconditionerrors with
      | false => exact tail (Or.inr ⟨hr, x, hc⟩) (by rw [hc]; exact fun h => (by cases h))
      | true =>
        rw [if_pos rfl]
        constructor
        · intro h; cases h
        · rintro ⟨j, p, rfl, hp, ht, hb⟩
          exfalso
          cases j with
          | zero => simp only [List.getElem?_cons_zero, Option.some.injEq] at hp; subst hp; rw [hc] at ht; cases ht
          | succ j =>
            rcases hb 0 (by omega) (c, h) rfl with h' | ⟨h', _⟩
            · rw [hc] at h'; cases h'
            · rw [hr] at h'; cases h'
    | ok b =>
      cases b with
      | false => exact tail (Or.inl hc) (by rw [hc]; exact fun h => (by cases h))
      | true =>
        dsimp only
        constructor
        · intro h; cases h
          exact ⟨0, (c, _), by omega, rfl, hc, fun j' hj => absurd hj (by omega)⟩
        · rintro ⟨j, p, rfl, hp, ht, hb⟩
          cases j with
          | zero => rfl
          | succ j =>
            exfalso
            rcases hb 0 (by omega) (c, h) rfl with h' | ⟨_, x, h'⟩ <;> rw [hc] at h' <;> cases h'

/-- **C53** `Dumper.index(v)` is the position of the first handler whose condition holds of the value. -/
theorem C53_index_first_match (v : Val) (i : Nat) :
    dIndex W C v = .ok i ↔ ∃ p, C.handlers[i]? = some p ∧ dEvalCond W C p.1 v = .ok true ∧ ∀ j < i, ∀ q, C.handlers[j]? = some q → DRejects W C q.1 v := by
  unfold dIndex
  rw [dIndexFrom_ok_iff]
  constructor
  · rintro ⟨j, p, rfl, hp, ha, hb⟩; exact ⟨p, by simpa using hp, ha, by simpa using hb⟩
  · rintro ⟨p, hp, ha, hb⟩; exact ⟨i, p, by simp, hp, ha, hb⟩

theorem dPick_of_index {v : Val} {i : Nat} {c : DCond} {h : DHandler} (hi : dIndex W C v = .ok i) (hp : C.handlers[i]? = some (c, h)) :
    dPick W C v = .ok h := by
  unfold dPick; rw [hi]; simp only [hp]

/-- What a new dumper does with a value. -/
def NewDumps (W : World) (C : DConfig) (_ : Unit) (v : Val) (t : Ty) (_ : Option Annotation) (o : Except Exc Val) (_ : Unit) : Prop :=
  match o with
  | .ok r => ∃ s', Dumps W C {} v t r s'
  | .error e => ∃ s', DumpRaises W C {} v t e s'

theorem plays_congr {σ : Type} {f g : σ → Val → Ty → Option Annotation → Except Exc Val → σ → Prop} (p : Script)
    (h : ∀ x u, p.Asks x u → ∀ s a o s', f s x u a o s' → g s x u a o s') {s : σ} {o : Except Exc Val} {s' : σ} (hp : Plays f p s o s') :
    Plays g p s o s' := by
  induction hp with
  | ret => exact .ret
  | raise => exact .raise
  | call h1 _ ih => exact .call (h _ _ .here _ _ _ _ h1) (ih (fun x u ha => h x u (.later ha)))

theorem newDumps_ref (hb : C.ByType W) {v : Val} (hv : Legal W v) (t : Ty) (a : Option Annotation) (o : Except Exc Val) :
    NewDumps W C () v t a o () ↔ ∃ n, Ref.dump W C n v t () = Res.mk o () := by
  cases o with
  | ok r => exact dumps_ref_byType hb .new hv t r
  | error e => exact dumpRaises_ref_byType hb .new hv t e

/-- **C53** Whatever a dumper has dumped before, if the conditions of its handlers look only at the type of the value and the user's handler
comes first for this value, dumping it is calling that handler: with its result or its exception, and no other outcome.  If the handler calls
the dumper back, it is answered as by a new dumper. -/
theorem C53_custom (hb : C.ByType W) {s : DState} (hs : DReachable W C s) {v : Val} (hv : Legal W v) {i k : Nat} {c : DCond}
    (hi : dIndex W C v = .ok i) (hp : C.handlers[i]? = some (c, .custom k)) (a : Ty) :
    (∀ r, (∃ s', Dumps W C s v a r s') ↔ Plays (NewDumps W C) (W.dumpCustom k v a) () (.ok r) ()) ∧
    ∀ e, (∃ s', DumpRaises W C s v a e s') ↔ Plays (NewDumps W C) (W.dumpCustom k v a) () (.error e) () := by
  have hk := dPick_of_index hi hp
  have hasks := hb.asks _ (List.mem_of_getElem? hp) k rfl v a hv
  have key : ∀ o, (∃ n, Ref.dump W C n v a () = Res.mk o ()) ↔ Plays (NewDumps W C) (W.dumpCustom k v a) () o () := by
    intro o
    have h1 := plays_iff (f := fun n x u (_ : Option Annotation) => Ref.dump W C n x u) (fun n m h v t a => LeM.refdump h v t) (W.dumpCustom k v a) () o ()
    have href : ∀ n, Ref.dump W C (n + 1) v a () = (W.dumpCustom k v a).run (fun x u _ => Ref.dump W C n x u) () := by
      intro n
      show (match dPick W C v with
        | .error e => M.throw e
        | .ok h => dstep W C (fun c => Pure.pure (mkDataDesc W (W.cls c))) (Ref.dump W C n) h v a : M Unit Exc Val) () = _
      rw [hk]; rfl
    have h2 : (∃ n, Ref.dump W C n v a () = Res.mk o ()) ↔ ∃ n, (W.dumpCustom k v a).run (fun x u _ => Ref.dump W C n x u) () = Res.mk o () := by
      constructor
      · rintro ⟨n, h⟩
        cases n with
        | zero => exact absurd h.symm (Res.mk_ne_div _ _)
        | succ n => exact ⟨n, by rw [← href]; exact h⟩
      · rintro ⟨n, h⟩; exact ⟨n + 1, by rw [href]; exact h⟩
    rw [h2, h1]
    constructor
    · exact plays_congr _ (fun x u ha _ an o' _ h => (newDumps_ref hb (hasks x u ha) u an o').2 h)
    · exact plays_congr _ (fun x u ha _ an o' _ h => (newDumps_ref hb (hasks x u ha) u an o').1 h)
  exact ⟨fun r => (dumps_ref_byType hb hs hv a r).trans (key (.ok r)), fun e => (dumpRaises_ref_byType hb hs hv a e).trans (key (.error e))⟩

/-- **C53** In particular the result of a handler that does not call the dumper back is the result of the dump. -/
theorem C53_returns (hb : C.ByType W) {s : DState} (hs : DReachable W C s) {v : Val} (hv : Legal W v) {i k : Nat} {c : DCond}
    (hi : dIndex W C v = .ok i) (hp : C.handlers[i]? = some (c, .custom k)) {a : Ty} {x : Val} (hx : W.dumpCustom k v a = .ret x) (r : Val) :
    (∃ s', Dumps W C s v a r s') ↔ r = x := by
  rw [(C53_custom hb hs hv hi hp a).1 r, hx]
  constructor
  · intro h; cases h; rfl
  · rintro rfl; exact .ret

/-- **C53** Two dumpers of the same configuration with handlers of the user, whose conditions look only at the type of the value, have the same
outcome whatever they have dumped before. -/
theorem C53_history (hb : C.ByType W) {s s' : DState} (hs : DReachable W C s) (hs' : DReachable W C s') {v : Val} (hv : Legal W v) (a : Ty) :
    (∀ r, (∃ s1, Dumps W C s v a r s1) ↔ ∃ s1, Dumps W C s' v a r s1) ∧
    (∀ e, (∃ s1, DumpRaises W C s v a e s1) ↔ ∃ s1, DumpRaises W C s' v a e s1) :=
  ⟨fun r => by rw [dumps_ref_byType hb hs hv, dumps_ref_byType hb hs' hv],
   fun e => by rw [dumpRaises_ref_byType hb hs hv, dumpRaises_ref_byType hb hs' hv]⟩

/-- **C53** An error in a condition stops a dump with the error, if `raiseconditionerrors` is set. -/
theorem C53_raise (hb : C.ByType W) {s : DState} (hs : DReachable W C s) {v : Val} (hv : Legal W v) {pre post : List (DCond × DHandler)}
    {c : DCond} {h : DHandler} {x : ExcClass} (hr : C.raiseconditionerrors = true) (hsplit : C.handlers = pre ++ (c, h) :: post)
    (hpre : ∀ p ∈ pre, dEvalCond W C p.1 v = .ok false) (hc : dEvalCond W C c v = .error x) (a : Ty) :
    (∃ s', DumpRaises W C s v a (.plain x) s') ∧ ∀ r s', ¬ Dumps W C s v a r s' := by
  have hk : dPick W C v = .error (.plain x) := by
    have : dIndex W C v = .error (.plain x) := by
      unfold dIndex
      rw [hsplit, dIndexFrom_skip _ _ hpre]
      simp [dIndexFrom, hc, hr]
    unfold dPick; rw [this]
  have href : ∀ n, Ref.dump W C (n + 1) v a () = .err (.plain x) () := by
    intro n
    show (match dPick W C v with
      | .error e => M.throw e
      | .ok h => dstep W C (fun c => Pure.pure (mkDataDesc W (W.cls c))) (Ref.dump W C n) h v a : M Unit Exc Val) () = _
    rw [hk]; rfl
  refine ⟨(dumpRaises_ref_byType hb hs hv a _).2 ⟨1, href 0⟩, fun r s' h => ?_⟩
  obtain ⟨n, hn⟩ := (dumps_ref_byType hb hs hv a r).1 ⟨s', h⟩
  cases n with
  | zero => cases hn
  | succ n => rw [href] at hn; cases hn

theorem dEvalCond_handlers (hs : List (DCond × DHandler)) (c : DCond) (v : Val) : dEvalCond W { C with handlers := hs } c v = dEvalCond W C c v := by
  cases c <;> rfl

/-- **C53** A handler inserted at or before the position of the one in use takes over the values on which its condition holds; `index` of the
other values, on which it is false, moves by one at most. -/
theorem C53_insert {v : Val} {i j : Nat} {c : DCond} {h : DHandler} (hi : dIndex W C v = .ok i) (hj : j ≤ i) :
    (dEvalCond W C c v = .ok true → dIndex W { C with handlers := C.handlers.insertIdx j (c, h) } v = .ok j) ∧
    (dEvalCond W C c v = .ok false → dIndex W { C with handlers := C.handlers.insertIdx j (c, h) } v = .ok (i + 1)) := by
  obtain ⟨p, hp, ht, hb⟩ := (C53_index_first_match v i).1 hi
  have hlen : i < C.handlers.length := (List.getElem?_eq_some_iff.1 hp).1
  have hrej : ∀ q, DRejects W { C with handlers := C.handlers.insertIdx j (c, h) } q v ↔ DRejects W C q v := by
    intro q; unfold DRejects; rw [dEvalCond_handlers]
  constructor
  · intro hc
    rw [C53_index_first_match]
    refine ⟨(c, h), ?_, by rw [dEvalCond_handlers]; exact hc, fun j' hj' q hq => ?_⟩
    · dsimp only; rw [List.getElem?_insertIdx_self, if_pos (by omega)]
    · dsimp only at hq
      rw [List.getElem?_insertIdx_of_lt (by omega)] at hq
      exact (hrej _).2 (hb j' (by omega) q hq)
  · intro hc
    rw [C53_index_first_match]
    refine ⟨p, ?_, by rw [dEvalCond_handlers]; exact ht, fun j' hj' q hq => ?_⟩
    · dsimp only; rw [List.getElem?_insertIdx_of_gt (by omega)]; simpa using hp
    · dsimp only at hq
      rw [hrej]
      rcases Nat.lt_trichotomy j' j with h1 | h1 | h1
      · rw [List.getElem?_insertIdx_of_lt h1] at hq
        exact hb j' (by omega) q hq
      · subst h1
        rw [List.getElem?_insertIdx_self, if_pos (by omega)] at hq
        cases hq
        exact Or.inl hc
      · rw [List.getElem?_insertIdx_of_gt h1] at hq
        exact hb (j' - 1) (by omega) q hq

/-! ## Examples -/

/-- A program with a handler for strings: `(lambda v: type(v) == str, lambda d, v, t: 5)`; the second condition, `lambda v: v == 7`, looks at the value;
the third one raises ValueError. -/
def Sample.WD : World :=
  { Sample.W with
    dumpCond := fun i v => match i, v with
      | 0, .str _ => .ok true
      | 1, .int 7 => .ok true
      | 2, _ => .error .value
      | _, _ => .ok false
    dumpCustom := fun i _ _ => if i = 0 then .ret (.int 5) else .ret .none }

/-- `d.handlers.insert(0, (cond, handler))` -/
def Sample.DD (i : Nat) : DConfig := { handlers := (.custom i, .custom i) :: defaultDHandlers }

/-- The hypotheses of `C53_custom` and `C53_history`: the condition on strings looks at the type only. -/
theorem Sample.dd_byType : (Sample.DD 0).ByType Sample.WD := by
  refine ⟨?_, fun p hp i _ v t _ x u ha => ?_⟩
  rotate_left
  · simp only [Sample.WD] at ha; split at ha <;> cases ha
  intro p hp v w hv hw h
  rcases List.mem_cons.1 hp with rfl | hp
  · cases v <;> cases w <;> first | rfl | (exfalso; simp only [typeOf, reduceCtorEq, Ty.prim.injEq] at h; done)
  · refine dEvalCond_typeOf ?_ hv hw h
    simp only [defaultDHandlers, List.mem_cons, List.not_mem_nil, or_false] at hp
    rintro i
    rcases hp with rfl | rfl | rfl | rfl | rfl | rfl | rfl | rfl | rfl | rfl | rfl <;> exact fun h => (by cases h)

example : dIndex Sample.WD (Sample.DD 0) (.str "a") = .ok 0 ∧ (Sample.DD 0).handlers[0]? = some (.custom 0, .custom 0) := ⟨rfl, rfl⟩
/-- `d.dump(["a", 1]) == [5, 1]` -/
example : (dump Sample.WD (Sample.DD 0) 3 (.list [.str "a", .int 1]) .any {}).val? = some (.list [.int 5, .int 1]) := by decide
/-- `C53_custom` with a handler that calls the dumper back, `(lambda v: type(v) == str, lambda d, v, t: [d.dump(5), v])`. -/
def Sample.WE : World := { Sample.WD with dumpCustom := fun _ v _ => .call (.int 5) .any none (fun o => match o with
  | .ok r => .ret (.list [r, v])
  | .error e => .raise e) }
theorem Sample.we_byType : (Sample.DD 0).ByType Sample.WE := by
  refine ⟨Sample.dd_byType.cond, fun p hp i _ v t _ x u ha => ?_⟩
  cases ha with
  | here => exact Legal.of_parts trivial (fun x hx => (by cases hx))
  | @later _ _ _ _ o _ _ h => cases o <;> cases h
example (s : DState) (hs : DReachable Sample.WE (Sample.DD 0) s) : ∃ s', Dumps Sample.WE (Sample.DD 0) s (.str "a") .any (.list [.int 5, .str "a"]) s' := by
  refine ((C53_custom Sample.we_byType hs (v := .str "a") (Legal.of_parts trivial (fun x hx => (by cases hx))) (i := 0) (k := 0) (c := .custom 0) rfl rfl .any).1 _).2 ?_
  exact .call (o := .ok (.int 5)) ⟨_, 1, rfl⟩ .ret
/-- `C53_returns` -/
example (s : DState) (hs : DReachable Sample.WD (Sample.DD 0) s) (r : Val) : (∃ s', Dumps Sample.WD (Sample.DD 0) s (.str "a") .any r s') ↔ r = .int 5 :=
  C53_returns Sample.dd_byType hs (v := .str "a") (Legal.of_parts trivial (fun x hx => (by cases hx))) (i := 0) (k := 0) (c := .custom 0) rfl rfl rfl r
/-- `C53_raise` -/
example : dEvalCond Sample.WD (Sample.DD 2) (.custom 2) (.int 1) = .error .value := rfl
/-- `C53_insert` -/
example : dIndex Sample.WD {} (.str "a") = .ok 0 := rfl

/-- Why the conditions must look at the type only: the choice is remembered by type.  With the handler `(lambda v: v == 7, lambda d, v, t: None)` in
front, a new dumper dumps 7 to None, and after having dumped 1 it dumps 7 to 7. -/
theorem C53_value_condition_counterexample :
    (∃ s', Dumps Sample.WD (Sample.DD 1) {} (.int 7) .any .none s') ∧
    ∃ s1, Dumps Sample.WD (Sample.DD 1) {} (.int 1) .any (.int 1) s1 ∧
      (∃ s', Dumps Sample.WD (Sample.DD 1) s1 (.int 7) .any (.int 7) s') ∧ ∀ s', ¬ Dumps Sample.WD (Sample.DD 1) s1 (.int 7) .any .none s' := by
  refine ⟨⟨_, 1, rfl⟩, _, ⟨1, rfl⟩, ⟨_, 1, rfl⟩, ?_⟩
  rintro s' ⟨n, hn⟩
  cases n with
  | zero => cases hn
  | succ n => cases hn

end TL
