import Verif.Lemmas.Tags
import Verif.Lemmas.Script
import Verif.Sample
/-!
# C01, C02, C07, C08, C46, C47: dispatch, caches, forward references
-/

namespace TL

variable {W : World} {C : Config}

/-! ## Specification -/

/-- The condition accepts the type. -/
def Accepts (W : World) (C : Config) (c : Cond) (t : Ty) : Prop := evalCond W C c t = .ok true
/-- The condition is passed over: it returns False, or it raises and `raiseconditionerrors` is off. -/
def Rejects (W : World) (C : Config) (c : Cond) (t : Ty) : Prop :=
  evalCond W C c t = .ok false ∨ (C.raiseconditionerrors = false ∧ ∃ x, evalCond W C c t = .error x)

/-! ## C01 -/

theorem indexFrom_ok_iff (t : Ty) (hs : List (Cond × Handler)) : ∀ k i,
    indexFrom W C t hs k = .ok i ↔ ∃ j p, i = k + j ∧ hs[j]? = some p ∧ Accepts W C p.1 t ∧
      ∀ j' < j, ∀ q, hs[j']? = some q → Rejects W C q.1 t := by
  induction hs with
  | nil => intro k i; simp [indexFrom]
  | cons p hs ih =>
    intro k i
    obtain ⟨c, h⟩ := p
    have tail : (indexFrom W C t hs (k + 1) = .ok i) → Rejects W C c t → ∃ j p, i = k + j ∧
        ((c, h) :: hs)[j]? = some p ∧ Accepts W C p.1 t ∧
        ∀ j' < j, ∀ q, ((c, h) :: hs)[j']? = some q → Rejects W C q.1 t := by
      intro hi hr
      obtain ⟨j, p, rfl, hp, ha, hb⟩ := (ih (k + 1) i).1 hi
      refine ⟨j + 1, p, by omega, by simpa using hp, ha, ?_⟩
      intro j' hj' q hq
      cases j' with
      | zero => simp at hq; subst hq; exact hr
      | succ j' => exact hb j' (by omega) q (by simpa using hq)
    have back : ∀ j p, i = k + j → ((c, h) :: hs)[j]? = some p → Accepts W C p.1 t →
        (∀ j' < j, ∀ q, ((c, h) :: hs)[j']? = some q → Rejects W C q.1 t) → ¬ Accepts W C c t →
        indexFrom W C t hs (k + 1) = .ok i := by
      intro j p hi hp ha hb hna
      cases j with
      | zero => simp at hp; subst hp; exact absurd ha hna
      | succ j =>
        refine (ih (k + 1) i).2 ⟨j, p, by omega, by simpa using hp, ha, ?_⟩
        intro j' hj' q hq
        exact hb (j' + 1) (by omega) q (by simpa using hq)
    unfold indexFrom
    cases hc : evalCond W C c t with
    | error x =>
      have hna : ¬ Accepts W C c t := by simp [Accepts, hc]
      dsimp only
      cases hr : C.raiseconditionerrors with
      | true =>
        simp only [if_true, reduceCtorEq, false_iff]
        rintro ⟨j, p, hi, hp, ha, hb⟩
        cases j with
        | zero => simp at hp; subst hp; exact hna ha
        | succ j =>
          have := hb 0 (by omega) (c, h) (by simp)
          simp [Rejects, hc, hr] at this
      | false =>
        simp only [Bool.false_eq_true, if_false]
        exact ⟨fun hi => tail hi (Or.inr ⟨hr, x, hc⟩), fun ⟨j, p, hi, hp, ha, hb⟩ => back j p hi hp ha hb hna⟩
    | ok b =>
      cases b with
      | true =>
        simp only [Except.ok.injEq]
        constructor
        · rintro rfl; exact ⟨0, (c, h), by simp, by simp, hc, by simp⟩
        · rintro ⟨j, p, rfl, hp, ha, hb⟩
          cases j with
          | zero => simp
          | succ j =>
            have := hb 0 (by omega) (c, h) (by simp)
            simp [Rejects, hc] at this
      | false =>
        have hna : ¬ Accepts W C c t := by simp [Accepts, hc]
        exact ⟨fun hi => tail hi (Or.inl hc), fun ⟨j, p, hi, hp, ha, hb⟩ => back j p hi hp ha hb hna⟩

/-- **C01** (lookup). `Loader.index(t)` returns `i` exactly when the handler at position `i` accepts `t` and every earlier handler
is passed over. -/
theorem C01_index_first_match (t : Ty) (i : Nat) :
    index W C t = .ok i ↔ ∃ p, C.handlers[i]? = some p ∧ Accepts W C p.1 t ∧
      ∀ j < i, ∀ q, C.handlers[j]? = some q → Rejects W C q.1 t := by
  unfold index
  rw [indexFrom_ok_iff]
  constructor
  · rintro ⟨j, p, rfl, hp, ha, hb⟩; exact ⟨p, by simpa using hp, ha, by simpa using hb⟩
  · rintro ⟨p, hp, ha, hb⟩; exact ⟨i, p, by simp, hp, ha, hb⟩

theorem indexFrom_none (t : Ty) (hs : List (Cond × Handler)) : ∀ k,
    (∀ q ∈ hs, Rejects W C q.1 t) → indexFrom W C t hs k = .error .value := by
  induction hs with
  | nil => intro k _; rfl
  | cons p hs ih =>
    intro k hr
    have h0 := hr p (by simp)
    have h1 := ih (k + 1) (fun q hq => hr q (by simp [hq]))
    obtain ⟨c, h⟩ := p
    unfold indexFrom
    rcases h0 with h0 | ⟨hf, x, h0⟩
    · simp only at h0; rw [h0]; exact h1
    · simp only at h0; rw [h0]; simp only [hf]; exact h1

/-- The handler used for `t` is the one at the position given by `index`. -/
theorem pick_of_index {t : Ty} {i : Nat} {p : Cond × Handler} (hi : index W C t = .ok i)
    (hp : C.handlers[i]? = some p) : pick W C t = .ok p.2 := by simp [pick, hi, hp]

/-- **C01** (use). On a loader with any history, `load(v, t)` is the call of the handler at position `index(t)`: same result, and
same exception up to the trace added by `load`. -/
theorem C01_load_uses_index {s : LState} (hs : Reachable W C s) {t : Ty} {i : Nat} {c : Cond} {h : Handler}
    (hi : index W C t = .ok i) (hp : C.handlers[i]? = some (c, h)) (v : Val) :
    ∃ s0, Ext W C s s0 ∧ aget s0.idx t = some h ∧
      (∀ r s', Loads W C s v t r s' ↔ ∃ n, run W C n h v t s0 = .ok r s') ∧
      (∀ e s', Raises W C s v t e s' ↔ ∃ n e', run W C n h v t s0 = .err e' s' ∧ e = loadExc v t none e') := by
  have hk : pick W C t = .ok h := pick_of_index hi hp
  refine ⟨cacheReg W t h s, cacheReg_ext hk, cacheReg_idx hs.coh hk, ?_, ?_⟩
  · intro r s'
    rw [loads_iff hs.coh]
    constructor
    · rintro ⟨n, h', hk', hr⟩; rw [hk] at hk'; cases hk'; exact ⟨n, hr⟩
    · rintro ⟨n, hr⟩; exact ⟨n, h, hk, hr⟩
  · intro e s'
    rw [raises_iff hs.coh]
    constructor
    · rintro (⟨n, h', e', hk', hr, rfl⟩ | ⟨x, hk', _⟩)
      · rw [hk] at hk'; cases hk'; exact ⟨n, e', hr, rfl⟩
      · rw [hk] at hk'; cases hk'
    · rintro ⟨n, e', hr, rfl⟩; exact Or.inl ⟨n, h, e', hk, hr, rfl⟩

/-- **C01** (user handlers). If the first accepting handler is one of the user's, `load(v, t)` is what that handler does with `v` and
`t`: it returns what the handler returns, and raises what it raises, up to the trace.  The calls of the loader that the handler makes
end like any other call of `load`. -/
theorem C01_custom_handler {s : LState} (hs : Reachable W C s) {t : Ty} {i k : Nat} {c : Cond}
    (hi : index W C t = .ok i) (hp : C.handlers[i]? = some (c, .custom k)) (v : Val) :
    ∃ s0, Ext W C s s0 ∧ aget s0.idx t = some (.custom k) ∧
      (∀ r s', Loads W C s v t r s' ↔ Plays (Answers W C) (W.customLoad k v t) s0 (.ok r) s') ∧
      (∀ e s', Raises W C s v t e s' ↔ ∃ e', Plays (Answers W C) (W.customLoad k v t) s0 (.error e') s' ∧ e = loadExc v t none e') := by
  obtain ⟨s0, h1, h2, h3, h4⟩ := C01_load_uses_index hs hi hp v
  refine ⟨s0, h1, h2, fun r s' => (h3 r s').trans (custom_run (o := .ok r)), fun e s' => (h4 e s').trans ?_⟩
  constructor
  · rintro ⟨n, e', h, rfl⟩; exact ⟨e', (custom_run (o := .error e')).1 ⟨n, h⟩, rfl⟩
  · rintro ⟨e', h, rfl⟩; obtain ⟨n, h⟩ := custom_run.2 h; exact ⟨n, e', h, rfl⟩

/-- **C01** (user handlers). If the first accepting handler is one of the user's and returns `r`, `load` returns `r`. -/
theorem C01_custom_returns {s : LState} (hs : Reachable W C s) {t : Ty} {i k : Nat} {c : Cond} {v r : Val}
    (hi : index W C t = .ok i) (hp : C.handlers[i]? = some (c, .custom k)) (hr : W.customLoad k v t = .ret r) :
    ∃ s', Loads W C s v t r s' := by
  obtain ⟨s0, _, _, h, _⟩ := C01_custom_handler hs hi hp v
  exact ⟨s0, (h r s0).2 (by rw [hr]; exact .ret)⟩

/-- **C01** (user handlers). A user's handler that delegates to another type, `lambda l, v, t: l.load(v, u)`, makes `t` load as `u`. -/
theorem C01_custom_delegates {s : LState} (hs : Reachable W C s) {t u : Ty} {i k : Nat} {c : Cond} {v : Val} {next : Except Exc Val → Script}
    (hi : index W C t = .ok i) (hp : C.handlers[i]? = some (c, .custom k)) (hr : W.customLoad k v t = .call v u none next)
    (hn : ∀ r, next (.ok r) = .ret r) {r : Val} (h : ∀ s1, Ext W C s s1 → ∃ s2, Loads W C s1 v u r s2) : ∃ s', Loads W C s v t r s' := by
  obtain ⟨s0, he, _, h', _⟩ := C01_custom_handler hs hi hp v
  obtain ⟨s2, h2⟩ := h s0 he
  exact ⟨s2, (h' r s2).2 (by rw [hr]; exact .call (o := .ok r) h2 (by rw [hn]; exact .ret))⟩

/-- **C01** (no handler). If every condition passes over `t`, `load(v, t)` raises TypedloadTypeError for every value. -/
theorem C01_no_handler {s : LState} (hs : Reachable W C s) {t : Ty}
    (h : ∀ q ∈ C.handlers, Rejects W C q.1 t) (v : Val) :
    ∃ e, Raises W C s v t e s ∧ e.cls = .tlType ∧ e.value = v ∧ e.ty = some t := by
  have hk : pick W C t = .error .value := by unfold pick index; rw [indexFrom_none t _ 0 h]
  refine ⟨_, (raises_iff hs.coh).2 (Or.inr ⟨_, hk, rfl, rfl⟩), ?_, ?_, ?_⟩ <;>
    simp [lookupExc, ExcClass.isValue, mkExc]

/-- **C01** (overriding). A handler inserted at position `index(t)` (or before it) whose condition accepts `t`, with the
conditions before it still passing over `t`, takes over `t`. -/
theorem C01_insert {t : Ty} {i j : Nat} {c : Cond} {h : Handler} (hi : index W C t = .ok i) (hj : j ≤ i)
    (ha : Accepts W C c t) :
    index W { C with handlers := C.handlers.insertIdx j (c, h) } t = .ok j ∧
    pick W { C with handlers := C.handlers.insertIdx j (c, h) } t = .ok h := by
  have hev : ∀ c' t', evalCond W { C with handlers := C.handlers.insertIdx j (c, h) } c' t' = evalCond W C c' t' := by
    intro c' t'; cases c' <;> rfl
  obtain ⟨p, hp, _, hb⟩ := (C01_index_first_match t i).1 hi
  have hlen : i < C.handlers.length := by
    rw [List.getElem?_eq_some_iff] at hp; exact hp.1
  have h1 : index W { C with handlers := C.handlers.insertIdx j (c, h) } t = .ok j := by
    rw [C01_index_first_match]
    refine ⟨(c, h), ?_, ?_, ?_⟩
    · simp [List.getElem?_insertIdx_self, Nat.le_of_lt (Nat.lt_of_le_of_lt hj hlen)]
    · simp only [Accepts, hev]; exact ha
    · intro j' hj' q hq
      simp only [List.getElem?_insertIdx_of_lt hj'] at hq
      have := hb j' (by omega) q hq
      simpa only [Rejects, hev] using this
  refine ⟨h1, pick_of_index h1 (p := (c, h)) ?_⟩
  simp [List.getElem?_insertIdx_self, Nat.le_of_lt (Nat.lt_of_le_of_lt hj hlen)]

/-- The hypotheses of C01 are met: `int` is at position 2 of the default list; a user handler put before it takes over. -/
example : index Sample.W Sample.C (.prim .int) = .ok 2 := by decide
example : (load Sample.W { Sample.C with handlers := defaultHandlers.insertIdx 2 (.custom 1, .custom 1) } 1 (.str "x")
    (.prim .int) (fresh [])).val? = some (.str "x") := by decide
/-- `C01_custom_handler`, `C01_custom_delegates`: a handler that loads paths as integers. -/
example : index Sample.WB Sample.CB (.strcons "Path") = .ok 0 ∧ Sample.CB.handlers[0]? = some (.custom 1, .custom 1) ∧
    ∃ next, Sample.WB.customLoad 1 (.str "5") (.strcons "Path") = .call (.str "5") (.prim .int) none next ∧ ∀ r, next (.ok r) = .ret r :=
  ⟨by decide, rfl, _, rfl, fun _ => rfl⟩
example : (load Sample.WB Sample.CB 4 (.str "5") (.strcons "Path") (fresh [])).val? = some (.int 5) := by decide
/-- `C01_custom_returns` -/
example : Sample.WB.customLoad 1 (.str "5") (.strcons "Tree") = .ret (.int 0) := rfl
example : ∀ q ∈ Sample.C.handlers, Rejects Sample.W Sample.C q.1 (.opaque "weird") := by
  intro q hq; left; revert q; decide

/-! ## C02 -/

theorem indexFrom_raise (t : Ty) (hs : List (Cond × Handler)) (hr : C.raiseconditionerrors = true) :
    ∀ (k i : Nat) (p : Cond × Handler) (x : ExcClass),
    hs[i]? = some p → evalCond W C p.1 t = .error x →
    (∀ j < i, ∀ q : Cond × Handler, hs[j]? = some q → evalCond W C q.1 t = .ok false) → indexFrom W C t hs k = .error x := by
  induction hs with
  | nil => intro k i p x h; simp at h
  | cons q hs ih =>
    intro k i p x hp hx hb
    obtain ⟨c, h⟩ := q
    unfold indexFrom
    cases i with
    | zero => simp at hp; subst hp; simp only at hx; rw [hx]; simp [hr]
    | succ i =>
      have h0 := hb 0 (by omega) (c, h) (by simp)
      simp only at h0; rw [h0]
      exact ih (k + 1) i p x (by simpa using hp) hx (fun j hj q hq => hb (j + 1) (by omega) q (by simpa using hq))

/-- **C02** (on). With `raiseconditionerrors`, if a condition raises before any condition accepts, the lookup raises the same
error. -/
theorem C02_raise {t : Ty} (hr : C.raiseconditionerrors = true) {i : Nat} {p : Cond × Handler} {x : ExcClass}
    (hp : C.handlers[i]? = some p) (hx : evalCond W C p.1 t = .error x)
    (hb : ∀ j < i, ∀ q, C.handlers[j]? = some q → evalCond W C q.1 t = .ok false) : index W C t = .error x :=
  indexFrom_raise t _ hr 0 i p x hp hx hb

/-- The world in which every condition that raises returns False instead. -/
def World.silence (W : World) : World :=
  { W with customCond := fun i t => match W.customCond i t with
      | .error _ => .ok false
      | r => r }

theorem evalCond_silence (c : Cond) (t : Ty) : evalCond W.silence C c t = match evalCond W C c t with
    | .error _ => .ok false
    | r => r := by
  cases c <;> rfl

/-- **C02** (off). Without `raiseconditionerrors` a raising condition is exactly equivalent to one returning False. -/
theorem C02_silent (hr : C.raiseconditionerrors = false) (t : Ty) :
    index W C t = index W.silence C t := by
  unfold index
  generalize 0 = k
  induction C.handlers generalizing k with
  | nil => rfl
  | cons p hs ih =>
    obtain ⟨c, h⟩ := p
    unfold indexFrom
    rw [evalCond_silence]
    cases hc : evalCond W C c t with
    | error x => simp [hr, ih]
    | ok b => cases b <;> simp [ih]

/-- `custom 0` raises: with the flag on the lookup raises, with the flag off it goes on. -/
example : index Sample.W { Sample.C with handlers := (.custom 0, .anyload) :: defaultHandlers } (.prim .int) = .error .value := by
  decide
example : index Sample.W { Sample.C with handlers := (.custom 0, .anyload) :: defaultHandlers, raiseconditionerrors := false }
    (.prim .int) = .ok 3 := by decide

/-! ## C07 -/

/-- **C07** (handlers). After any history, a remembered handler is the one `Loader.index` selects. -/
theorem C07_handler_cache {s : LState} (hs : Reachable W C s) {t : Ty} {h : Handler} (hi : aget s.idx t = some h) :
    ∃ i c, index W C t = .ok i ∧ C.handlers[i]? = some (c, h) := by
  have := hs.coh.idx t h hi
  unfold pick at this
  split at this
  · cases this
  · rename_i i hi'
    split at this
    · rename_i p hp; cases this; exact ⟨i, p.1, hi', hp⟩
    · cases this

/-- **C07** (classes). After any history, a remembered class description is the freshly computed one. -/
theorem C07_class_cache {s : LState} (hs : Reachable W C s) {c : Nat} {i : ObjInfo} (hi : aget s.objc c = some i) :
    i = dataclassInfo C (W.cls c) := hs.coh.objc c i hi

/-- **C07** (unions). After any history, the discriminator remembered for a union is one computed at some earlier moment, for the same members perhaps
written in another order; when no Literal is hidden behind `NotRequired` and no union is written in two orders, it is the freshly computed one. -/
theorem C07_union_cache {s : LState} (hs : Reachable W C s) {ts : List Ty} {d : Disc} (hi : aget s.disc (.union (W.unionKey ts)) = some d) :
    (∃ us rew, us.Perm ts ∧ W.unionKey us = W.unionKey ts ∧ (∀ c ∈ rew, c ∈ s.tdRew) ∧ d = mkDisc W rew us) ∧
      (W.SteadyTags → d = mkDisc W s.tdRew ts) := by
  obtain ⟨us, rew, ht, hd, hr⟩ := hs.coh.disc _ d hi
  injection ht with ht
  refine ⟨⟨us, rew, ((W.unionKey_perm us).symm.trans (by rw [← ht])).trans (W.unionKey_perm ts), ht.symm, hr, hd⟩, fun hw => ?_⟩
  rw [hd, mkDisc_rew hw.noHidden rew s.tdRew, mkDisc_spelling hw.oneSpelling ht]

/-- **C07** (stability). What a loader remembers never changes afterwards. -/
theorem C07_stable {s s' : LState} (h : AfterLoads W C s s') :
    (∀ t x, aget s.idx t = some x → aget s'.idx t = some x) ∧
    (∀ c x, aget s.objc c = some x → aget s'.objc c = some x) ∧
    (∀ t x, aget s.disc t = some x → aget s'.disc t = some x) :=
  ⟨h.ext.idx_keep, h.ext.objc_keep, h.ext.disc_keep⟩

/-- A reachable state with non-empty caches. -/
example : ∃ s, Reachable Sample.W Sample.C s ∧ aget s.idx (.obj 0) = some .dataclassload ∧ (aget s.objc 0).isSome := by
  have h : (load Sample.W Sample.C 5 (.dict [(.str "x", .str "5"), (.str "zed", .str "q")]) (.obj 0) (fresh [])).state? =
      some { idx := [(.obj 0, .dataclassload), (.prim .int, .basicload), (.prim .str, .basicload)],
             frefs := some [("P", .obj 0)], objc := [(0, dataclassInfo Sample.C (Sample.W.cls 0))] } := by decide
  match hl : load Sample.W Sample.C 5 (.dict [(.str "x", .str "5"), (.str "zed", .str "q")]) (.obj 0) (fresh []) with
  | .ok r s =>
    rw [hl] at h; cases h
    exact ⟨_, .ok (.new (some []) []) ⟨5, hl⟩, by decide, by decide⟩
  | .err e s =>
    rw [hl] at h; cases h
    exact ⟨_, .err (.new (some []) []) ⟨5, hl⟩, by decide, by decide⟩
  | .div => rw [hl] at h; cases h

/-! ## C08 -/

/-- **C08** (no rebinding). Loading never rebinds a name of `frefs`, and never switches `frefs` on or off. -/
theorem C08_never_rebound {s s' : LState} (h : AfterLoads W C s s') {fr : List (String × Ty)} (hf : s.frefs = some fr)
    {n : String} {t : Ty} (hn : aget fr n = some t) : ∃ fr', s'.frefs = some fr' ∧ aget fr' n = some t := by
  cases hf' : s'.frefs with
  | none => rw [h.ext.frefs_none.2 hf'] at hf; cases hf
  | some fr' => exact ⟨fr', rfl, h.ext.frefs_keep fr fr' hf hf' n t hn⟩

/-- **C08** (registration). A name that loading adds to `frefs` is the `__name__` of the type it is bound to. -/
theorem C08_registered_by_name {s s' : LState} (h : AfterLoads W C s s') {fr fr' : List (String × Ty)}
    (hf : s.frefs = some fr) (hf' : s'.frefs = some fr') {n : String} {t : Ty} (hn : aget fr' n = some t) :
    aget fr n = some t ∨ W.tyName t = some n :=
  (h.ext.frefs_new fr fr' hf hf' n t hn).imp_right (·.1)

/-- The handler of `ForwardRef(n)` is the default one. -/
def FrefDefault (W : World) (C : Config) (n : String) : Prop := pick W C (.fref n) = .ok .forwardrefload

/-- `ForwardRef` objects have no `__name__`. -/
def World.FrefNoName (W : World) : Prop := ∀ n, W.tyName (.fref n) = none

theorem cacheReg_fref (hw : W.FrefNoName) {n : String} {h : Handler} {s : LState} :
    (cacheReg W (.fref n) h s).frefs = s.frefs := by
  unfold cacheReg; cases aget s.idx (.fref n) with
  | some _ => rfl
  | none => simp only [registerName, hw n]; cases s.frefs <;> rfl

/-- **C08** (disabled). With `frefs=None` loading a forward reference raises TypedloadException. -/
theorem C08_disabled {s : LState} (hs : Reachable W C s) (hw : W.FrefNoName) {n : String} (hd : FrefDefault W C n)
    (hf : s.frefs = none) (v : Val) : ∃ e s', Raises W C s v (.fref n) e s' ∧ e.cls = .tlBase := by
  refine ⟨_, cacheReg W (.fref n) .forwardrefload s,
    (raises_iff hs.coh).2 (Or.inl ⟨1, _, mkExc .tlBase .frefDisabled v (.fref n), hd, ?_, rfl⟩), ?_⟩
  · simp only [run, step, forwardrefload, M.bind_apply, M.get_apply, cacheReg_fref hw, hf, M.throw_apply]
  · simp [loadExc, mkExc, ExcClass.isTL]

/-- **C08** (unknown). An unknown name raises TypedloadValueError. -/
theorem C08_unknown {s : LState} (hs : Reachable W C s) (hw : W.FrefNoName) {n : String} (hd : FrefDefault W C n)
    {fr : List (String × Ty)} (hf : s.frefs = some fr) (hn : aget fr n = none) (v : Val) :
    ∃ e s', Raises W C s v (.fref n) e s' ∧ e.cls = .tlValue ∧ e.value = v := by
  refine ⟨_, cacheReg W (.fref n) .forwardrefload s,
    (raises_iff hs.coh).2 (Or.inl ⟨1, _, mkExc .tlValue (.frefUnknown n) v (.fref n), hd, ?_, rfl⟩), ?_, ?_⟩
  · simp only [run, step, forwardrefload, M.bind_apply, M.get_apply, cacheReg_fref hw, hf, hn, M.throw_apply]
  · simp [loadExc, mkExc, ExcClass.isTL]
  · simp [loadExc, mkExc, ExcClass.isTL]

/-- **C08** (known). A known name behaves as the registered type: loading into `ForwardRef(n)` returns `r` exactly when loading
into the registered type does, on the loader that has looked up the forward reference. -/
theorem C08_known {s : LState} (hs : Reachable W C s) (hw : W.FrefNoName) {n : String} (hd : FrefDefault W C n)
    {fr : List (String × Ty)} (hf : s.frefs = some fr) {t : Ty} (hn : aget fr n = some t) (v : Val) :
    ∃ s0, Ext W C s s0 ∧ s0.frefs = s.frefs ∧ ∀ r s', Loads W C s v (.fref n) r s' ↔ Loads W C s0 v t r s' := by
  refine ⟨cacheReg W (.fref n) .forwardrefload s, cacheReg_ext hd, cacheReg_fref hw, fun r s' => ?_⟩
  have hstep : ∀ m, run W C (m + 1) .forwardrefload v (.fref n) (cacheReg W (.fref n) .forwardrefload s) =
      loadWith W C (run W C m) v t (some (.forwardref n)) (cacheReg W (.fref n) .forwardrefload s) := by
    intro m
    simp only [run, step, forwardrefload, M.bind_apply, M.get_apply, cacheReg_fref hw, hf, hn]
  have hc0 : Coh W C (cacheReg W (.fref n) .forwardrefload s) := hs.coh.ext (cacheReg_ext hd)
  have hsame : ∀ m a, (loadWith W C (run W C m) v t a (cacheReg W (.fref n) .forwardrefload s) = .ok r s') ↔
      (load W C m v t (cacheReg W (.fref n) .forwardrefload s) = .ok r s') := by
    intro m a
    rw [load_eq hc0, loadWith_eq hc0]
    cases pick W C t with
    | error c => simp
    | ok h => dsimp only; cases run W C m h v t _ <;> simp
  rw [loads_iff hs.coh]
  constructor
  · rintro ⟨m, h, hk, hr⟩
    rw [hd] at hk; cases hk
    cases m with
    | zero => cases hr
    | succ m => rw [hstep] at hr; exact ⟨m, (hsame m _).1 hr⟩
  · rintro ⟨m, hr⟩
    exact ⟨m + 1, _, hd, by rw [hstep]; exact (hsame m _).2 hr⟩

example : Sample.W.FrefNoName ∧ FrefDefault Sample.W Sample.C "Node" := ⟨fun _ => rfl, by unfold FrefDefault; decide⟩
example : (load Sample.W Sample.C 2 (.int 3) (.fref "Node") (fresh [])).err?.map (·.cls) = some .tlValue := by decide

/-! ## C46 -/

/-- **C46** Optional types are unions. -/
theorem C46_optional_union (t : Ty) (h : is_optional t = true) : is_union t = true := by
  cases t <;> simp_all [is_optional, is_union]

/-- The only default condition, apart from the one for None, that can accept a type. -/
def condOf (W : World) : Ty → Cond
  | .prim _ => .isBasic
  | .any => .isAny
  | .lit _ => .isLiteral
  | .enum _ => .isEnum
  | .coll k _ => match k with
    | .list => .isList
    | .tuple => .isTuple
    | .set => .isSet
    | .frozenset => .isFrozenset
  | .tuple _ => .isTuple
  | .dict _ _ => .isDict
  | .bare g => if g = "list" then .isList else if g = "tuple" then .isTuple else if g = "set" then .isSet
      else if g = "frozenset" then .isFrozenset else .isDict
  | .union _ => .isUnion
  | .obj c => match (W.cls c).kind with
    | .namedtuple => .isNamedtuple
    | .dataclass => .isDataclass
    | .attrs => .isAttrs
    | .typeddict => .isTypeddict
  | .fref _ => .isForwardref
  | .newtype _ _ => .isNewtype
  | .dt _ => .isDatetime
  | .timedelta => .isTimedelta
  | .pattern _ => .isPattern
  | .strcons _ => .isStrconstructed
  | .opaque _ => .isBasic

theorem cond_unique {c : Cond} {t : Ty} (hn : c ≠ .isNone) (hcu : ∀ i, c ≠ .custom i) (h : Accepts W C c t) :
    c = condOf W t := by
  unfold Accepts at h
  cases c <;> simp_all [evalCond] <;> cases t <;>
    simp_all [condOf, is_union, Config.isBasic, is_enum, is_tuple, is_list, is_dict, is_set, is_frozenset, is_namedtuple,
      is_dataclass, is_attrs, is_typeddict, is_kind, is_forwardref, is_literal, is_pattern, is_any, is_newtype]

/-- **C46** (disjointness). Apart from the condition for None, no type is accepted by two default conditions. -/
theorem C46_disjoint {p q : Cond × Handler} (hp : p ∈ defaultHandlers) (hq : q ∈ defaultHandlers)
    (hpn : p.1 ≠ .isNone) (hqn : q.1 ≠ .isNone) {t : Ty} (ha : Accepts W C p.1 t) (hb : Accepts W C q.1 t) : p = q := by
  have hd : ∀ p ∈ defaultHandlers, ∀ i, p.1 ≠ .custom i := by simp [defaultHandlers]
  have h1 := cond_unique hpn (hd p hp) ha
  have h2 := cond_unique hqn (hd q hq) hb
  have hc : p.1 = q.1 := h1.trans h2.symm
  have inj : ∀ p ∈ defaultHandlers, ∀ q ∈ defaultHandlers, p.1 = q.1 → p = q := by decide
  exact inj p hp q hq hc

theorem default_not_error {c : Cond} (hcu : ∀ i, c ≠ .custom i) (t : Ty) : ∃ b, evalCond W C c t = .ok b := by
  cases c <;> simp_all [evalCond]

theorem pickFrom_unique {C' : Config} {t : Ty} {p : Cond × Handler} (hmem : p ∈ C'.handlers) (ha : Accepts W C' p.1 t)
    (hdef : ∀ q ∈ C'.handlers, ∃ b, evalCond W C' q.1 t = .ok b)
    (huniq : ∀ q ∈ C'.handlers, Accepts W C' q.1 t → q = p) : pick W C' t = .ok p.2 := by
  have key : ∀ hs : List (Cond × Handler), (∀ q ∈ hs, ∃ b, evalCond W C' q.1 t = .ok b) →
      (∀ q ∈ hs, Accepts W C' q.1 t → q = p) → p ∈ hs → ∀ k, ∃ i, indexFrom W C' t hs k = .ok (k + i) ∧ hs[i]? = some p := by
    intro hs
    induction hs with
    | nil => intro _ _ h; simp at h
    | cons q hs ih =>
      intro hd hu hm k
      obtain ⟨b, hb⟩ := hd q (by simp)
      obtain ⟨c, h⟩ := q
      unfold indexFrom
      simp only at hb; rw [hb]
      cases b with
      | true =>
        have := hu (c, h) (by simp) hb
        exact ⟨0, rfl, by simp [this]⟩
      | false =>
        have hm' : p ∈ hs := by
          rcases List.mem_cons.1 hm with h' | h'
          · subst h'; simp [Accepts, hb] at ha
          · exact h'
        obtain ⟨i, hi, hi'⟩ := ih (fun q hq => hd q (by simp [hq])) (fun q hq => hu q (by simp [hq])) hm' (k + 1)
        exact ⟨i + 1, by rw [hi, Nat.add_right_comm, Nat.add_assoc], by simpa using hi'⟩
  obtain ⟨i, hi, hi'⟩ := key C'.handlers hdef huniq hmem 0
  unfold pick index; rw [hi]; simp [hi']

/-- **C46** (reordering). With the None handler kept first, any reordering of the default handlers dispatches every type
identically. -/
theorem C46_reorder {hs : List (Cond × Handler)} (hperm : hs.Perm defaultHandlers.tail) (t : Ty) :
    pick W { C with handlers := (.isNone, .noneload) :: hs } t = pick W { C with handlers := defaultHandlers } t := by
  have hev : ∀ H c t', evalCond W { C with handlers := H } c t' = evalCond W C c t' := by
    intro H c t'; cases c <;> rfl
  have hd : ∀ p ∈ defaultHandlers, ∀ i, p.1 ≠ .custom i := by simp [defaultHandlers]
  have hmemiff : ∀ q, q ∈ ((.isNone, .noneload) :: hs : List (Cond × Handler)) ↔ q ∈ defaultHandlers := by
    intro q
    have : defaultHandlers = (.isNone, .noneload) :: defaultHandlers.tail := rfl
    rw [this, List.mem_cons, List.mem_cons, hperm.mem_iff]
  have htail : ∀ p ∈ defaultHandlers.tail, p.1 ≠ .isNone := by decide
  by_cases hnone : is_nonetype t = true
  · -- both pick the first handler
    have h1 : ∀ H, pick W { C with handlers := (.isNone, .noneload) :: H } t = .ok .noneload := by
      intro H
      have : index W { C with handlers := (.isNone, .noneload) :: H } t = .ok 0 := by
        unfold index indexFrom; simp [evalCond, hnone]
      exact pick_of_index this (p := (.isNone, .noneload)) (by simp)
    rw [h1]; exact (h1 defaultHandlers.tail).symm
  · by_cases hex : ∃ p ∈ defaultHandlers, Accepts W C p.1 t
    · obtain ⟨p, hp, ha⟩ := hex
      have hpn : p.1 ≠ .isNone := by
        intro h; rw [h] at ha; simp [Accepts, evalCond] at ha; exact hnone ha
      have hu : ∀ q ∈ defaultHandlers, Accepts W C q.1 t → q = p := by
        intro q hq hqa
        have hqn : q.1 ≠ .isNone := by
          intro h; rw [h] at hqa; simp [Accepts, evalCond] at hqa; exact hnone hqa
        exact C46_disjoint (W := W) (C := C) hq hp hqn hpn hqa ha
      rw [pickFrom_unique (C' := { C with handlers := (.isNone, .noneload) :: hs }) (p := p) ((hmemiff p).2 hp)
          (by simpa only [Accepts, hev] using ha)
          (fun q hq => by rw [hev]; exact default_not_error (hd q ((hmemiff q).1 hq)) t)
          (fun q hq hqa => hu q ((hmemiff q).1 hq) (by simpa only [Accepts, hev] using hqa)),
        pickFrom_unique (C' := { C with handlers := defaultHandlers }) (p := p) hp
          (by simpa only [Accepts, hev] using ha)
          (fun q hq => by rw [hev]; exact default_not_error (hd q hq) t)
          (fun q hq hqa => hu q hq (by simpa only [Accepts, hev] using hqa))]
    · have hrej : ∀ q ∈ defaultHandlers, evalCond W C q.1 t = .ok false := by
        intro q hq
        obtain ⟨b, hb⟩ := default_not_error (W := W) (C := C) (hd q hq) t
        cases b with
        | false => exact hb
        | true => exact absurd ⟨q, hq, hb⟩ hex
      have e1 : index W { C with handlers := (.isNone, .noneload) :: hs } t = .error .value :=
        indexFrom_none t _ 0 (fun q hq => Or.inl (by rw [hev]; exact hrej q ((hmemiff q).1 hq)))
      have e2 : index W { C with handlers := defaultHandlers } t = .error .value :=
        indexFrom_none t _ 0 (fun q hq => Or.inl (by rw [hev]; exact hrej q hq))
      unfold pick; rw [e1, e2]

example : Accepts Sample.W Sample.C .isNone (.prim .none) ∧ Accepts Sample.W Sample.C .isBasic (.prim .none) := by
  constructor <;> rfl
example : (defaultHandlers.tail.reverse).Perm defaultHandlers.tail := List.reverse_perm _

/-! ## C47 -/

/-- A sequence of completed module-level calls `typedload.load` / `typedload.dump` with arbitrary arguments and options, and the
global effect they have had: the TypedDict classes whose annotations were rewritten. -/
inductive Calls (W : World) : List Nat → Prop
  | nil : Calls W []
  | loadOk {rew C n v t r s'} : Calls W rew → apiLoad W C n v t rew = .ok r s' → Calls W s'.tdRew
  | loadErr {rew C n v t e s'} : Calls W rew → apiLoad W C n v t rew = .err e s' → Calls W s'.tdRew
  | dump {rew} (D : DConfig) (n : Nat) (v : Val) : Calls W rew → apiDump W D n v ≠ .div → Calls W rew

/-- **C47** (partial: no Literal may be hidden behind NotRequired; see the counterexample) Whatever module-level calls were made before, `typedload.load(v, T, **kw)` has the outcome it has in a new
program: same value, same exception, or no termination. -/
theorem C47_module_level_partial {rew : List Nat} (_ : Calls W rew) (h1 : W.NotRequiredLaw) (h2 : W.NoHiddenLiteral)
    (n : Nat) (v : Val) (t : Ty) :
    (apiLoad W C n v t rew).val? = (apiLoad W C n v t []).val? ∧
    (apiLoad W C n v t rew).err? = (apiLoad W C n v t []).err? ∧
    (apiLoad W C n v t rew).isDiv = (apiLoad W C n v t []).isDiv := by
  have := load_rew (C := C) h1 h2 n v t (fresh rew) (fresh []) ⟨rfl, rfl, rfl, rfl⟩
  unfold apiLoad
  cases ha : load W C n v t (fresh rew) <;> cases hb : load W C n v t (fresh []) <;>
    simp_all [SimRes, Res.val?, Res.err?, Res.isDiv]

theorem Sample.notRequiredLaw : Sample.W.NotRequiredLaw := by
  intro c f hf hn
  simp only [Sample.W] at hf
  unfold Sample.cls at hf
  split at hf <;> simp [Sample.clsP, Sample.clsN, Sample.clsT, Sample.clsA, Sample.clsB, Sample.clsL1, Sample.clsL2,
    Sample.clsNode, Sample.clsHolder] at hf
  all_goals (try rcases hf with rfl | rfl | rfl) <;> (try rcases hf with rfl | rfl) <;> simp_all

theorem Sample.noHiddenLiteral : Sample.W.NoHiddenLiteral := by
  intro c f hf hn
  simp only [Sample.W] at hf
  unfold Sample.cls at hf
  split at hf <;> simp [Sample.clsP, Sample.clsN, Sample.clsT, Sample.clsA, Sample.clsB, Sample.clsL1, Sample.clsL2,
    Sample.clsNode, Sample.clsHolder] at hf
  all_goals (try rcases hf with rfl | rfl | rfl) <;> (try rcases hf with rfl | rfl) <;> simp_all [is_literal]

theorem Sample.steadyTags : Sample.W.SteadyTags := ⟨Sample.noHiddenLiteral, fun _ _ h => .inl h⟩

/-- A program in which a load has rewritten annotations. -/
example : Calls Sample.W [2] := by
  have h : (apiLoad Sample.W Sample.C 3 (.dict [(.str "k", .int 1)]) (.obj 2) []).state?.map (·.tdRew) = some [2] := by
    decide
  match hl : apiLoad Sample.W Sample.C 3 (.dict [(.str "k", .int 1)]) (.obj 2) [] with
  | .ok r s => rw [hl] at h; simp [Res.state?] at h; rw [← h]; exact .loadOk .nil hl
  | .err r s => rw [hl] at h; simp [Res.state?] at h; rw [← h]; exact .loadErr .nil hl
  | .div => rw [hl] at h; cases h

/-- `class H1(TypedDict): k: NotRequired[Literal['a', 'b']]; p: int` and `class H2(TypedDict): k: NotRequired[Literal['b']]` -/
def hiddenW : World := { Sample.W with cls := fun c => match c with
  | 0 => { kind := .typeddict, name := "H1", fields :=
      [ { name := "k", ty := .lit [.str "a", .str "b"], required := false, notRequired := true },
        { name := "p", ty := .prim .int } ] }
  | _ => { kind := .typeddict, name := "H2", fields :=
      [ { name := "k", ty := .lit [.str "b"], required := false, notRequired := true } ] } }

/-- **C47** (why the hypothesis on hidden Literals is needed). A defect: with Literals behind `NotRequired`, loading the members
of a union first changes what loading the union returns afterwards, because the first loads rewrite the annotations. -/
theorem C47_hidden_literal_counterexample : ∃ rew, Calls hiddenW rew ∧
    (apiLoad hiddenW {} 5 (.dict [(.str "k", .str "b"), (.str "p", .int 1)]) (.union [.obj 0, .obj 1]) rew).val? ≠
    (apiLoad hiddenW {} 5 (.dict [(.str "k", .str "b"), (.str "p", .int 1)]) (.union [.obj 0, .obj 1]) []).val? := by
  have h1 : (apiLoad hiddenW {} 5 (.dict [(.str "p", .int 1)]) (.obj 0) []).state?.map (·.tdRew) = some [0] := by decide
  have h2 : (apiLoad hiddenW {} 5 (.dict []) (.obj 1) [0]).state?.map (·.tdRew) = some [1, 0] := by decide
  refine ⟨[1, 0], ?_, by decide⟩
  have c1 : Calls hiddenW [0] := by
    match hl : apiLoad hiddenW {} 5 (.dict [(.str "p", .int 1)]) (.obj 0) [] with
    | .ok r s => rw [hl] at h1; simp [Res.state?] at h1; rw [← h1]; exact .loadOk .nil hl
    | .err r s => rw [hl] at h1; simp [Res.state?] at h1; rw [← h1]; exact .loadErr .nil hl
    | .div => rw [hl] at h1; cases h1
  match hl : apiLoad hiddenW {} 5 (.dict []) (.obj 1) [0] with
  | .ok r s => rw [hl] at h2; simp [Res.state?] at h2; rw [← h2]; exact .loadOk c1 hl
  | .err r s => rw [hl] at h2; simp [Res.state?] at h2; rw [← h2]; exact .loadErr c1 hl
  | .div => rw [hl] at h2; cases h2

end TL
