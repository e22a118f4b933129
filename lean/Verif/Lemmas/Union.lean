import Verif.Lemmas.Pick
/-!
# The member loop of `_unionload`
-/

namespace TL

variable {W : World} {C : Config}

/-- Calling the handler of a type inside another handler, as seen from the API: the same as `load` in the state after the
handler lookup, up to the trace added by `load`. -/
theorem post_call {n : Nat} {v : Val} {u : Ty} {m : Exc} (hm : m.isTL = true) {s : LState} (hc : Coh W C s) :
    Post (do let h ← resolve W C u m; run W C n h v u) s
      (fun r s' => ∃ s1, Ext W C s s1 ∧ Ext W C s1 s' ∧ Loads W C s1 v u r s')
      (fun e s' => ∃ s1 e1, Ext W C s s1 ∧ Ext W C s1 s' ∧ Raises W C s1 v u e1 s' ∧ e.isTL = e1.isTL) := by
  rw [post_bind]
  unfold Post
  rw [resolve_eq hc]
  cases hp : pick W C u with
  | error c =>
    refine ⟨s, _, Ext.refl s, Ext.refl s, (raises_iff hc).2 (Or.inr ⟨c, hp, rfl, rfl⟩), ?_⟩
    unfold lookupExc; split <;> simp_all [mkExc, ExcClass.isTL]
  | ok h =>
    dsimp only
    have he := cacheIdx_ext (s := s) hp
    have hc1 := hc.ext he
    have hi := cacheIdx_idx hc hp
    have hreg : cacheReg W u h (cacheIdx u h s) = cacheIdx u h s := by unfold cacheReg; rw [hi]
    have hx := run_ext (W := W) (C := C) n h v u (cacheIdx u h s)
    cases hr : run W C n h v u (cacheIdx u h s) with
    | div => trivial
    | ok r s' =>
      exact ⟨_, he, hx.ok hr, (loads_iff hc1).2 ⟨n, h, hp, by rw [hreg]; exact hr⟩⟩
    | err e s' =>
      refine ⟨_, _, he, hx.err hr, (raises_iff hc1).2 (Or.inl ⟨n, h, e, hp, by rw [hreg]; exact hr, rfl⟩), ?_⟩
      unfold loadExc; cases h : e.isTL <;> simp [h, ExcClass.isTL]

/-- Outcome of trying member `u` in a state later than `s`; a refusal is described by the exception kept by the union. -/
def Outcome (W : World) (C : Config) (s : LState) (v : Val) (t u : Ty) : Except Exc Val → Prop
  | .ok r => ∃ s1 s2, Ext W C s s1 ∧ Loads W C s1 v u r s2
  | .error x => ∃ (s1 s2 : LState) (e e1 : Exc), Ext W C s s1 ∧ Raises W C s1 v u e1 s2 ∧ e1.isTL = true ∧ e.isTL = true ∧
      x = e.push ⟨v, t, some (.union u)⟩

/-- The successes and the failures. -/
def oks (os : List (Except Exc Val)) : List Val := os.filterMap (fun o => match o with
  | .ok r => some r
  | .error _ => none)
def errs (os : List (Except Exc Val)) : List Exc := os.filterMap (fun o => match o with
  | .ok _ => none
  | .error e => some e)

@[simp] theorem oks_nil : oks [] = [] := rfl
@[simp] theorem errs_nil : errs [] = [] := rfl
@[simp] theorem oks_ok (x : Val) (os : List (Except Exc Val)) : oks (.ok x :: os) = x :: oks os := rfl
@[simp] theorem oks_error (x : Exc) (os : List (Except Exc Val)) : oks (.error x :: os) = oks os := rfl
@[simp] theorem errs_ok (x : Val) (os : List (Except Exc Val)) : errs (.ok x :: os) = errs os := rfl
@[simp] theorem errs_error (x : Exc) (os : List (Except Exc Val)) : errs (.error x :: os) = x :: errs os := rfl

theorem getLast?_cons_getD {α : Type} (x r : α) (l : List α) : ((x :: l).getLast?).getD r = (l.getLast?).getD x := by
  cases l with
  | nil => rfl
  | cons y l => simp [List.getLast?_cons]

theorem getLast?_cons_ne {α : Type} (x : α) {l : List α} (h : l ≠ []) : (x :: l).getLast? = l.getLast? := by
  cases l with
  | nil => exact absurd rfl h
  | cons y l => exact List.getLast?_cons_cons

/-- What the loop over the members does. -/
def LoopSpec (W : World) (C : Config) (s : LState) (v : Val) (t : Ty) (us : List Ty) (c : Nat) (r : Val) (es : List Exc)
    (res : Nat × Val × List Exc) : Prop :=
  ∃ pre post os, us = pre ++ post ∧ Zip2 (Outcome W C s v t) pre os ∧
    res.1 = c + (oks os).length ∧ res.2.2 = es ++ errs os ∧ res.2.1 = ((oks os).getLast?).getD r ∧
    (C.uniondebugconflict = true → post = []) ∧
    (C.uniondebugconflict = false → (post = [] ∧ oks os = []) ∨ ∃ x, (oks os) = [x] ∧ os.getLast? = some (.ok x))

theorem post_unionTry {n : Nat} {v : Val} {t : Ty} {s0 : LState} (us : List Ty) :
    ∀ (c : Nat) (r : Val) (es : List Exc) (s : LState), Ext W C s0 s → Coh W C s →
    Post (unionTry W C (run W C n) v t us c r es) s
      (fun res s' => LoopSpec W C s0 v t us c r es res ∧ Ext W C s0 s')
      (fun e s' => e.isTL = false ∧ ∃ u ∈ us, ∃ s1 e1, Ext W C s0 s1 ∧ Raises W C s1 v u e1 s' ∧ e1.isTL = false) := by
  induction us with
  | nil =>
    intro c r es s he hc
    simp only [unionTry, post_pure]
    exact ⟨⟨[], [], [], rfl, .nil, by simp, by simp, by simp, fun _ => rfl,
      fun _ => Or.inl ⟨rfl, rfl⟩⟩, he⟩
  | cons u us ih =>
    intro c r es s he hc
    unfold unionTry
    rw [post_handle]
    refine (post_call (n := n) (v := v) (u := u) (m := mkExc .tlValue (.noHandlerIn u t) v u) rfl hc).mono ?_ ?_
    · rintro x s' ⟨s1, he1, he2, hl⟩
      have ho : Outcome W C s0 v t u (.ok x) := ⟨s1, s', he.trans he1, hl⟩
      have he' : Ext W C s0 s' := (he.trans he1).trans he2
      cases hdbg : C.uniondebugconflict with
      | false =>
        simp only [Bool.false_eq_true, if_false, post_pure]
        exact ⟨⟨[u], us, [.ok x], rfl, .cons ho .nil, by simp, by simp, by simp, by simp [hdbg],
          fun _ => Or.inr ⟨x, by simp, by simp⟩⟩, he'⟩
      | true =>
        simp only [if_true]
        refine (ih (c + 1) x es s' he' (hc.ext (he1.trans he2))).mono ?_ ?_
        · rintro res s'' ⟨⟨pre, post, os, h1, h2, h3, h4, h5, h6, h7⟩, hx⟩
          refine ⟨⟨u :: pre, post, .ok x :: os, by simp [h1], .cons ho h2, ?_, ?_, ?_, h6, by simp [hdbg]⟩, hx⟩
          · simp [h3]; omega
          · simp [h4]
          · rw [h5, oks_ok, getLast?_cons_getD]
        · rintro e s'' ⟨h0, u', hu', rest⟩; exact ⟨h0, u', List.mem_cons_of_mem _ hu', rest⟩
    · rintro e s' ⟨s1, e1, he1, he2, hra, htl⟩
      have he' : Ext W C s0 s' := (he.trans he1).trans he2
      cases hx : e.isTL with
      | false =>
        simp only [Bool.false_eq_true, if_false, post_throw]
        exact ⟨hx, u, by simp, s1, e1, he.trans he1, hra, by rw [← htl]; exact hx⟩
      | true =>
        simp only [if_true]
        have ho : Outcome W C s0 v t u (.error (e.push ⟨v, t, some (.union u)⟩)) :=
          ⟨s1, s', e, e1, he.trans he1, hra, by rw [← htl]; exact hx, hx, rfl⟩
        refine (ih c r (es ++ [e.push ⟨v, t, some (.union u)⟩]) s' he' (hc.ext (he1.trans he2))).mono ?_ ?_
        · rintro res s'' ⟨⟨pre, post, os, h1, h2, h3, h4, h5, h6, h7⟩, hx⟩
          refine ⟨⟨u :: pre, post, .error _ :: os, by simp [h1], .cons ho h2, ?_, ?_, ?_, h6, ?_⟩, hx⟩
          · simp [h3]
          · simp [h4]
          · simp [h5]
          · intro hdbg
            rcases h7 hdbg with ⟨a, b⟩ | ⟨x, a, b⟩
            · left; exact ⟨a, by simpa using b⟩
            · right; refine ⟨x, by simpa using a, ?_⟩
              have hne : os ≠ [] := by intro h; rw [h] at b; simp at b
              rw [getLast?_cons_ne _ hne]; exact b
        · rintro e s'' ⟨h0, u', hu', rest⟩; exact ⟨h0, u', List.mem_cons_of_mem _ hu', rest⟩

/-- Every state later than `s`, every member terminates. -/
def Terminates (W : World) (C : Config) (s : LState) (v : Val) (u : Ty) : Prop :=
  ∀ s1, Ext W C s s1 → (∃ r s2, Loads W C s1 v u r s2) ∨ (∃ e s2, Raises W C s1 v u e s2)

theorem call_terminates {v : Val} {u : Ty} {m : Exc} {s : LState} (hc : Coh W C s)
    (ht : Terminates W C s v u) : ∃ n, (do let h ← resolve W C u m; run W C n h v u : L Val) s ≠ .div := by
  simp only [M.bind_apply, resolve_eq hc]
  cases hp : pick W C u with
  | error c => exact ⟨0, by simp⟩
  | ok h =>
    dsimp only
    have he := cacheIdx_ext (s := s) hp
    have hc1 := hc.ext he
    have hi := cacheIdx_idx hc hp
    have hreg : cacheReg W u h (cacheIdx u h s) = cacheIdx u h s := by unfold cacheReg; rw [hi]
    rcases ht _ he with ⟨r, s2, hl⟩ | ⟨e, s2, hl⟩
    · obtain ⟨n, h', hp', hr⟩ := (loads_iff hc1).1 hl
      rw [hp] at hp'; cases hp'
      exact ⟨n, by rw [hreg] at hr; simp [hr]⟩
    · rcases (raises_iff hc1).1 hl with ⟨n, h', e', hp', hr, _⟩ | ⟨c, hp', _⟩
      · rw [hp] at hp'; cases hp'
        exact ⟨n, by rw [hreg] at hr; simp [hr]⟩
      · rw [hp] at hp'; cases hp'

theorem Terminates.later {s s' : LState} {v : Val} {u : Ty} (h : Terminates W C s v u) (he : Ext W C s s') :
    Terminates W C s' v u := fun s1 he1 => h s1 (he.trans he1)

theorem unionTry_terminates {v : Val} {t : Ty} (us : List Ty) :
    ∀ (c : Nat) (r : Val) (es : List Exc) (s : LState), Coh W C s → (∀ u ∈ us, Terminates W C s v u) →
    ∃ n, unionTry W C (run W C n) v t us c r es s ≠ .div := by
  induction us with
  | nil => intro c r es s _ _; exact ⟨0, by simp [unionTry]⟩
  | cons u us ih =>
    intro c r es s hc ht
    obtain ⟨n1, hn1⟩ := call_terminates (m := mkExc .tlValue (.noHandlerIn u t) v u) hc (ht u (by simp))
    have hpc := post_call (n := n1) (v := v) (u := u) (m := mkExc .tlValue (.noHandlerIn u t) v u) rfl hc
    have mono : ∀ N, n1 ≤ N → (do let h ← resolve W C u (mkExc .tlValue (.noHandlerIn u t) v u); run W C N h v u : L Val) s =
        (do let h ← resolve W C u (mkExc .tlValue (.noHandlerIn u t) v u); run W C n1 h v u : L Val) s :=
      fun N hN => LeM.bind (LeM.refl _) (fun h => run_le hN h v u) s hn1
    cases h1 : (do let h ← resolve W C u (mkExc .tlValue (.noHandlerIn u t) v u); run W C n1 h v u : L Val) s with
    | div => exact absurd h1 hn1
    | ok x s' =>
      obtain ⟨s1, a, b, _⟩ := hpc.ok h1
      cases hdbg : C.uniondebugconflict with
      | false =>
        refine ⟨n1, ?_⟩
        unfold unionTry
        rw [M.handle_apply, h1]; simp [hdbg]
      | true =>
        obtain ⟨n2, hn2⟩ := ih (c + 1) x es s' (hc.ext (a.trans b))
          (fun u' hu' => (ht u' (by simp [hu'])).later (a.trans b))
        refine ⟨max n1 n2, ?_⟩
        unfold unionTry
        rw [M.handle_apply, mono _ (Nat.le_max_left _ _), h1]
        simp only [hdbg, if_true]
        rw [LeM.unionTry (run_le (Nat.le_max_right n1 n2)) v t us _ _ _ s' hn2]; exact hn2
    | err e s' =>
      obtain ⟨s1, e1, a, b, _, _⟩ := hpc.err h1
      cases hx : e.isTL with
      | false =>
        refine ⟨n1, ?_⟩
        unfold unionTry
        rw [M.handle_apply, h1]; simp [hx]
      | true =>
        obtain ⟨n2, hn2⟩ := ih c r (es ++ [e.push ⟨v, t, some (.union u)⟩]) s' (hc.ext (a.trans b))
          (fun u' hu' => (ht u' (by simp [hu'])).later (a.trans b))
        refine ⟨max n1 n2, ?_⟩
        unfold unionTry
        rw [M.handle_apply, mono _ (Nat.le_max_left _ _), h1]
        simp only [hx, if_true]
        rw [LeM.unionTry (run_le (Nat.le_max_right n1 n2)) v t us _ _ _ s' hn2]; exact hn2

end TL
