import Verif.Model.Generators
import Verif.Props.Containers
import Verif.Sample
/-!
# C72: generators

Generators and other one-shot iterators are accepted wherever a list is.  They are treated as the list of the elements they produce, as long as only one type
is tried on them.
-/

namespace TL

variable {W : World} {C : Config}

/-! ## Vocabulary -/

/-- `Loader.load(g, t)` for a generator `g` on a loader in state `s` returns `r`, leaving the loader in state `s'` and the generator as `g'`. -/
def GLoads (W : World) (C : Config) (s : LState) (g : G.Gen) (t : Ty) (r : Val) (s' : LState) (g' : G.Gen) : Prop :=
  ∃ n, G.load W C n t (s, g) = .ok r (s', g')
/-- `Loader.load(g, t)` for a generator `g` raises `e`. -/
def GRaises (W : World) (C : Config) (s : LState) (g : G.Gen) (t : Ty) (e : Exc) (s' : LState) (g' : G.Gen) : Prop :=
  ∃ n, G.load W C n t (s, g) = .err e (s', g')

/-- The two values are the same, or the first is `v` and the second the generator. -/
def GSameBut (v a b : Val) : Prop := a = b ∨ a = v ∧ b = G.gobj
/-- The two exceptions differ at most in that the second mentions the generator where the first mentions `v`. -/
structure GSameError (v : Val) (e e' : Exc) : Prop where
  cls : e'.cls = e.cls
  msg : e'.msg = e.msg
  ty : e'.ty = e.ty
  subs : e'.subs = e.subs
  value : GSameBut v e.value e'.value
  trace : Zip2 (fun i j => GSameBut v i.value j.value ∧ i.ty = j.ty ∧ i.ann = j.ann) e.trace e'.trace

/-! ## Proofs -/

theorem GSameError.refl (v : Val) (e : Exc) : GSameError v e e := by
  refine ⟨rfl, rfl, rfl, rfl, Or.inl rfl, ?_⟩
  generalize e.trace = tr
  induction tr with
  | nil => exact .nil
  | cons a tr ih => exact .cons ⟨Or.inl rfl, rfl, rfl⟩ ih

theorem GSameError.isTL {v : Val} {e e' : Exc} (h : GSameError v e e') : e'.isTL = e.isTL := by unfold Exc.isTL; rw [h.cls]

theorem GSameError.push {v : Val} {e e' : Exc} (h : GSameError v e e') (t : Ty) (a : Option Annotation) :
    GSameError v (e.push ⟨v, t, a⟩) (e'.push ⟨G.gobj, t, a⟩) := by
  cases e; cases e'
  exact ⟨h.cls, h.msg, h.ty, h.subs, h.value, .cons ⟨Or.inr ⟨rfl, rfl⟩, rfl, rfl⟩ h.trace⟩

theorem GSameError.raised (c : ExcClass) (m : Msg) (v : Val) (t : Ty) : GSameError v (mkExc c m v t) (mkExc c m G.gobj t) :=
  ⟨rfl, rfl, rfl, rfl, Or.inr ⟨rfl, rfl⟩, .nil⟩

theorem GSameError.elem (v : Val) (t : Ty) (i : Nat) (e : Exc) : GSameError v (elemError v t i e) (elemError G.gobj t i e) := by
  unfold elemError
  split
  · exact (GSameError.refl v e).push t _
  · split
    · exact GSameError.raised _ _ _ _
    · exact GSameError.refl v _

theorem GSameError.loadExc {v : Val} {e e' : Exc} (h : GSameError v e e') (t : Ty) (a : Option Annotation) :
    GSameError v (TL.loadExc v t a e) (TL.loadExc G.gobj t a e') := by
  unfold TL.loadExc
  rw [h.isTL]
  split
  · exact h.push t a
  · exact GSameError.refl v _

/-- The element loop on the generator and on the list. -/
theorem iter_twin {rec : Rec} {h : Handler} {k : SeqKind} {et t : Ty} {v : Val} {f : Option ExcClass} (hrec : ∀ h x t, PresE W C (rec h x t)) (xs : List Val) :
    ∀ (i : Nat) (acc : List Val) (s : LState),
    match iterElems W C rec h k et v t xs i acc s with
    | .ok ys s' =>
      (∃ pre x post s1 e, xs = pre ++ x :: post ∧ Ext W C s s1 ∧ iterElem C rec h et x s1 = .err e s' ∧ usesMap C et = true ∧ e.cls = .stopIteration ∧
        G.iterElems W C rec h k et t f xs i acc s = .ok ys (s', ⟨post, f⟩)) ∨
      (f = none ∧ G.iterElems W C rec h k et t f xs i acc s = .ok ys (s', ⟨[], none⟩)) ∨
      (∃ c, f = some c ∧ G.iterElems W C rec h k et t f xs i acc s = .err (elemError G.gobj t (i + xs.length) (.plain c)) (s', ⟨[], none⟩))
    | .err e s' => ∃ pre x post e0, xs = pre ++ x :: post ∧ e = elemError v t (i + pre.length) e0 ∧
        G.iterElems W C rec h k et t f xs i acc s = .err (elemError G.gobj t (i + pre.length) e0) (s', ⟨post, f⟩)
    | .div => G.iterElems W C rec h k et t f xs i acc s = .div := by
  induction xs with
  | nil =>
    intro i acc s
    cases f with
    | none => exact Or.inr (Or.inl ⟨rfl, rfl⟩)
    | some c => exact Or.inr (Or.inr ⟨c, rfl, rfl⟩)
  | cons x xs ih =>
    intro i acc s
    have hx := PresE.iterElem (C := C) hrec h et x s
    unfold Post at hx
    simp only [iterElems, G.iterElems, M.handle]
    cases he : iterElem C rec h et x s with
    | div => rfl
    | ok y s1 =>
      rw [he] at hx
      simp only
      cases ha : collAdd W k acc y with
      | error c => exact ⟨[], x, xs, .plain c, rfl, rfl, rfl⟩
      | ok acc' =>
        simp only
        have := ih (i + 1) acc' s1
        cases hr : iterElems W C rec h k et v t xs (i + 1) acc' s1 with
        | div => rw [hr] at this; exact this
        | ok ys s' =>
          rw [hr] at this
          rcases this with ⟨pre, z, post, s2, e, h1, h2, h3, h4, h5, h6⟩ | this | ⟨c, h1, h2⟩
          · exact Or.inl ⟨x :: pre, z, post, s2, e, by rw [h1]; rfl, hx.trans h2, h3, h4, h5, h6⟩
          · exact Or.inr (Or.inl this)
          · refine Or.inr (Or.inr ⟨c, h1, ?_⟩)
            rw [h2, List.length_cons, Nat.add_right_comm, Nat.add_assoc]
        | err e s' =>
          rw [hr] at this
          obtain ⟨pre, z, post, e0, h1, h2, h3⟩ := this
          have hl : i + (x :: pre).length = i + 1 + pre.length := by simp; omega
          exact ⟨x :: pre, z, post, e0, by rw [h1]; rfl, by rw [hl]; exact h2, by rw [hl]; exact h3⟩
    | err e s1 =>
      simp only
      by_cases hc : (usesMap C et && e.cls == .stopIteration) = true
      · rw [if_pos hc, if_pos hc]
        simp only [Bool.and_eq_true, beq_iff_eq] at hc
        exact Or.inl ⟨[], x, xs, s, e, rfl, Ext.refl s, he, hc.1, hc.2, rfl⟩
      · rw [if_neg hc, if_neg hc]
        exact ⟨[], x, xs, e, rfl, rfl, rfl⟩

theorem G.step_coll (rec : Rec) (grec : G.GRec) (k : SeqKind) (et : Ty) :
    G.step W C rec grec (collHandler k) (.coll k et) = G.iterload W C rec k (.coll k et) := by
  cases k <;> rfl

theorem G.lift_eq {α : Type} (m : L α) (s : LState) (g : G.Gen) : G.lift m (s, g) = match m s with
    | .ok a s' => .ok a (s', g)
    | .err e s' => .err e (s', g)
    | .div => .div := rfl

theorem G.loadWith_eq {s : LState} (hc : Coh W C s) (grec : G.GRec) (t : Ty) (a : Option Annotation) (g : G.Gen) :
    G.loadWith W C grec t a (s, g) = match pick W C t with
      | .ok h => match grec h t (cacheReg W t h s, g) with
        | .ok r p => .ok r p
        | .err e p => .err (loadExc G.gobj t a e) p
        | .div => .div
      | .error c => .err (lookupExc (mkExc .tlType (.noHandler t) G.gobj t) c) (s, g) := by
  unfold G.loadWith
  rw [M.bind_apply, G.lift_eq, loadResolve_eq hc]
  cases pick W C t with
  | error c => rfl
  | ok h =>
    simp only [M.rescue]
    cases grec h t (cacheReg W t h s, g) with
    | ok r p => rfl
    | div => rfl
    | err e p =>
      simp only [loadExc]
      split <;> rfl

theorem G.iterload_eq {rec : Rec} {k : SeqKind} {et : Ty} {s : LState} (hc : Coh W C s) (g : G.Gen) :
    G.iterload W C rec k (.coll k et) (s, g) = match pick W C et with
      | .ok h => match G.iterElems W C rec h k et (.coll k et) g.fails g.rest 0 [] (cacheIdx et h s) with
        | .ok ys p' => .ok (.seq k ys) p'
        | .err e p' => .err e p'
        | .div => .div
      | .error c => .err (lookupExc (mkExc .tlType (.noHandler et) G.gobj et) c) (s, g) := by
  simp only [G.iterload]
  rw [M.bind_apply, G.lift_eq, resolve_eq hc]
  cases pick W C et <;> rfl

theorem iterload_list_eq {rec : Rec} {k : SeqKind} {et : Ty} {s : LState} (hc : Coh W C s) (xs : List Val) :
    iterload W C rec k (.list xs) (.coll k et) s = match pick W C et with
      | .ok h => match iterElems W C rec h k et (.list xs) (.coll k et) xs 0 [] (cacheIdx et h s) with
        | .ok ys s' => .ok (.seq k ys) s'
        | .err e s' => .err e s'
        | .div => .div
      | .error c => .err (lookupExc (mkExc .tlType (.noHandler et) (.list xs) et) c) s := by
  change ((resolve W C et (mkExc .tlType (.noHandler et) (.list xs) et) : L Handler) >>= fun h =>
    iterElems W C rec h k et (.list xs) (.coll k et) xs 0 [] >>= fun ys => pure (Val.seq k ys)) s = _
  rw [M.bind_apply, resolve_eq hc]
  cases pick W C et with
  | error c => rfl
  | ok h =>
    simp only [M.bind_apply]
    cases iterElems W C rec h k et (.list xs) (.coll k et) xs 0 [] (cacheIdx et h s) <;> rfl

/-- How the handler of a collection treats the generator, and how it treats the list of its elements. -/
theorem iterload_twin {n : Nat} {k : SeqKind} {et : Ty} {s : LState} (hc : Coh W C s) (xs : List Val) (f : Option ExcClass) :
    match iterload W C (run W C n) k (.list xs) (.coll k et) s with
    | .ok r s' =>
      (∃ pre x post e, xs = pre ++ x :: post ∧ HandlerRaises W C s x et e ∧ e.cls = .stopIteration ∧
        G.iterload W C (run W C n) k (.coll k et) (s, ⟨xs, f⟩) = .ok r (s', ⟨post, f⟩)) ∨
      (f = none ∧ G.iterload W C (run W C n) k (.coll k et) (s, ⟨xs, f⟩) = .ok r (s', ⟨[], none⟩)) ∨
      (∃ c, f = some c ∧ G.iterload W C (run W C n) k (.coll k et) (s, ⟨xs, f⟩) =
        .err (elemError G.gobj (.coll k et) xs.length (.plain c)) (s', ⟨[], none⟩))
    | .err e s' => ∃ e' g', G.iterload W C (run W C n) k (.coll k et) (s, ⟨xs, f⟩) = .err e' (s', g') ∧ GSameError (.list xs) e e' ∧
        ((∃ c, pick W C et = .error c) ∧ g' = ⟨xs, f⟩ ∨
         ∃ pre x post e0, xs = pre ++ x :: post ∧ g' = ⟨post, f⟩ ∧ e' = elemError G.gobj (.coll k et) pre.length e0)
    | .div => G.iterload W C (run W C n) k (.coll k et) (s, ⟨xs, f⟩) = .div := by
  rw [G.iterload_eq hc, iterload_list_eq hc]
  cases hp : pick W C et with
  | error c =>
    refine ⟨_, _, rfl, ?_, Or.inl ⟨⟨c, rfl⟩, rfl⟩⟩
    unfold lookupExc
    split
    · exact GSameError.raised _ _ _ _
    · exact GSameError.refl _ _
  | ok h =>
    simp only
    have he := cacheIdx_ext (s := s) hp
    have := iter_twin (W := W) (C := C) (h := h) (k := k) (et := et) (t := .coll k et) (v := .list xs) (f := f) (run_ext n) xs 0 [] (cacheIdx et h s)
    cases hr : iterElems W C (run W C n) h k et (.list xs) (.coll k et) xs 0 [] (cacheIdx et h s) with
    | div => rw [hr] at this; simp only at this ⊢; rw [this]
    | ok ys s' =>
      rw [hr] at this
      simp only at this ⊢
      rcases this with ⟨pre, x, post, s1, e, h1, h2, h3, h4, h5, h6⟩ | ⟨h1, h2⟩ | ⟨c, h1, h2⟩
      · refine Or.inl ⟨pre, x, post, e, h1, ?_, h5, by rw [h6]⟩
        have hi := h2.idx_keep _ _ (cacheIdx_idx hc hp)
        exact ((post_iterElem (n := n) (x := x) (he.trans h2) (hc.ext (he.trans h2)) hp hi).err h3).2.2
      · exact Or.inr (Or.inl ⟨h1, by rw [h2]⟩)
      · exact Or.inr (Or.inr ⟨c, h1, by rw [h2, Nat.zero_add]⟩)
    | err e s' =>
      rw [hr] at this
      simp only at this ⊢
      obtain ⟨pre, x, post, e0, h1, h2, h3⟩ := this
      rw [Nat.zero_add] at h2 h3
      exact ⟨_, _, by rw [h3], by rw [h2]; exact GSameError.elem _ _ _ _, Or.inr ⟨pre, x, post, e0, h1, rfl, rfl⟩⟩

/-- The same for `load`. -/
theorem load_twin {n : Nat} {k : SeqKind} {et : Ty} {s : LState} (hd : C.Usual W (.coll k et)) (hc : Coh W C s) (xs : List Val) (f : Option ExcClass) :
    match load W C n (.list xs) (.coll k et) s with
    | .ok r s' =>
      (∃ pre x post e, xs = pre ++ x :: post ∧ HandlerRaises W C s x et e ∧ e.cls = .stopIteration ∧
        G.load W C n (.coll k et) (s, ⟨xs, f⟩) = .ok r (s', ⟨post, f⟩)) ∨
      (f = none ∧ G.load W C n (.coll k et) (s, ⟨xs, f⟩) = .ok r (s', ⟨[], none⟩)) ∨
      (∃ c, f = some c ∧ G.load W C n (.coll k et) (s, ⟨xs, f⟩) =
        .err (loadExc G.gobj (.coll k et) none (elemError G.gobj (.coll k et) xs.length (.plain c))) (s', ⟨[], none⟩))
    | .err e s' => ∃ e' g', G.load W C n (.coll k et) (s, ⟨xs, f⟩) = .err e' (s', g') ∧ GSameError (.list xs) e e' ∧
        ((∃ c, pick W C et = .error c) ∧ g' = ⟨xs, f⟩ ∨
         ∃ pre x post e0, xs = pre ++ x :: post ∧ g' = ⟨post, f⟩ ∧
          e' = loadExc G.gobj (.coll k et) none (elemError G.gobj (.coll k et) pre.length e0))
    | .div => G.load W C n (.coll k et) (s, ⟨xs, f⟩) = .div := by
  have he : Ext W C s (cacheReg W (.coll k et) (collHandler k) s) := cacheReg_ext hd.coll
  rw [load_eq hc]
  unfold G.load
  rw [G.loadWith_eq hc, hd.coll]
  simp only
  cases n with
  | zero => rfl
  | succ n =>
    simp only [run, TL.step_coll, G.run, G.step_coll]
    have := iterload_twin (n := n) (k := k) (et := et) (hc.ext he) xs f
    cases hr : iterload W C (run W C n) k (.list xs) (.coll k et) (cacheReg W (.coll k et) (collHandler k) s) with
    | div => rw [hr] at this; simp only at this ⊢; rw [this]
    | ok r s' =>
      rw [hr] at this
      simp only at this ⊢
      rcases this with ⟨pre, x, post, e, h1, h2, h3, h4⟩ | ⟨h1, h2⟩ | ⟨c, h1, h2⟩
      · exact Or.inl ⟨pre, x, post, e, h1, h2.back he, h3, by rw [h4]⟩
      · exact Or.inr (Or.inl ⟨h1, by rw [h2]⟩)
      · exact Or.inr (Or.inr ⟨c, h1, by rw [h2]⟩)
    | err e s' =>
      rw [hr] at this
      simp only at this ⊢
      obtain ⟨e', g', h1, h2, h3⟩ := this
      refine ⟨_, g', by rw [h1], h2.loadExc _ _, ?_⟩
      rcases h3 with h3 | ⟨pre, x, post, e0, a, b, c⟩
      · exact Or.inl h3
      · exact Or.inr ⟨pre, x, post, e0, a, b, by rw [c]⟩

/-! ## C72 -/

/-- **C72** Loading a generator into `List[T]`, `Set[T]`, `FrozenSet[T]` or `Tuple[T, ...]` gives what loading the list of its elements gives. -/
theorem C72_elements {s : LState} {k : SeqKind} {et : Ty} (hd : C.Usual W (.coll k et)) (hs : Reachable W C s) (xs : List Val) (r : Val) (s' : LState) :
    (∃ g', GLoads W C s ⟨xs, none⟩ (.coll k et) r s' g') ↔ Loads W C s (.list xs) (.coll k et) r s' := by
  constructor
  · rintro ⟨g', n, h⟩
    refine ⟨n, ?_⟩
    have := load_twin (n := n) hd hs.coh xs none
    cases hl : load W C n (.list xs) (.coll k et) s with
    | div => rw [hl] at this; simp only at this; rw [this] at h; cases h
    | err e s1 => rw [hl] at this; obtain ⟨e', g1, h1, _⟩ := this; rw [h1] at h; cases h
    | ok r1 s1 =>
      rw [hl] at this
      rcases this with ⟨_, _, _, _, _, _, _, h1⟩ | ⟨_, h1⟩ | ⟨c, hf, _⟩
      · rw [h1] at h; cases h; rfl
      · rw [h1] at h; cases h; rfl
      · cases hf
  · rintro ⟨n, h⟩
    have := load_twin (n := n) hd hs.coh xs none
    rw [h] at this
    rcases this with ⟨_, _, _, _, _, _, _, h1⟩ | ⟨_, h1⟩ | ⟨c, hf, _⟩
    · exact ⟨_, n, h1⟩
    · exact ⟨_, n, h1⟩
    · cases hf

/-- **C72** Where the list of its elements is refused, the generator is refused with the same exception (naming the generator instead of the list), even if it would
raise an exception later on. -/
theorem C72_raises {s s' : LState} {k : SeqKind} {et : Ty} (hd : C.Usual W (.coll k et)) (hs : Reachable W C s) {xs : List Val} (f : Option ExcClass) {e : Exc}
    (h : Raises W C s (.list xs) (.coll k et) e s') : ∃ e' g', GRaises W C s ⟨xs, f⟩ (.coll k et) e' s' g' ∧ GSameError (.list xs) e e' := by
  obtain ⟨n, h⟩ := h
  have := load_twin (n := n) hd hs.coh xs f
  rw [h] at this
  obtain ⟨e', g', h1, h2, _⟩ := this
  exact ⟨e', g', ⟨n, h1⟩, h2⟩

/-- **C72** And only then, if the generator itself does not raise. -/
theorem C72_raises_only {s s' : LState} {k : SeqKind} {et : Ty} (hd : C.Usual W (.coll k et)) (hs : Reachable W C s) {xs : List Val} {e' : Exc} {g' : G.Gen}
    (h : GRaises W C s ⟨xs, none⟩ (.coll k et) e' s' g') : ∃ e, Raises W C s (.list xs) (.coll k et) e s' ∧ GSameError (.list xs) e e' := by
  obtain ⟨n, h⟩ := h
  have := load_twin (n := n) hd hs.coh xs none
  cases hl : load W C n (.list xs) (.coll k et) s with
  | div => rw [hl] at this; simp only at this; rw [this] at h; cases h
  | err e s1 => rw [hl] at this; obtain ⟨e1, g1, h1, h2, _⟩ := this; rw [h1] at h; cases h; exact ⟨e, ⟨n, hl⟩, h2⟩
  | ok r1 s1 =>
    rw [hl] at this
    rcases this with ⟨_, _, _, _, _, _, _, h1⟩ | ⟨_, h1⟩ | ⟨c, hf, _⟩
    · rw [h1] at h; cases h
    · rw [h1] at h; cases h
    · cases hf

/-- **C72** An exception of the generator itself is never lost: if the elements it produced before it are all fine, it surfaces as a TypedloadTypeError. -/
theorem C72_failing {s s' : LState} {k : SeqKind} {et : Ty} (hd : C.Usual W (.coll k et)) (hs : Reachable W C s) {xs : List Val} {c : ExcClass}
    (hc : c.isTL = false) (hstop : ∀ x ∈ xs, ∀ e, HandlerRaises W C s x et e → e.cls ≠ .stopIteration) {r : Val}
    (h : Loads W C s (.list xs) (.coll k et) r s') : ∃ e, GRaises W C s ⟨xs, some c⟩ (.coll k et) e s' ⟨[], none⟩ ∧ e.cls = .tlType := by
  obtain ⟨n, h⟩ := h
  have := load_twin (n := n) hd hs.coh xs (some c)
  rw [h] at this
  rcases this with ⟨_, x, _, e, h1, h2, h3, _⟩ | ⟨hf, _⟩ | ⟨c', hf, h1⟩
  · exact absurd h3 (hstop x (by rw [h1]; simp) e h2)
  · cases hf
  · cases hf
    refine ⟨_, ⟨n, h1⟩, ?_⟩
    unfold loadExc elemError
    rw [Exc.isTL_plain, hc]
    simp only [Bool.false_eq_true, if_false]
    split <;> rfl

/-- **C72** ... and nothing is returned. -/
theorem C72_failing_raises {s s' : LState} {k : SeqKind} {et : Ty} (hd : C.Usual W (.coll k et)) (hs : Reachable W C s) {xs : List Val} {f : Option ExcClass}
    (hstop : ∀ x ∈ xs, ∀ e, HandlerRaises W C s x et e → e.cls ≠ .stopIteration) {r : Val} {g' : G.Gen}
    (h : GLoads W C s ⟨xs, f⟩ (.coll k et) r s' g') : f = none ∧ g' = ⟨[], none⟩ := by
  obtain ⟨n, h⟩ := h
  have := load_twin (n := n) hd hs.coh xs f
  cases hl : load W C n (.list xs) (.coll k et) s with
  | div => rw [hl] at this; simp only at this; rw [this] at h; cases h
  | err e s1 => rw [hl] at this; obtain ⟨e', g1, h1, _⟩ := this; rw [h1] at h; cases h
  | ok r1 s1 =>
    rw [hl] at this
    rcases this with ⟨_, x, _, e, h1, h2, h3, _⟩ | ⟨hf, h1⟩ | ⟨c, hf, h1⟩
    · exact absurd h3 (hstop x (by rw [h1]; simp) e h2)
    · rw [h1] at h; cases h; exact ⟨hf, rfl⟩
    · rw [h1] at h; cases h

theorem elem_index {t : Ty} {i j : Nat} {e : Exc} {item : TraceItem}
    (h : (loadExc G.gobj t none (elemError G.gobj t j e)).trace[1]? = some item) (hi : item.ann = some (.index i)) : i = j := by
  have hl : (elemError G.gobj t j e).isTL = true := by
    unfold elemError
    split
    · rename_i h; rw [Exc.isTL_push]; exact h
    · split <;> rfl
  unfold loadExc at h
  rw [hl] at h
  simp only [if_true, Exc.trace_push, List.getElem?_cons_succ] at h
  unfold elemError at h
  split at h
  · simp only [Exc.trace_push, List.getElem?_cons_zero, Option.some.injEq] at h
    subst h
    simpa using hi.symm
  · split at h <;> cases h

/-- **C72** After a failure the generator can be gone on with: the elements up to and including the offending one, whose index the exception carries, are taken, the others are still
to come. -/
theorem C72_taken {s s' : LState} {k : SeqKind} {et : Ty} (hd : C.Usual W (.coll k et)) (hs : Reachable W C s) {xs : List Val} {f : Option ExcClass}
    (hf : ∀ c, f = some c → c.isTL = false) {e : Exc} {g' : G.Gen} (h : GRaises W C s ⟨xs, f⟩ (.coll k et) e s' g') :
    ∃ taken, xs = taken ++ g'.rest ∧ ∀ item i, e.trace[1]? = some item → item.ann = some (.index i) → taken.length = i + 1 := by
  obtain ⟨n, h⟩ := h
  have := load_twin (n := n) hd hs.coh xs f
  cases hl : load W C n (.list xs) (.coll k et) s with
  | div => rw [hl] at this; simp only at this; rw [this] at h; cases h
  | ok r1 s1 =>
    rw [hl] at this
    rcases this with ⟨_, x, _, e, h1, h2, h3, h4⟩ | ⟨hf, h1⟩ | ⟨c, hc, h1⟩
    · rw [h4] at h; cases h
    · rw [h1] at h; cases h
    · rw [h1] at h; cases h
      refine ⟨xs, by simp, ?_⟩
      intro item i hi _
      exfalso
      have hc := hf c hc
      unfold loadExc elemError at hi
      rw [Exc.isTL_plain, hc] at hi
      simp only [Bool.false_eq_true, if_false] at hi
      split at hi
      · split at hi <;> cases hi
      · cases hi
  | err e s1 =>
    rw [hl] at this
    obtain ⟨e1, g1, h1, h2, h3⟩ := this
    rw [h1] at h; cases h
    rcases h3 with ⟨⟨c, hp⟩, rfl⟩ | ⟨pre, x, post, e0, a, b, c⟩
    · refine ⟨[], rfl, ?_⟩
      intro item i hi _
      exfalso
      unfold G.load at h1
      rw [G.loadWith_eq hs.coh, hd.coll] at h1
      cases n with
      | zero => cases h1
      | succ n =>
        simp only [G.run, G.step_coll] at h1
        rw [G.iterload_eq (hs.coh.ext (cacheReg_ext hd.coll)), hp] at h1
        simp only [Res.err.injEq] at h1
        rw [← h1.1] at hi
        unfold loadExc lookupExc at hi
        split at hi <;> split at hi <;> cases hi
    · subst b
      refine ⟨pre ++ [x], by simp [a], ?_⟩
      intro item i hi ha
      rw [c] at hi
      rw [elem_index hi ha, List.length_append]; rfl

/-! ## Unions -/

/-- The computation keeps what the loader knows, and takes elements from the front of the generator. -/
def GKeep (W : World) (C : Config) {α : Type} (m : G.G α) : Prop := ∀ s g,
  match m (s, g) with
  | .ok _ p => Ext W C s p.1 ∧ (∃ taken, g.rest = taken ++ p.2.rest)
  | .err _ p => Ext W C s p.1 ∧ (∃ taken, g.rest = taken ++ p.2.rest)
  | .div => True

namespace GKeep
variable {α β : Type}

theorem ok {m : G.G α} (h : GKeep W C m) {s s' : LState} {g g' : G.Gen} {a : α} (hm : m (s, g) = .ok a (s', g')) :
    Ext W C s s' ∧ ∃ taken, g.rest = taken ++ g'.rest := by have := h s g; rw [hm] at this; exact this
theorem err {m : G.G α} (h : GKeep W C m) {s s' : LState} {g g' : G.Gen} {e : Exc} (hm : m (s, g) = .err e (s', g')) :
    Ext W C s s' ∧ ∃ taken, g.rest = taken ++ g'.rest := by have := h s g; rw [hm] at this; exact this

theorem pure (a : α) : GKeep W C (Pure.pure a : G.G α) := fun s _ => ⟨Ext.refl s, [], rfl⟩
theorem throw (e : Exc) : GKeep W C (M.throw e : G.G α) := fun s _ => ⟨Ext.refl s, [], rfl⟩

theorem trans {s s1 s2 : LState} {g g1 g2 : G.Gen} (h : Ext W C s s1 ∧ ∃ taken, g.rest = taken ++ g1.rest)
    (h' : Ext W C s1 s2 ∧ ∃ taken, g1.rest = taken ++ g2.rest) : Ext W C s s2 ∧ ∃ taken, g.rest = taken ++ g2.rest := by
  obtain ⟨a, t1, b⟩ := h
  obtain ⟨a', t2, b'⟩ := h'
  exact ⟨a.trans a', t1 ++ t2, by rw [b, b', List.append_assoc]⟩

theorem after {m : G.G β} (hm : GKeep W C m) {s s1 : LState} {g g1 : G.Gen} (h : Ext W C s s1 ∧ ∃ taken, g.rest = taken ++ g1.rest) :
    match m (s1, g1) with
    | .ok _ p => Ext W C s p.1 ∧ (∃ taken, g.rest = taken ++ p.2.rest)
    | .err _ p => Ext W C s p.1 ∧ (∃ taken, g.rest = taken ++ p.2.rest)
    | .div => True := by
  have := hm s1 g1
  cases h1 : m (s1, g1) with
  | div => trivial
  | ok b p => rw [h1] at this; exact trans h this
  | err e p => rw [h1] at this; exact trans h this

theorem bind {m : G.G α} {f : α → G.G β} (hm : GKeep W C m) (hf : ∀ a, GKeep W C (f a)) : GKeep W C (m >>= f) := by
  intro s g
  rw [M.bind_apply]
  cases h : m (s, g) with
  | div => trivial
  | err e p => exact hm.err h
  | ok a p => exact (hf a).after (hm.ok h)

theorem rescue {m : G.G α} {f : Exc → G.G α} (hm : GKeep W C m) (hf : ∀ a, GKeep W C (f a)) : GKeep W C (M.rescue m f) := by
  intro s g
  unfold M.rescue
  cases h : m (s, g) with
  | div => trivial
  | ok a p => exact hm.ok h
  | err e p => exact (hf e).after (hm.err h)

theorem handle {m : G.G α} {f : α → G.G β} {f' : Exc → G.G β} (hm : GKeep W C m) (hf : ∀ a, GKeep W C (f a)) (hf' : ∀ a, GKeep W C (f' a)) :
    GKeep W C (M.handle m f f') := by
  intro s g
  unfold M.handle
  cases h : m (s, g) with
  | div => trivial
  | ok a p => exact (hf a).after (hm.ok h)
  | err e p => exact (hf' e).after (hm.err h)

theorem ite {p : Prop} [Decidable p] {m m' : G.G α} (hm : GKeep W C m) (hm' : GKeep W C m') : GKeep W C (if p then m else m') := by
  split
  · exact hm
  · exact hm'

theorem lift {m : L α} (hm : PresE W C m) : GKeep W C (G.lift m) := by
  intro s g
  rw [G.lift_eq]
  have := hm s
  unfold Post at this
  cases h : m s with
  | div => trivial
  | ok a s' => rw [h] at this; exact ⟨this, [], rfl⟩
  | err a s' => rw [h] at this; exact ⟨this, [], rfl⟩

theorem iterElems {rec : Rec} (hrec : ∀ h x t, PresE W C (rec h x t)) (h : Handler) (k : SeqKind) (et t : Ty) (f : Option ExcClass) (xs : List Val) :
    ∀ i acc s, match G.iterElems W C rec h k et t f xs i acc s with
    | .ok _ p => Ext W C s p.1 ∧ (∃ taken, xs = taken ++ p.2.rest)
    | .err _ p => Ext W C s p.1 ∧ (∃ taken, xs = taken ++ p.2.rest)
    | .div => True := by
  induction xs with
  | nil => intro i acc s; cases f <;> exact ⟨Ext.refl s, [], rfl⟩
  | cons x xs ih =>
    intro i acc s
    have hx := PresE.iterElem (C := C) hrec h et x s
    unfold Post at hx
    simp only [G.iterElems]
    cases he : iterElem C rec h et x s with
    | div => trivial
    | err e s1 =>
      rw [he] at hx
      simp only
      by_cases hc : (usesMap C et && e.cls == .stopIteration) = true
      · rw [if_pos hc]; exact ⟨hx, [x], rfl⟩
      · rw [if_neg hc]; exact ⟨hx, [x], rfl⟩
    | ok y s1 =>
      rw [he] at hx
      simp only
      cases ha : collAdd W k acc y with
      | error c => exact ⟨hx, [x], rfl⟩
      | ok acc' =>
        simp only
        have := ih (i + 1) acc' s1
        cases hr : G.iterElems W C rec h k et t f xs (i + 1) acc' s1 with
        | div => trivial
        | ok ys p => rw [hr] at this; obtain ⟨a, tk, b⟩ := this; exact ⟨Ext.trans hx a, x :: tk, by rw [b]; rfl⟩
        | err e p => rw [hr] at this; obtain ⟨a, tk, b⟩ := this; exact ⟨Ext.trans hx a, x :: tk, by rw [b]; rfl⟩

theorem iterAll {rec : Rec} (hrec : ∀ h x t, PresE W C (rec h x t)) (h : Handler) (k : SeqKind) (et t : Ty) : GKeep W C (G.iterAll W C rec h k et t) := by
  intro s g
  unfold G.iterAll
  have := iterElems hrec h k et t g.fails g.rest 0 [] s
  cases hr : G.iterElems W C rec h k et t g.fails g.rest 0 [] s with
  | div => trivial
  | ok ys p => rw [hr] at this; exact this
  | err e p => rw [hr] at this; exact this

theorem iterload {rec : Rec} (hrec : ∀ h x t, PresE W C (rec h x t)) (k : SeqKind) (t : Ty) : GKeep W C (G.iterload W C rec k t) := by
  unfold G.iterload
  split
  · exact bind (lift (PresE.resolve _ _)) (fun h => iterAll hrec _ _ _ _)
  · exact throw _

theorem datetimeload (t : Ty) : GKeep W C (G.datetimeload t) := by
  unfold G.datetimeload
  cases t <;> first | exact throw _ | skip
  rename_i k
  intro s g
  cases hf : g.fails with
  | some c => simp only [hf]; exact ⟨Ext.refl s, g.rest, by simp⟩
  | none =>
    simp only [hf]
    cases hd : dtCall k g.rest with
    | ok x => exact ⟨Ext.refl s, g.rest, by simp⟩
    | error e => exact ⟨Ext.refl s, g.rest, by simp⟩

section
variable {grec : G.GRec} (hg : ∀ h t, GKeep W C (grec h t))
include hg

theorem loadWith (t : Ty) (a : Option Annotation) : GKeep W C (G.loadWith W C grec t a) := by
  unfold G.loadWith
  exact bind (lift (PresE.loadResolve _ _)) (fun h => rescue (hg h t) (fun e => ite (throw _) (throw _)))

theorem forwardrefload (t : Ty) : GKeep W C (G.forwardrefload W C grec t) := by
  unfold G.forwardrefload
  cases t <;> first | exact throw _ | skip
  rename_i n
  intro s g
  simp only
  cases s.frefs with
  | none => exact ⟨Ext.refl s, [], rfl⟩
  | some fr =>
    cases hf : aget fr n with
    | none => simp only [hf]; exact ⟨Ext.refl s, [], rfl⟩
    | some t' => simp only [hf]; exact loadWith hg t' _ s g

theorem newtypeload (t : Ty) : GKeep W C (G.newtypeload W C grec t) := by
  unfold G.newtypeload
  split
  · exact loadWith hg _ _
  · exact throw _

theorem unionTry (t : Ty) (us : List Ty) : ∀ c r es, GKeep W C (G.unionTry W C grec t us c r es) := by
  induction us with
  | nil => intro c r es; exact pure _
  | cons u us ih =>
    intro c r es
    exact handle (bind (lift (PresE.resolve _ _)) (fun h => hg h u)) (fun x => ite (ih _ _ _) (pure _)) (fun e => ite (ih _ _ _) (throw _))

theorem unionload (t : Ty) : GKeep W C (G.unionload W C grec t) := by
  unfold G.unionload
  split
  · exact bind (unionTry hg _ _ _ _ _) (fun p => ite (pure _) (ite (throw _) (throw _)))
  · exact throw _

theorem enumHints (e : Nat) (us : List Ty) : ∀ es, GKeep W C (G.enumHints W C grec e us es) := by
  induction us with
  | nil => intro es; exact throw _
  | cons u us ih =>
    intro es
    refine rescue (bind (loadWith hg _ _) (fun x => ?_)) (fun ex => ih _)
    split
    · exact pure _
    · exact throw _

theorem enumload (t : Ty) : GKeep W C (G.enumload W C grec t) := by
  unfold G.enumload
  split
  · split
    · exact pure _
    · exact enumHints hg _ _ _
  · exact throw _
end

theorem run (n : Nat) : ∀ h t, GKeep W C (G.run W C n h t) := by
  induction n with
  | zero => intro h t s g; trivial
  | succ n ih =>
    intro h t
    have hl : ∀ h, GKeep W C (G.lift (TL.step W C (TL.run W C n) h G.gobj t)) := fun h => lift (run_ext (n + 1) h G.gobj t)
    have hi := fun k => iterload (C := C) (run_ext (W := W) (C := C) n) k t
    cases h <;> simp only [G.run, G.step] <;>
      first | exact hl _ | exact hi _ | exact unionload ih t | exact enumload ih t | exact forwardrefload ih t | exact datetimeload t | exact newtypeload ih t | skip
    split
    · exact hi _
    · exact hl _

end GKeep

/-- `load` of a generator, in terms of the handler selected for the type. -/
theorem gloads_iff {s s' : LState} (hc : Coh W C s) {g g' : G.Gen} {t : Ty} {r : Val} :
    GLoads W C s g t r s' g' ↔ ∃ n h, pick W C t = .ok h ∧ G.run W C n h t (cacheReg W t h s, g) = .ok r (s', g') := by
  unfold GLoads G.load
  constructor
  · rintro ⟨n, h⟩
    rw [G.loadWith_eq hc] at h
    cases hp : pick W C t with
    | error c => rw [hp] at h; cases h
    | ok hd =>
      rw [hp] at h
      refine ⟨n, hd, rfl, ?_⟩
      simp only at h
      cases hr : G.run W C n hd t (cacheReg W t hd s, g) with
      | ok a p => rw [hr] at h; exact h
      | err e p => rw [hr] at h; cases h
      | div => rw [hr] at h; cases h
  · rintro ⟨n, h, hp, hr⟩
    exact ⟨n, by rw [G.loadWith_eq hc, hp]; simp only; rw [hr]⟩

/-- Calling the handler of a type inside another handler. -/
theorem gcall_ok {n : Nat} {u : Ty} {m : Exc} {s s' : LState} (hc : Coh W C s) {g g' : G.Gen} {r : Val}
    (h : (G.lift (resolve W C u m) >>= fun h => G.run W C n h u) (s, g) = .ok r (s', g')) :
    ∃ s1, Ext W C s s1 ∧ GLoads W C s1 g u r s' g' := by
  rw [M.bind_apply, G.lift_eq, resolve_eq hc] at h
  cases hp : pick W C u with
  | error c => rw [hp] at h; cases h
  | ok hd =>
    rw [hp] at h
    have he := cacheIdx_ext (s := s) hp
    have hreg : cacheReg W u hd (cacheIdx u hd s) = cacheIdx u hd s := by unfold cacheReg; rw [cacheIdx_idx hc hp]
    exact ⟨_, he, (gloads_iff (hc.ext he)).2 ⟨n, hd, hp, by rw [hreg]; exact h⟩⟩

/-- What the member loop of a union returns. -/
theorem gunion_loop {n : Nat} {t : Ty} (us : List Ty) : ∀ {c : Nat} {r : Val} {es : List Exc} {s s' : LState} {g g' : G.Gen} {c' : Nat} {r' : Val} {es' : List Exc},
    Coh W C s → G.unionTry W C (G.run W C n) t us c r es (s, g) = .ok (c', r', es') (s', g') →
    (c' = c ∧ r' = r) ∨ (c < c' ∧ ∃ u ∈ us, ∃ taken s1 g1 s2 g2, g.rest = taken ++ g1.rest ∧ Ext W C s s1 ∧ GLoads W C s1 g1 u r' s2 g2) := by
  induction us with
  | nil => intro c r es s s' g g' c' r' es' _ h; cases h; exact Or.inl ⟨rfl, rfl⟩
  | cons u us ih =>
    intro c r es s s' g g' c' r' es' hc h
    have hk : GKeep W C (G.lift (resolve W C u (mkExc .tlValue (.noHandlerIn u t) G.gobj u)) >>= fun h => G.run W C n h u) :=
      GKeep.bind (GKeep.lift (PresE.resolve _ _)) (fun h => GKeep.run n h u)
    unfold G.unionTry M.handle at h
    cases hm : (G.lift (resolve W C u (mkExc .tlValue (.noHandlerIn u t) G.gobj u)) >>= fun h => G.run W C n h u) (s, g) with
    | div => rw [hm] at h; cases h
    | ok x p =>
      rw [hm] at h
      obtain ⟨s1, h1, h2⟩ := gcall_ok hc hm
      have hx := hk.ok hm
      simp only at h
      split at h
      · rcases ih (hc.ext hx.1) h with ⟨rfl, rfl⟩ | ⟨hlt, w, hw, tk, s1', g1, s2, g2, a, b, d⟩
        · exact Or.inr ⟨Nat.lt_succ_self c, u, List.mem_cons_self .., [], s1, g, _, _, rfl, h1, h2⟩
        · obtain ⟨hx1, tk', hx2⟩ := hx
          exact Or.inr ⟨Nat.lt_trans (Nat.lt_succ_self c) hlt, w, List.mem_cons_of_mem _ hw, tk' ++ tk, s1', g1, s2, g2, by rw [hx2, a, List.append_assoc], hx1.trans b, d⟩
      · cases h
        exact Or.inr ⟨Nat.lt_succ_self c, u, List.mem_cons_self .., [], s1, g, _, _, rfl, h1, h2⟩
    | err e p =>
      rw [hm] at h
      have hx := hk.err hm
      simp only at h
      split at h
      · rcases ih (hc.ext hx.1) h with h | ⟨hlt, w, hw, tk, s1', g1, s2, g2, a, b, d⟩
        · exact Or.inl h
        · obtain ⟨hx1, tk', hx2⟩ := hx
          exact Or.inr ⟨hlt, w, List.mem_cons_of_mem _ hw, tk' ++ tk, s1', g1, s2, g2, by rw [hx2, a, List.append_assoc], hx1.trans b, d⟩
      · cases h

/-- **C72** (partial) In a union, a member gets what the members tried before it left in the generator: the result is what some member returns for the generator with some elements at
the front missing. -/
theorem C72_union_partial {s s' : LState} {ts : List Ty} (hd : C.Usual W (.union ts)) (hs : Reachable W C s) {g g' : G.Gen} {r : Val}
    (h : GLoads W C s g (.union ts) r s' g') :
    ∃ u ∈ ts, ∃ taken s1 g1 s2 g2, g.rest = taken ++ g1.rest ∧ Ext W C s s1 ∧ GLoads W C s1 g1 u r s2 g2 := by
  obtain ⟨n, hh, hp, hr⟩ := (gloads_iff hs.coh).1 h
  rw [hd.union] at hp; cases hp
  have he : Ext W C s (cacheReg W (.union ts) .unionload s) := cacheReg_ext hd.union
  cases n with
  | zero => cases hr
  | succ n =>
    simp only [G.run, G.step, G.unionload] at hr
    rw [M.bind_apply] at hr
    cases hu : G.unionTry W C (G.run W C n) (.union ts) (sortArgs C ts) 0 .none [] (cacheReg W (.union ts) .unionload s, g) with
    | div => rw [hu] at hr; cases hr
    | err e p => rw [hu] at hr; cases hr
    | ok q p =>
      obtain ⟨c, x, es⟩ := q
      obtain ⟨s1, g1⟩ := p
      rw [hu] at hr
      simp only at hr
      by_cases h1 : c = 1
      · rw [if_pos h1] at hr
        cases hr
        rcases gunion_loop _ (hs.coh.ext he) hu with ⟨h0, _⟩ | ⟨_, u, hm, tk, s1, g1, s2, g2, a, b, d⟩
        · omega
        · refine ⟨u, ?_, tk, s1, g1, s2, g2, a, he.trans b, d⟩
          unfold sortArgs at hm
          simp only [List.mem_append, List.mem_filter] at hm
          rcases hm with hm | hm <;> exact hm.1
      · rw [if_neg h1] at hr
        by_cases h0 : c = 0
        · rw [if_pos h0] at hr; cases hr
        · rw [if_neg h0] at hr; cases hr

/-- Witness: `Union[List[int], List[str]]` on a generator of 'a' and 'b' returns `['b']`; on the list, `['a', 'b']`. -/
theorem C72_union_counterexample :
    (∃ s' g', GLoads Sample.W Sample.C (fresh []) ⟨[.str "a", .str "b"], none⟩ (.union [.coll .list (.prim .int), .coll .list (.prim .str)]) (.list [.str "b"]) s' g') ∧
    ∃ s', Loads Sample.W Sample.C (fresh []) (.list [.str "a", .str "b"]) (.union [.coll .list (.prim .int), .coll .list (.prim .str)]) (.list [.str "a", .str "b"]) s' :=
  ⟨⟨_, _, 5, rfl⟩, _, 5, rfl⟩

/-- Witness: `Tuple[int, int]` does not take generators at all, and the exception is no TypedloadException (finding 2). -/
theorem C72_tuple_counterexample :
    (∃ e s' g', GRaises Sample.W Sample.C (fresh []) ⟨[.int 1, .int 2], none⟩ (.tuple [.prim .int, .prim .int]) e s' g' ∧ e.cls = .assertion) ∧
    ∃ s', Loads Sample.W Sample.C (fresh []) (.list [.int 1, .int 2]) (.tuple [.prim .int, .prim .int]) (.tuple [.int 1, .int 2]) s' :=
  ⟨⟨_, _, _, ⟨5, rfl⟩, rfl⟩, _, 5, rfl⟩

/-- The two computations end alike. -/
def GTwin {α : Type} (Q : α → α → Prop) (P : G.Gen → Prop) (a : Res (LState × G.Gen) Exc α) : Res LState Exc α → Prop
  | .ok r s' => ∃ r' g', a = .ok r' (s', g') ∧ Q r r' ∧ P g'
  | .err e s' => ∃ e' g', a = .err e' (s', g') ∧ e'.isTL = e.isTL ∧ P g'
  | .div => a = .div

theorem GTwin.mono {α : Type} {Q : α → α → Prop} {P P' : G.Gen → Prop} {a : Res (LState × G.Gen) Exc α} {b : Res LState Exc α} (h : GTwin Q P a b)
    (hp : ∀ g, P g → P' g) : GTwin Q P' a b := by
  cases b with
  | ok r s' => obtain ⟨r', g', h1, h2, h3⟩ := h; exact ⟨r', g', h1, h2, hp _ h3⟩
  | err e s' => obtain ⟨r', g', h1, h2, h3⟩ := h; exact ⟨r', g', h1, h2, hp _ h3⟩
  | div => exact h

theorem gtwin_coll {n : Nat} {k : SeqKind} {et t : Ty} {s : LState} (hd : C.Usual W (.coll k et)) (hc : Coh W C s) (xs : List Val) :
    GTwin (· = ·) (fun _ => True) ((G.lift (resolve W C (.coll k et) (mkExc .tlValue (.noHandlerIn (.coll k et) t) G.gobj (.coll k et))) >>= fun h => G.run W C n h (.coll k et)) (s, ⟨xs, none⟩))
      ((resolve W C (.coll k et) (mkExc .tlValue (.noHandlerIn (.coll k et) t) (.list xs) (.coll k et)) >>= fun h => run W C n h (.list xs) (.coll k et)) s) := by
  rw [M.bind_apply, M.bind_apply, G.lift_eq, resolve_eq hc, resolve_eq hc, hd.coll]
  simp only
  cases n with
  | zero => rfl
  | succ n =>
    simp only [run, TL.step_coll, G.run, G.step_coll]
    have := iterload_twin (n := n) (k := k) (et := et) (hc.ext (cacheIdx_ext hd.coll)) xs none
    cases hr : iterload W C (run W C n) k (.list xs) (.coll k et) (cacheIdx (.coll k et) (collHandler k) s) with
    | div => rw [hr] at this; exact this
    | ok r s' =>
      rw [hr] at this
      rcases this with ⟨_, _, _, _, _, _, _, h4⟩ | ⟨_, h2⟩ | ⟨c, h1, _⟩
      · exact ⟨r, _, h4, rfl, trivial⟩
      · exact ⟨r, _, h2, rfl, trivial⟩
      · cases h1
    | err e s' =>
      rw [hr] at this
      obtain ⟨e', g', h1, h2, _⟩ := this
      exact ⟨e', g', h1, h2.isTL, trivial⟩

theorem gtwin_none {n : Nat} {t : Ty} {s : LState} (hd : C.Usual W (.prim .none)) (hc : Coh W C s) (xs : List Val) (g : G.Gen) :
    GTwin (· = ·) (· = g) ((G.lift (resolve W C (.prim .none) (mkExc .tlValue (.noHandlerIn (.prim .none) t) G.gobj (.prim .none))) >>= fun h => G.run W C n h (.prim .none)) (s, g))
      ((resolve W C (.prim .none) (mkExc .tlValue (.noHandlerIn (.prim .none) t) (.list xs) (.prim .none)) >>= fun h => run W C n h (.list xs) (.prim .none)) s) := by
  rw [M.bind_apply, M.bind_apply, G.lift_eq, resolve_eq hc, resolve_eq hc, hd.none]
  simp only
  cases n with
  | zero => rfl
  | succ n => exact ⟨_, _, rfl, rfl, rfl⟩

theorem gtwin_loop {n : Nat} {k : SeqKind} {et t : Ty} (hd : C.Usual W (.coll k et)) (hn : C.Usual W (.prim .none)) (xs : List Val) (us : List Ty) :
    ∀ (c : Nat) (r : Val) (es es' : List Exc) (s : LState) (g : G.Gen), Coh W C s → (∀ u ∈ us, u = .coll k et ∨ u = .prim .none) → us.Nodup →
      (.coll k et ∈ us → g = ⟨xs, none⟩) →
    GTwin (fun p q => p.1 = q.1 ∧ p.2.1 = q.2.1) (fun _ => True) (G.unionTry W C (G.run W C n) t us c r es' (s, g)) (unionTry W C (run W C n) (.list xs) t us c r es s) := by
  induction us with
  | nil => intro c r es es' s g _ _ _ _; exact ⟨_, _, rfl, ⟨rfl, rfl⟩, trivial⟩
  | cons u us ih =>
    intro c r es es' s g hc hu hnd hg
    have hnd' := List.nodup_cons.1 hnd
    have hx := PresE.bind (C := C) (PresE.resolve u (mkExc .tlValue (.noHandlerIn u t) (.list xs) u)) (fun h => run_ext (W := W) n h (.list xs) u) s
    have htw : GTwin (· = ·) (fun g' => .coll k et ∈ us → g' = ⟨xs, none⟩)
        ((G.lift (resolve W C u (mkExc .tlValue (.noHandlerIn u t) G.gobj u)) >>= fun h => G.run W C n h u) (s, g))
        ((resolve W C u (mkExc .tlValue (.noHandlerIn u t) (.list xs) u) >>= fun h => run W C n h (.list xs) u) s) := by
      rcases hu u (List.mem_cons_self ..) with rfl | rfl
      · rw [hg (List.mem_cons_self ..)]
        exact (gtwin_coll hd hc xs).mono (fun g' _ h => absurd h hnd'.1)
      · exact (gtwin_none hn hc xs g).mono (fun g' h hm => by rw [h]; exact hg (List.mem_cons_of_mem _ hm))
    unfold Post at hx
    simp only [unionTry, G.unionTry, M.handle]
    cases hm : (resolve W C u (mkExc .tlValue (.noHandlerIn u t) (.list xs) u) >>= fun h => run W C n h (.list xs) u) s with
    | div => rw [hm] at htw; simp only [GTwin] at htw; rw [htw]; rfl
    | ok x s' =>
      rw [hm] at htw hx
      obtain ⟨x', g', h1, rfl, h2⟩ := htw
      rw [h1]
      simp only
      cases C.uniondebugconflict with
      | true => exact ih _ _ _ _ _ _ (hc.ext hx) (fun u h => hu u (List.mem_cons_of_mem _ h)) hnd'.2 h2
      | false => exact ⟨_, _, rfl, ⟨rfl, rfl⟩, trivial⟩
    | err e s' =>
      rw [hm] at htw hx
      obtain ⟨e', g', h1, h3, h2⟩ := htw
      rw [h1]
      simp only [h3]
      cases he : e.isTL with
      | true => exact ih _ _ _ _ _ _ (hc.ext hx) (fun u h => hu u (List.mem_cons_of_mem _ h)) hnd'.2 h2
      | false => exact ⟨_, _, rfl, h3, trivial⟩

theorem gtwin_union {n : Nat} {k : SeqKind} {et : Ty} {ts : List Ty} {s : LState} (hu : C.Usual W (.union ts)) (hd : C.Usual W (.coll k et)) (hn : C.Usual W (.prim .none))
    (hts : ts = [.coll k et, .prim .none] ∨ ts = [.prim .none, .coll k et]) (hc : Coh W C s) (xs : List Val) :
    GTwin (· = ·) (fun _ => True) (G.load W C n (.union ts) (s, ⟨xs, none⟩)) (load W C n (.list xs) (.union ts) s) := by
  have he : Ext W C s (cacheReg W (.union ts) .unionload s) := cacheReg_ext hu.union
  rw [load_eq hc]
  unfold G.load
  rw [G.loadWith_eq hc, hu.union]
  simp only
  cases n with
  | zero => rfl
  | succ n =>
    have hmem : ∀ u ∈ sortArgs C ts, u = .coll k et ∨ u = .prim .none := by
      intro u h
      unfold sortArgs at h
      simp only [List.mem_append, List.mem_filter] at h
      rcases hts with rfl | rfl <;> rcases h with ⟨h, _⟩ | ⟨h, _⟩ <;> simpa [or_comm] using h
    have hnd : (sortArgs C ts).Nodup := by
      unfold sortArgs
      rcases hts with rfl | rfl <;> cases hb : C.isBasic (.prim .none) <;> simp [List.filter, hb, show C.isBasic (.coll k et) = false from rfl]
    have := gtwin_loop (n := n) (t := .union ts) hd hn xs (sortArgs C ts) 0 .none [] [] (cacheReg W (.union ts) .unionload s) ⟨xs, none⟩ (hc.ext he) hmem hnd (fun _ => rfl)
    have hrun : run W C (n + 1) .unionload (.list xs) (.union ts) = (unionTry W C (run W C n) (.list xs) (.union ts) (sortArgs C ts) 0 .none [] >>= fun q =>
      if q.1 = 1 then pure q.2.1
      else if q.1 = 0 then M.throw (mkExcSubs .tlValue (.unionNone (.union ts)) (.list xs) (.union ts) q.2.2)
      else M.throw (mkExcSubs .tlType (.unionMany (.union ts) q.1) (.list xs) (.union ts) q.2.2)) := rfl
    have hrun' : G.run W C (n + 1) .unionload (.union ts) = (G.unionTry W C (G.run W C n) (.union ts) (sortArgs C ts) 0 .none [] >>= fun q =>
      if q.1 = 1 then pure q.2.1
      else if q.1 = 0 then M.throw (mkExcSubs .tlValue (.unionNone (.union ts)) G.gobj (.union ts) q.2.2)
      else M.throw (mkExcSubs .tlType (.unionMany (.union ts) q.1) G.gobj (.union ts) q.2.2)) := rfl
    rw [hrun, hrun', M.bind_apply, M.bind_apply]
    cases hr : unionTry W C (run W C n) (.list xs) (.union ts) (sortArgs C ts) 0 .none [] (cacheReg W (.union ts) .unionload s) with
    | div => rw [hr] at this; simp only [GTwin] at this; rw [this]; rfl
    | err e s' =>
      rw [hr] at this
      obtain ⟨e', g', h1, h2, _⟩ := this
      rw [h1]
      refine ⟨_, _, rfl, ?_, trivial⟩
      unfold loadExc
      rw [h2]
      split <;> simp_all
    | ok q s' =>
      rw [hr] at this
      obtain ⟨q', g', h1, ⟨h2, h3⟩, _⟩ := this
      rw [h1]
      simp only [← h2, ← h3]
      by_cases h1 : q.1 = 1
      · simp only [if_pos h1]; exact ⟨_, _, rfl, rfl, trivial⟩
      · simp only [if_neg h1]
        by_cases h0 : q.1 = 0
        · simp only [if_pos h0]; exact ⟨_, _, rfl, rfl, trivial⟩
        · simp only [if_neg h0]; exact ⟨_, _, rfl, rfl, trivial⟩

/-- **C72** `Optional[List[T]]` and the like have only one member that can take elements, and treat the generator like the list. -/
theorem C72_optional {s : LState} {k : SeqKind} {et : Ty} {ts : List Ty} (hu : C.Usual W (.union ts)) (hd : C.Usual W (.coll k et)) (hn : C.Usual W (.prim .none))
    (hts : ts = [.coll k et, .prim .none] ∨ ts = [.prim .none, .coll k et]) (hs : Reachable W C s) (xs : List Val) (r : Val) (s' : LState) :
    (∃ g', GLoads W C s ⟨xs, none⟩ (.union ts) r s' g') ↔ Loads W C s (.list xs) (.union ts) r s' := by
  constructor
  · rintro ⟨g', n, h⟩
    have := gtwin_union (n := n) hu hd hn hts hs.coh xs
    refine ⟨n, ?_⟩
    rw [h] at this
    cases hl : load W C n (.list xs) (.union ts) s with
    | div => rw [hl] at this; cases this
    | err e s1 => rw [hl] at this; obtain ⟨_, _, h1, _⟩ := this; cases h1
    | ok r1 s1 => rw [hl] at this; obtain ⟨_, _, h1, rfl, _⟩ := this; cases h1; rfl
  · rintro ⟨n, h⟩
    have := gtwin_union (n := n) hu hd hn hts hs.coh xs
    rw [h] at this
    obtain ⟨_, g', h1, rfl, _⟩ := this
    exact ⟨g', n, h1⟩

/-! ## The hypotheses are met -/

/-- tests/test_dataloader.py:186-240: generators of ints into `List[int]`, `FrozenSet[int]`... -/
example : (G.load Sample.W Sample.C 5 (.coll .list (.prim .int)) (fresh [], ⟨[.int 0, .str "5", .bool true], none⟩)).val? = some (.list [.int 0, .int 5, .bool true]) := by decide
example : (G.load Sample.W Sample.C 5 (.coll .frozenset (.prim .int)) (fresh [], ⟨[.int 1, .str "5", .bool true], none⟩)).val? = some (.frozenset [.int 1, .int 5]) := by decide
example : (∃ g' s', GLoads Sample.W Sample.C (fresh []) ⟨[.int 0, .str "5"], none⟩ (.coll .list (.prim .int)) (.list [.int 0, .int 5]) s' g') :=
  have ⟨g', h⟩ := (C72_elements (C := Sample.C) (k := .list) (et := .prim .int) rfl (.new _ _) [.int 0, .str "5"] (.list [.int 0, .int 5]) _).2 ⟨5, rfl⟩
  ⟨g', _, h⟩
/-- A bad element: the index is reported, and what comes after it can still be taken. -/
example : (match G.load Sample.W Sample.C 5 (.coll .list (.prim .int)) (fresh [], ⟨[.int 0, .str "x", .int 2], none⟩) with
    | .err e p => some (e.cls, e.trace.map (·.ann), p.2.rest)
    | _ => none) = some (.tlValue, [none, some (.index 1)], [.int 2]) := by decide
/-- A generator that raises after two elements. -/
example : (match G.load Sample.W Sample.C 5 (.coll .list (.prim .int)) (fresh [], ⟨[.int 0, .int 1], some .value⟩) with
    | .err e p => some (e.cls, p.2.rest)
    | _ => none) = some (.tlType, []) := by decide
/-- `Optional[List[int]]` -/
example : (G.load Sample.W Sample.C 5 (.union [.prim .none, .coll .list (.prim .int)]) (fresh [], ⟨[.int 0, .str "5"], none⟩)).val? = some (.list [.int 0, .int 5]) := by decide
/-- A generator of date components. -/
example : (G.load Sample.W Sample.C 5 (.dt .date) (fresh [], ⟨[.int 2020, .int 2, .int 29], none⟩)).val? = some (.date 2020 2 29) := by decide

end TL
