import Verif.Lemmas.Lax
import Verif.Lemmas.Faults
/-!
# Permissive options, with unions

`Lx m m'`: when `m` returns `a`, then so does `m'` with enough fuel.  (A StopIteration has to be kept as well: `map` takes it as the end of the data.)
As in `Lemmas/Lax.lean`, `m` runs with the strict options and `m'` with the permissive ones.  Unions are covered when the permissive
loader has no choice (`Decided`): all the members but one refuse.
-/

namespace TL

set_option linter.unusedSectionVars false

def LxRes {α : Type} : Res Unit Exc α → (Nat → R α) → Prop
  | .ok a _, m => Ok m a
  | .err e _, m => e.cls = .stopIteration → ∃ e', Er m e' ∧ e'.cls = .stopIteration
  | .div, _ => True

def Lx {α : Type} (m : R α) (m' : Nat → R α) : Prop := LxRes (m ()) m'

section lx
variable {α β : Type}

theorem Lx.refl (m : R α) : Lx m (fun _ => m) := by
  unfold Lx
  cases h : m () with
  | ok a u => exact ⟨0, fun _ _ => h⟩
  | err e u => exact fun hc => ⟨e, ⟨0, fun _ _ => h⟩, hc⟩
  | div => trivial

theorem Lx.raise {e : Exc} (m : Nat → R α) (h : e.cls ≠ .stopIteration) : Lx (M.throw e) m := fun hc => absurd hc h

theorem Lx.bind {m : R α} {m' : Nat → R α} {f : α → R β} {f' : Nat → α → R β} (hm : Lx m m') (hf : ∀ a, Lx (f a) (fun n => f' n a)) :
    Lx (m >>= f) (fun n => m' n >>= f' n) := by
  unfold Lx at hm ⊢
  simp only [M.bind_apply]
  cases h1 : m () with
  | ok a u =>
    rw [h1] at hm
    have h2 := hf a
    unfold Lx at h2
    dsimp only
    cases h3 : f a u with
    | ok b u2 => rw [show f a () = _ from h3] at h2; exact Ok.bind hm h2
    | err e u2 =>
      rw [show f a () = _ from h3] at h2
      intro hc
      obtain ⟨e', h4, h5⟩ := h2 hc
      exact ⟨e', Er.bind2 hm h4, h5⟩
    | div => trivial
  | err e u =>
    rw [h1] at hm
    intro hc
    obtain ⟨e', h4, h5⟩ := hm hc
    exact ⟨e', Er.bind1 h4, h5⟩
  | div => trivial

theorem Lx.rescue {m : R α} {m' : Nat → R α} {f : Exc → Exc} (hm : Lx m m') (hf : ∀ e, (f e).cls = .stopIteration → e.cls = .stopIteration)
    (hf' : ∀ e e', e.cls = .stopIteration → e'.cls = .stopIteration → (f e).cls = .stopIteration → (f e').cls = .stopIteration) :
    Lx (M.rescue m (fun e => M.throw (f e))) (fun n => M.rescue (m' n) (fun e => M.throw (f e))) := by
  unfold Lx at hm ⊢
  simp only [M.catch_apply]
  cases h1 : m () with
  | ok a u => rw [h1] at hm; exact Ok.rescue hm
  | err e u =>
    rw [h1] at hm
    intro hc
    obtain ⟨e', h4, h5⟩ := hm (hf e hc)
    exact ⟨f e', Er.rescue h4 (Er.throw _), hf' e e' (hf e hc) h5 hc⟩
  | div => trivial

theorem Lx.ite {c : Prop} [Decidable c] {a b : R α} {a' b' : Nat → R α} (h1 : c → Lx a a') (h2 : ¬ c → Lx b b') :
    Lx (if c then a else b) (fun n => if c then a' n else b' n) := by
  by_cases h : c
  · simp only [if_pos h]; exact h1 h
  · simp only [if_neg h]; exact h2 h

/-- What does not use the loader. -/
theorem Lx.of_le {m m' : R α} (h : Le m m') : Lx m (fun _ => m') := by
  unfold Lx
  unfold Le at h
  cases h1 : m () with
  | ok a u => rw [h1] at h; exact ⟨0, fun _ _ => h⟩
  | err e u =>
    rw [h1] at h
    intro hc
    obtain ⟨e', h2, h3⟩ := h hc
    exact ⟨e', ⟨0, fun _ _ => h2⟩, h3⟩
  | div => trivial
end lx

variable {W : World} {C : Config} {Γ : Env} {G : Ty → Prop} {P : Val → Ty → Prop} {bc fe : Bool}

theorem Lx.resolveBind {α : Type} {t : Ty} {e : Exc} {f : Handler → R α} {f' : Nat → Handler → R α}
    (hf : ∀ h, Installed C h → Lx (f h) (fun n => f' n h)) :
    Lx (Ref.resolve W C t e >>= f) (fun n => Ref.resolve W (C.but bc fe) t e >>= f' n) := by
  simp only [resolve_but]
  unfold Lx Ref.resolve
  cases hp : pick W C t with
  | ok h => exact hf h (pick_installed hp)
  | error c => exact Lx.refl (M.throw (Ref.lookupError e c) : R α)

section handlers
variable {rec : Ref.Rec} (ht : Tame W C Γ G P)
  (hrec : ∀ h v t, Installed C h → P v t → Lx (rec h v t) (fun n => Ref.run W (C.but bc fe) Γ n h v t))
include ht hrec

theorem Lx.loadWith (v : Val) (t : Ty) (a : Option Annotation) (hv : P v t) :
    Lx (Ref.loadWith W C rec v t a) (fun n => Ref.loadWith W (C.but bc fe) (Ref.run W (C.but bc fe) Γ n) v t a) := by
  unfold Ref.loadWith
  refine Lx.resolveBind (f' := fun n h => _) (fun h hin => ?_)
  have key : ∀ (m : R Val), M.rescue m (fun e => if e.isTL then M.throw (e.push ⟨v, t, a⟩) else M.throw (.plain .assertion)) =
      M.rescue m (fun e => M.throw (if e.isTL then e.push ⟨v, t, a⟩ else .plain .assertion)) := by
    intro m; congr 1; funext e; split <;> rfl
  simp only [key]
  have nostop : ∀ e : Exc, (if e.isTL then e.push ⟨v, t, a⟩ else .plain .assertion).cls ≠ .stopIteration := by
    intro e hc
    split at hc
    · rename_i h; rw [Exc.cls_push] at hc; rw [Exc.isTL, hc] at h; cases h
    · cases hc
  exact Lx.rescue (hrec h v t hin hv) (fun e h => absurd h (nostop e)) (fun e e' _ _ h => absurd h (nostop e))

theorem Lx.iterElem (h : Handler) (hin : Installed C h) (et : Ty) (x : Val) (hv : P x et) :
    Lx (Ref.iterElem C rec h et x) (fun n => Ref.iterElem (C.but bc fe) (Ref.run W (C.but bc fe) Γ n) h et x) := by
  have hr := hrec h x et hin hv
  have hb : (C.but bc fe).isBasic = C.isBasic := funext (fun t => isBasic_but t)
  cases et <;> unfold Ref.iterElem <;> simp only [hb] <;> first | exact hr | skip
  all_goals exact Lx.ite (fun _ => Lx.ite (fun _ => Lx.refl _) (fun _ => hr)) (fun _ => hr)

theorem Lx.iterElems (h : Handler) (hin : Installed C h) (k : SeqKind) (et : Ty) (v : Val) (t : Ty) (xs : List Val) :
    ∀ i acc, (∀ x ∈ xs, P x et) →
      Lx (Ref.iterElems W C rec h k et v t xs i acc) (fun n => Ref.iterElems W (C.but bc fe) (Ref.run W (C.but bc fe) Γ n) h k et v t xs i acc) := by
  induction xs with
  | nil => intro i acc _; exact Lx.refl _
  | cons x xs ih =>
    intro i acc hx
    unfold Ref.iterElems
    simp only [usesMap_but]
    have h1 := Lx.iterElem ht hrec h hin et x (hx _ (by simp))
    unfold Lx at h1 ⊢
    simp only [M.handle_apply]
    cases h2 : Ref.iterElem C rec h et x () with
    | ok y s1 =>
      rw [h2] at h1
      dsimp only
      cases hc : collAdd W k acc y with
      | error c => intro hcs; exact absurd hcs (elemError_not_stop _ _ _ _)
      | ok acc' =>
        have h3 := ih (i + 1) acc' (fun y hy => hx y (by simp [hy]))
        unfold Lx at h3
        dsimp only
        cases h4 : Ref.iterElems W C rec h k et v t xs (i + 1) acc' () with
        | ok r s2 =>
          rw [h4] at h3
          refine Ok.handle h1 ?_
          simp only [hc]; exact h3
        | err e s2 =>
          rw [h4] at h3
          intro hcs
          obtain ⟨e', h5, h6⟩ := h3 hcs
          refine ⟨e', Er.handle h1 ?_, h6⟩
          simp only [hc]; exact h5
        | div => trivial
    | err e s1 =>
      rw [h2] at h1
      dsimp only
      by_cases hc : (usesMap C et && e.cls == .stopIteration) = true
      · rw [if_pos hc]
        simp only [Bool.and_eq_true, beq_iff_eq] at hc
        obtain ⟨e', h3, h4⟩ := h1 hc.2
        refine Ok.handle2 h3 ?_
        simp only [hc.1, h4, beq_self_eq_true, Bool.and_self, if_true]
        exact Ok.pure _
      · rw [if_neg hc]
        intro hcs
        exact absurd hcs (elemError_not_stop _ _ _ _)
    | div => trivial

theorem Lx.iterload (k : SeqKind) (v : Val) (t : Ty) (hv : P v t) :
    Lx (Ref.iterload W C rec k v t) (fun n => Ref.iterload W (C.but bc fe) (Ref.run W (C.but bc fe) Γ n) k v t) := by
  unfold Ref.iterload
  refine Lx.ite (fun _ => Lx.refl _) (fun hnd => ?_)
  cases t <;> try exact Lx.refl _
  refine Lx.resolveBind (f' := fun n h => _) (fun h hin => ?_)
  cases hp : pyIter v with
  | none => exact Lx.refl _
  | some xs =>
    exact Lx.bind (f' := fun n ys => _) (Lx.iterElems ht hrec _ hin _ _ _ _ _ _ _ (ht.coll v xs _ _ hv (by simpa using hnd) hp)) (fun _ => Lx.refl _)

theorem Lx.tupElems (v : Val) (t : Ty) (xs : List Val) :
    ∀ us i, (∀ x u, (x, u) ∈ xs.zip us → P x u) →
      Lx (Ref.tupElems W C rec v t xs us i) (fun n => Ref.tupElems W (C.but bc fe) (Ref.run W (C.but bc fe) Γ n) v t xs us i) := by
  induction xs with
  | nil => intro us i _; unfold Ref.tupElems; exact Lx.refl _
  | cons x xs ih =>
    intro us i hx
    cases us with
    | nil => unfold Ref.tupElems; exact Lx.refl _
    | cons u us =>
      unfold Ref.tupElems
      refine Lx.bind (f' := fun n y => _) (Lx.rescue ?_ (fun e h => absurd h (elemError_not_stop _ _ _ _)) (fun e e' _ _ h => absurd h (elemError_not_stop _ _ _ _)))
        (fun _ => Lx.bind (f' := fun n ys => _) (ih _ _ (fun y w hy => hx y w (by simp [hy]))) (fun _ => Lx.refl _))
      simp only [pick_but, isBasic_but]
      cases hp : pick W C u with
      | error c => exact Lx.refl _
      | ok hd => exact Lx.ite (fun _ => Lx.refl _) (fun _ => hrec _ _ _ (pick_installed hp) (hx x u (by simp)))

theorem Lx.tupleload (hfe : fe = true → C.failonextra = true) (v : Val) (t : Ty) (hv : P v t) :
    Lx (Ref.tupleload W C rec v t) (fun n => Ref.tupleload W (C.but bc fe) (Ref.run W (C.but bc fe) Γ n) v t) := by
  cases t
  case coll k t =>
    cases k
    case tuple => exact Lx.iterload ht hrec _ _ _ hv
    all_goals exact Lx.refl _
  case tuple ts =>
    unfold Ref.tupleload
    refine Lx.ite (fun _ => Lx.refl _) (fun hnd => ?_)
    cases hp : pyIter v with
    | none => exact Lx.refl _
    | some xs =>
      dsimp only
      by_cases hx : (C.failonextra && decide (xs.length > ts.length)) = true
      · simp only [if_pos hx]; exact Lx.raise _ (fun h => by cases h)
      · have hx' : ¬ ((C.but bc fe).failonextra && decide (xs.length > ts.length)) = true := by
          intro h
          apply hx
          rw [Bool.and_eq_true] at h ⊢
          exact ⟨hfe h.1, h.2⟩
        simp only [if_neg hx, if_neg hx']
        exact Lx.ite (fun _ => Lx.refl _) (fun _ => Lx.bind (f' := fun n ys => _)
          (Lx.tupElems ht hrec _ _ _ _ _ (ht.tuple v xs _ hv (by simpa using hnd) hp)) (fun _ => Lx.refl _))
  all_goals exact Lx.refl _

theorem Lx.part (x : Val) (t : Ty) (a : Annotation) (hv : P x t) :
    Lx (Ref.part W C rec x t a) (fun n => Ref.part W (C.but bc fe) (Ref.run W (C.but bc fe) Γ n) x t a) := by
  unfold Ref.part
  simp only [isBasic_but]
  exact Lx.ite (fun _ => Lx.refl _) (fun _ => Lx.loadWith ht hrec _ _ _ hv)

theorem Lx.pairs (kt vt : Ty) (kvs : List (Val × Val)) : ∀ acc, (∀ p ∈ kvs, P p.1 kt ∧ P p.2 vt) →
    Lx (Ref.pairs W C rec kt vt kvs acc) (fun n => Ref.pairs W (C.but bc fe) (Ref.run W (C.but bc fe) Γ n) kt vt kvs acc) := by
  induction kvs with
  | nil => intro acc _; exact Lx.refl _
  | cons p kvs ih =>
    intro acc hp; obtain ⟨k, x⟩ := p
    have h0 := hp (k, x) (by simp)
    unfold Ref.pairs
    exact Lx.bind (f' := fun n k' => _) (Lx.part ht hrec _ _ _ h0.1) (fun k' => Lx.bind (f' := fun n x' => _) (Lx.part ht hrec _ _ _ h0.2)
      (fun x' => Lx.ite (fun _ => ih _ (fun p hp' => hp p (by simp [hp']))) (fun _ => Lx.refl _)))

theorem Lx.dictload (v : Val) (t : Ty) (hv : P v t) :
    Lx (Ref.dictload W C rec v t) (fun n => Ref.dictload W (C.but bc fe) (Ref.run W (C.but bc fe) Γ n) v t) := by
  cases t <;> try exact Lx.refl _
  rename_i kt vt
  unfold Ref.dictload
  simp only [resolve_but, dictequivalence_but]
  refine Lx.bind (f' := fun n _ => _) (Lx.refl _) (fun _ => Lx.bind (f' := fun n _ => _) (Lx.refl _) (fun _ => ?_))
  have key : ∀ (m : R Val), M.rescue m (fun e => if e.cls.isAttr then M.throw (mkExc .tlAttr .wrapped (dictequivalence C v) (.dict kt vt)) else M.throw e) =
      M.rescue m (fun e => M.throw (if e.cls.isAttr then mkExc .tlAttr .wrapped (dictequivalence C v) (.dict kt vt) else e)) := by
    intro m; congr 1; funext e; split <;> rfl
  simp only [key]
  refine Lx.rescue ?_ (fun e h => ?_) (fun e e' h h' _ => ?_)
  · cases hi : items (dictequivalence C v) with
    | none => exact Lx.refl _
    | some kvs =>
      exact Lx.bind (f' := fun n r => _) (Lx.pairs ht hrec _ _ _ _ (ht.dict _ _ _ _ hv ((items_dictequivalence v kvs).1 hi))) (fun _ => Lx.refl _)
  · split at h
    · cases h
    · exact h
  · rw [if_neg]
    · exact h'
    · rw [h']; decide

theorem Lx.objFields (info : ObjInfo) (v : Val) (t : Ty) (kvs : List (Val × Val)) :
    ∀ acc, (∀ n x ft, (.str n, x) ∈ kvs → aget info.hints n = some ft → P x ft) →
      Lx (Ref.objFields W C rec info v t kvs acc) (fun n => Ref.objFields W (C.but bc fe) (Ref.run W (C.but bc fe) Γ n) info v t kvs acc) := by
  induction kvs with
  | nil => intro acc _; exact Lx.refl _
  | cons p kvs ih =>
    intro acc hx; obtain ⟨k, x⟩ := p; unfold Ref.objFields
    have hx' : ∀ n x ft, (.str n, x) ∈ kvs → aget info.hints n = some ft → P x ft := fun n y ft hy => hx n y ft (by simp [hy])
    cases k
    case str n =>
      refine Lx.ite (fun _ => ?_) (fun _ => ih _ hx')
      cases hh : aget info.hints n with
      | none => exact Lx.refl _
      | some ft =>
        refine Lx.resolveBind (f' := fun n h => _) (fun h hin => Lx.bind (f' := fun n y => _) ?_ (fun y => ih _ hx'))
        have key : ∀ (m : R Val), M.rescue m (fun e => if e.isTL then M.throw (e.push ⟨v, t, some (.field n)⟩) else M.throw e) =
            M.rescue m (fun e => M.throw (if e.isTL then e.push ⟨v, t, some (.field n)⟩ else e)) := by
          intro m; congr 1; funext e; split <;> rfl
        simp only [key]
        refine Lx.rescue (hrec _ _ _ hin (hx n x ft (by simp) hh)) (fun e h => ?_) (fun e e' h h' _ => ?_)
        · split at h
          · rw [Exc.cls_push] at h; exact h
          · exact h
        · split
          · rw [Exc.cls_push]; exact h'
          · exact h'
    all_goals exact ih _ hx'

theorem Lx.objloader (hfe : fe = true → C.failonextra = true) (info : ObjInfo) (v : Val) (c : Nat)
    (hv : ∀ v' kvs, objItems C v = some (v', kvs) → ∀ n x ft, (.str n, x) ∈ kvs → aget info.hints n = some ft → P x ft) :
    Lx (Ref.objloader W C rec info v c) (fun n => Ref.objloader W (C.but bc fe) (Ref.run W (C.but bc fe) Γ n) info v c) := by
  unfold Ref.objloader
  simp only [objItems_but]
  cases ho : objItems C v with
  | none => exact Lx.refl _
  | some q =>
    obtain ⟨v', kvs⟩ := q
    refine Lx.ite (fun _ => Lx.refl _) (fun _ => ?_)
    by_cases hx : (C.failonextra && !(extraKeys info kvs).isEmpty) = true
    · simp only [if_pos hx]
      split
      · exact Lx.raise _ (fun h => by cases h)
      · exact Lx.raise _ (fun h => by cases h)
    · have hx' : ¬ ((C.but bc fe).failonextra && !(extraKeys info kvs).isEmpty) = true := by
        intro h
        apply hx
        rw [Bool.and_eq_true] at h ⊢
        exact ⟨hfe h.1, h.2⟩
      simp only [if_neg hx, if_neg hx']
      exact Lx.bind (f' := fun n ps => _) (Lx.objFields ht hrec _ _ _ _ _ (hv v' kvs ho)) (fun _ => Lx.refl _)

theorem Lx.objMangled (hfe : fe = true → C.failonextra = true) (info : ObjInfo) (v : Val) (c : Nat) (hi : InfoFor W C c info) (hv : P v (.obj c)) :
    Lx (Ref.objMangled W C rec info v c) (fun n => Ref.objMangled W (C.but bc fe) (Ref.run W (C.but bc fe) Γ n) info v c) := by
  unfold Ref.objMangled
  cases hm : mangle_names info.transforms v C.failonextra with
  | error e =>
    have : ofL (mangleOrRaise C info.transforms v (.obj c)) =
        M.throw (if e.isValue then mkExc .tlValue (.py e) v (.obj c) else mkExc .tlAttr (.py e) v (.obj c)) := by
      unfold mangleOrRaise
      rw [hm]
      rcases mangle_names_err hm with rfl | rfl <;> rfl
    rw [this]
    refine Lx.raise (α := Val) _ (fun h => ?_)
    split at h <;> cases h
  | ok v' =>
    have e1 : ofL (mangleOrRaise C info.transforms v (.obj c)) = Pure.pure v' := by unfold mangleOrRaise; rw [hm]; rfl
    have e2 : ofL (mangleOrRaise (C.but bc fe) info.transforms v (.obj c)) = Pure.pure v' := by
      unfold mangleOrRaise
      rw [show (C.but bc fe).failonextra = fe from rfl, mangle_names_lax hfe hm]; rfl
    simp only [e1, e2]
    refine Lx.objloader ht hrec hfe info v' c ?_
    intro v'' kvs ho n x ft hp hh
    rcases mangle_names_ok hm with ⟨_, rfl⟩ | ⟨k1, k2, rfl, rfl, _, hl⟩
    · exact ht.objItems hv hi ho n x ft hp hh
    · cases ho
      obtain ⟨f, hf, rfl, hty⟩ := hi.hints n ft hh
      rcases mangleLoop_mem _ _ _ _ _ hl _ hp with h0 | ⟨k, hk, hk2⟩
      · cases h0
      · rcases hk2 with (rfl | he) | ⟨m, p, rfl, ha, he⟩
        · exact ht.field _ k1 c hv (Or.inl rfl) f hf _ x .name hk ft hty
        · have := (pyEq_str_left _ _).1 he
          subst this
          exact ht.field _ k1 c hv (Or.inl rfl) f hf _ x .name hk ft hty
        · have hp : p = f.name := by
            rcases he with he | he
            · cases he; rfl
            · have := (pyEq_str_left _ _).1 he; cases this; rfl
          subst hp
          rw [hi.transforms] at ha
          rcases transformsOf_mem _ (aget_mem ha) with h0 | ⟨g, hg, h1, h2⟩
          · cases h0
          · exact ht.field _ k1 c hv (Or.inl rfl) f hf m x (.renamed g hg h2 h1) hk ft hty

theorem Lx.forwardrefload (v : Val) (t : Ty) (hv : P v t) :
    Lx (Ref.forwardrefload W C Γ rec v t) (fun n => Ref.forwardrefload W (C.but bc fe) Γ (Ref.run W (C.but bc fe) Γ n) v t) := by
  cases t <;> try exact Lx.refl _
  rename_i n
  unfold Ref.forwardrefload
  cases hΓ : Γ with
  | none => exact Lx.refl _
  | some f =>
    dsimp only
    cases hn : f n with
    | none => exact Lx.refl _
    | some t' => have := Lx.loadWith ht hrec v t' (some (.forwardref n)) (ht.fref v f n t' hΓ hv hn); rw [hΓ] at this; exact this

theorem Lx.newtypeload (v : Val) (t : Ty) (hv : P v t) :
    Lx (Ref.newtypeload W C rec v t) (fun n => Ref.newtypeload W (C.but bc fe) (Ref.run W (C.but bc fe) Γ n) v t) := by
  cases t <;> try exact Lx.refl _
  exact Lx.loadWith ht hrec _ _ _ (ht.newtype _ _ _ hv)

theorem Lx.enumload (v : Val) (t : Ty) (hv : P v t) (hone : ∀ e, t = .enum e → enumCall W e v = none → (W.enm e).hints.length ≤ 1) :
    Lx (Ref.enumload W C rec v t) (fun n => Ref.enumload W (C.but bc fe) (Ref.run W (C.but bc fe) Γ n) v t) := by
  cases t
  case enum e =>
    have hone := hone e rfl
    have hp := ht.enum _ _ hv
    unfold Ref.enumload
    dsimp only
    cases hc : enumCall W e v with
    | some m => exact Lx.refl _
    | none =>
      have h1 := hone hc
      dsimp only
      revert h1 hp
      cases (W.enm e).hints with
      | nil => intro _ _; exact Lx.refl _
      | cons u us =>
        cases us with
        | cons w us => intro _ h; simp at h
        | nil =>
          intro hp _
          refine Lx.rescue (f := fun ex => mkExcSubs .tlValue (.enumNone (.enum e)) v (.enum e) ([] ++ [ex]))
            (Lx.bind (f' := fun n x => _) (Lx.loadWith ht hrec v u _ (hp u (by simp))) (fun x => Lx.refl _)) (fun _ h => by cases h) (fun _ _ _ _ h => by cases h)
  all_goals exact Lx.refl _

/-- What the loop over the members of a union returns. -/
theorem lx_unionTry (v : Val) (t : Ty) (us : List Ty) : ∀ c r es, (∀ u ∈ us, P v u) →
    match Ref.unionTry W C rec v t us c r es () with
    | .ok (c', r', _) _ => (c' = c ∧ r' = r ∨
        ∃ pre u post r1, us = pre ++ u :: post ∧ Ok (attempt W (C.but bc fe) Γ v t u) r1 ∧ c + 1 ≤ c' ∧ (c' = c + 1 → r' = r1))
    | .err e _ => (e.cls = .stopIteration →
        ∃ pre u post e', us = pre ++ u :: post ∧ Er (attempt W (C.but bc fe) Γ v t u) e' ∧ e'.cls = .stopIteration)
    | .div => True := by
  induction us with
  | nil => intro c r es _; exact Or.inl ⟨rfl, rfl⟩
  | cons u us ih =>
    intro c r es hg
    have hg' : ∀ u ∈ us, P v u := fun y hy => hg y (by simp [hy])
    have h0 : Lx (Ref.resolve W C u (mkExc .tlValue (.noHandlerIn u t) v u) >>= fun h => rec h v u) (attempt W (C.but bc fe) Γ v t u) :=
      Lx.resolveBind (f' := fun n h => _) (fun h hin => hrec h v u hin (hg u (by simp)))
    unfold Lx at h0
    unfold Ref.unionTry
    rw [M.handle_apply]
    cases h1 : (Ref.resolve W C u (mkExc .tlValue (.noHandlerIn u t) v u) >>= fun h => rec h v u) () with
    | div => trivial
    | ok x s1 =>
      rw [h1] at h0
      dsimp only
      by_cases hu : C.uniondebugconflict = true
      · rw [if_pos hu]
        have h2 := ih (c + 1) x es hg'
        cases h3 : Ref.unionTry W C rec v t us (c + 1) x es s1 with
        | div => trivial
        | ok q s2 =>
          obtain ⟨c', r', es'⟩ := q
          rw [show Ref.unionTry W C rec v t us (c + 1) x es () = _ from h3] at h2
          refine Or.inr ?_
          rcases h2 with ⟨h4, h5⟩ | ⟨pre, w, post, r1, h4, h5, h6, h7⟩
          · exact ⟨[], u, us, x, rfl, h0, by omega, fun _ => h5⟩
          · exact ⟨[], u, us, x, rfl, h0, by omega, fun h => by omega⟩
        | err e s2 =>
          rw [show Ref.unionTry W C rec v t us (c + 1) x es () = _ from h3] at h2
          intro hc
          obtain ⟨pre, w, post, e', h4, h5⟩ := h2 hc
          exact ⟨u :: pre, w, post, e', by rw [h4]; rfl, h5⟩
      · rw [if_neg hu]
        exact Or.inr ⟨[], u, us, x, rfl, h0, Nat.le_refl _, fun _ => rfl⟩
    | err e s1 =>
      rw [h1] at h0
      dsimp only
      by_cases he : e.isTL = true
      · rw [if_pos he]
        have h2 := ih c r (es ++ [e.push ⟨v, t, some (.union u)⟩]) hg'
        cases h3 : Ref.unionTry W C rec v t us c r (es ++ [e.push ⟨v, t, some (.union u)⟩]) s1 with
        | div => trivial
        | ok q s2 =>
          obtain ⟨c', r', es'⟩ := q
          rw [show Ref.unionTry W C rec v t us c r (es ++ [e.push ⟨v, t, some (.union u)⟩]) () = _ from h3] at h2
          rcases h2 with h4 | ⟨pre, w, post, r1, h4, h5⟩
          · exact Or.inl h4
          · exact Or.inr ⟨u :: pre, w, post, r1, by rw [h4]; rfl, h5⟩
        | err e2 s2 =>
          rw [show Ref.unionTry W C rec v t us c r (es ++ [e.push ⟨v, t, some (.union u)⟩]) () = _ from h3] at h2
          intro hc
          obtain ⟨pre, w, post, e', h4, h5⟩ := h2 hc
          exact ⟨u :: pre, w, post, e', by rw [h4]; rfl, h5⟩
      · rw [if_neg he]
        intro hc
        obtain ⟨e', h4, h5⟩ := h0 hc
        exact ⟨[], u, us, e', rfl, h4, h5⟩

omit ht hrec in
theorem sortArgs_but (ts : List Ty) : sortArgs (C.but bc fe) ts = sortArgs C ts := by
  unfold sortArgs
  have hb : (C.but bc fe).isBasic = C.isBasic := funext (fun t => isBasic_but t)
  simp only [hb]

omit ht hrec in
theorem unionOrder_but (v : Val) (ts : List Ty) : Ref.unionOrder W (C.but bc fe) v ts = Ref.unionOrder W C v ts := by
  unfold Ref.unionOrder
  simp only [sortArgs_but]

omit ht hrec in
theorem ref_unionOrder_perm {v : Val} {ts order : List Ty} {u : Unit} (h : Ref.unionOrder W C v ts () = .ok order u) : order.Perm ts := by
  have h0 : (sortArgs C ts).Perm ts := preference_perm C ts
  unfold Ref.unionOrder at h
  cases v
  case dict kvs =>
    dsimp only at h
    cases hm : mkDisc W [] ts with
    | none => rw [hm] at h; cases h; exact h0
    | some q =>
      obtain ⟨key, table⟩ := q
      rw [hm] at h
      dsimp only at h
      by_cases he : table.isEmpty = true
      · rw [if_pos he] at h; cases h; exact h0
      · rw [if_neg he] at h
        by_cases hh : W.hash ((dget kvs (.str key)).getD .none) = true
        · rw [if_pos hh] at h
          cases hg : dget table ((dget kvs (.str key)).getD .none) with
          | none => rw [hg] at h; cases h; exact h0
          | some p =>
            rw [hg] at h
            cases h
            obtain ⟨l', hmem, _⟩ := dget_mem hg
            obtain ⟨_, htab⟩ := mkDisc_key hm
            rw [htab] at hmem
            have hpt := (literalTable_ok [] key ts l' p hmem).1
            exact (List.perm_cons_erase (h0.mem_iff.2 hpt)).symm.trans h0
        · rw [if_neg hh] at h; cases h
  all_goals (cases h; exact h0)

theorem Lx.unionload (v : Val) (t : Ty) (hv : P v t)
    (hap : ∀ ts, t = .union ts → ¬ (C.isBasic (typeOf v) && ts.contains (typeOf v)) = true → Apart W (C.but bc fe) Γ v ts) :
    Lx (Ref.unionload W C rec v t) (fun n => Ref.unionload W (C.but bc fe) (Ref.run W (C.but bc fe) Γ n) v t) := by
  cases t
  case union ts =>
    unfold Ref.unionload
    simp only [isBasic_but, unionOrder_but]
    refine Lx.ite (fun _ => Lx.refl _) (fun hsc => ?_)
    have hap := hap ts rfl hsc
    unfold Lx
    simp only [M.bind_apply]
    cases hr : Ref.unionOrder W C v ts () with
    | div => trivial
    | err e s' => exact fun hc => ⟨e, ⟨0, fun _ _ => by simp only [M.bind_apply, hr]⟩, hc⟩
    | ok order s' =>
      have hor : Ok (fun _ => Ref.unionOrder W C v ts) order := ⟨0, fun _ _ => hr⟩
      have hperm : order.Perm ts := ref_unionOrder_perm hr
      have hpw : order.Pairwise (fun a b => Spurns W (C.but bc fe) Γ v (.union ts) a ∨ Spurns W (C.but bc fe) Γ v (.union ts) b) :=
        hperm.symm.pairwise hap (fun h => h.symm)
      have h4 := lx_unionTry ht hrec v (.union ts) order 0 .none [] (fun w hw => ht.union v ts hv w (hperm.mem_iff.1 hw))
      dsimp only
      cases h5 : Ref.unionTry W C rec v (.union ts) order 0 .none [] () with
      | div => trivial
      | err e s2 =>
        rw [h5] at h4
        intro hc
        obtain ⟨pre, u, post, e', rfl, h6, h7⟩ := h4 hc
        have hn : e'.isTL = false := by
          cases h8 : e'.isTL with
          | false => rfl
          | true => exact absurd h7 (Exc.isTL_not_stop h8)
        have hns : ¬ Spurns W (C.but bc fe) Γ v (.union ts) u := by
          rintro ⟨e2, h8, h9⟩
          obtain ⟨N, h6⟩ := h6
          obtain ⟨N', h8⟩ := h8
          have := (h6 (max N N') (by omega)).symm.trans (h8 (max N N') (by omega))
          cases this
          rw [hn] at h9; cases h9
        exact ⟨e', Er.bind2 hor (Er.bind1 (Spurns.fails pre post h6 hn .none [] (spurns_rest hpw hns).1)), h7⟩
      | ok q s2 =>
        obtain ⟨c', r', es'⟩ := q
        rw [h5] at h4
        dsimp only
        rcases h4 with ⟨rfl, rfl⟩ | ⟨pre, u, post, r1, rfl, h7, h8, h9⟩
        · exact fun hc => by cases hc
        · by_cases hc1 : c' = 1
          · subst hc1
            have := h9 rfl
            subst this
            have hns : ¬ Spurns W (C.but bc fe) Γ v (.union ts) u := fun ⟨e2, h10, _⟩ => Ok.not_er h7 h10
            obtain ⟨es2, h10⟩ := Spurns.one pre post h7 (spurns_rest hpw hns).2 .none [] (spurns_rest hpw hns).1
            refine Ok.bind hor (Ok.bind h10 ?_)
            simp only [if_true]
            exact Ok.pure _
          · rw [if_neg hc1, if_neg (by omega)]
            exact fun hc => by cases hc
  all_goals exact Lx.refl _

theorem Lx.step (hd : C.Default) (hbc : C.basiccast = true → bc = true) (hfe : fe = true → C.failonextra = true) (hdec : Decided W (C.but bc fe) Γ P)
    (h : Handler) (hin : Installed C h) (v : Val) (t : Ty) (hv : P v t) :
    Lx (Ref.step W C Γ rec h v t) (fun n => Ref.step W (C.but bc fe) Γ (Ref.run W (C.but bc fe) Γ n) h v t) := by
  unfold Ref.step
  cases h <;> dsimp only
  case unionload => exact Lx.unionload ht hrec v t hv (fun ts e hsc => hdec.union v ts (e ▸ hv) (by rw [isBasic_but]; exact hsc))
  case custom i => exact absurd hin (not_installed hd i)
  case basicload => exact Lx.of_le (Le.basicload hbc _ _)
  case enumload => exact Lx.enumload ht hrec _ _ hv (fun e he => hdec.enum v e (he ▸ hv))
  case tupleload => exact Lx.tupleload ht hrec hfe _ _ hv
  case listload => exact Lx.iterload ht hrec _ _ _ hv
  case setload => exact Lx.iterload ht hrec _ _ _ hv
  case frozensetload => exact Lx.iterload ht hrec _ _ _ hv
  case dictload => exact Lx.dictload ht hrec _ _ hv
  case forwardrefload => exact Lx.forwardrefload ht hrec _ _ hv
  case newtypeload => exact Lx.newtypeload ht hrec _ _ hv
  case namedtupleload =>
    cases t <;> try exact Lx.refl _
    unfold Ref.namedtupleload
    exact Lx.ite (fun hk => Lx.objloader ht hrec hfe _ _ _ (fun _ _ ho => ht.objItems hv (infoFor_namedtuple hk) ho)) (fun _ => Lx.refl _)
  case dataclassload =>
    cases t <;> try exact Lx.refl _
    unfold Ref.dataclassload
    exact Lx.ite (fun hk => Lx.objMangled ht hrec hfe _ _ _ (infoFor_dataclass hk) hv) (fun _ => Lx.refl _)
  case typeddictload =>
    cases t <;> try exact Lx.refl _
    unfold Ref.typeddictload
    exact Lx.ite (fun hk => Lx.objloader ht hrec hfe _ _ _ (fun _ _ ho => ht.objItems hv (infoFor_typeddict hk false) ho)) (fun _ => Lx.refl _)
  case attrload =>
    cases t <;> try exact Lx.refl _
    unfold Ref.attrload
    refine Lx.ite (fun hk => ?_) (fun _ => Lx.refl _)
    rename_i c
    cases hh : attrHints (W.cls c).fields with
    | error e => exact Lx.refl _
    | ok hints => exact Lx.objMangled ht hrec hfe _ _ _ (infoFor_attrs hk hh) hv
  all_goals exact Lx.refl _
end handlers

theorem Lx.run (ht : Tame W C Γ G P) (hd : C.Default) (hbc : C.basiccast = true → bc = true) (hfe : fe = true → C.failonextra = true)
    (hdec : Decided W (C.but bc fe) Γ P) :
    ∀ n h v t, Installed C h → P v t → Lx (Ref.run W C Γ n h v t) (fun n => Ref.run W (C.but bc fe) Γ n h v t)
  | 0, _, _, _, _, _ => trivial
  | n + 1, h, v, t, hin, hv => by
    have := Lx.step ht (Lx.run ht hd hbc hfe hdec n) hd hbc hfe hdec h hin v t hv
    unfold Lx at this ⊢
    cases h1 : Ref.run W C Γ (n + 1) h v t () with
    | div => trivial
    | ok a u =>
      rw [show Ref.step W C Γ (Ref.run W C Γ n) h v t () = _ from h1] at this
      obtain ⟨N, hN⟩ := this
      exact ⟨N + 1, fun m hm => by obtain ⟨k, rfl⟩ : ∃ k, m = k + 1 := ⟨m - 1, by omega⟩; exact hN k (by omega)⟩
    | err e u =>
      rw [show Ref.step W C Γ (Ref.run W C Γ n) h v t () = _ from h1] at this
      intro hc
      obtain ⟨e', ⟨N, hN⟩, he⟩ := this hc
      exact ⟨e', ⟨N + 1, fun m hm => by obtain ⟨k, rfl⟩ : ∃ k, m = k + 1 := ⟨m - 1, by omega⟩; exact hN k (by omega)⟩, he⟩

theorem Lx.load (ht : Tame W C Γ G P) (hd : C.Default) (hbc : C.basiccast = true → bc = true) (hfe : fe = true → C.failonextra = true)
    (hdec : Decided W (C.but bc fe) Γ P) (n : Nat) (v : Val) (t : Ty) (hv : P v t) :
    Lx (Ref.load W C Γ n v t) (fun n => Ref.load W (C.but bc fe) Γ n v t) :=
  Lx.loadWith ht (Lx.run ht hd hbc hfe hdec n) v t none hv

end TL
