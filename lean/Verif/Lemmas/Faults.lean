import Verif.Model.Faults
import Verif.Lemmas.RefRun
/-!
# A loader in which calls fail returns nothing wrong

`Fl K m m'`: when `m`, started in a state of `K`, returns `a`, then so does `m'` with enough fuel; the state stays in `K` whatever happens.  (A StopIteration
has to be one of `m'` too: `map` takes it as the end of the data.)
-/

namespace TL

set_option linter.unusedSectionVars false

def FRes {α : Type} (K : LState → Prop) : Res LState Exc α → (Nat → R α) → Prop
  | .ok a s, m => K s ∧ Ok m a
  | .err e s, m => K s ∧ (e.cls = .stopIteration → ∃ e', Er m e' ∧ e'.cls = .stopIteration)
  | .div, _ => True

def Fl {α : Type} (K : LState → Prop) (m : L α) (m' : Nat → R α) : Prop := ∀ s, K s → FRes K (m s) m'

section fl
variable {α β : Type} {K : LState → Prop}

theorem Fl.pure (a : α) : Fl K (Pure.pure a) (fun _ => Pure.pure a) := fun _ h => ⟨h, Ok.pure a⟩
theorem Fl.throw (e : Exc) : Fl K (M.throw e : L α) (fun _ => M.throw e) := fun _ h => ⟨h, fun hc => ⟨e, Er.throw e, hc⟩⟩
theorem Fl.raise {e : Exc} (he : e.cls ≠ .stopIteration) (m : Nat → R α) : Fl K (M.throw e : L α) m := fun _ h => ⟨h, fun hc => absurd hc he⟩

theorem Fl.bind {m : L α} {m' : Nat → R α} {f : α → L β} {f' : Nat → α → R β} (hm : Fl K m m') (hf : ∀ a, Fl K (f a) (fun n => f' n a)) :
    Fl K (m >>= f) (fun n => m' n >>= f' n) := by
  intro s hs
  have h := hm s hs
  simp only [M.bind_apply]
  cases h1 : m s with
  | ok a s1 =>
    rw [h1] at h
    have h2 := hf a s1 h.1
    dsimp only
    cases h3 : f a s1 with
    | ok b s2 => rw [h3] at h2; exact ⟨h2.1, Ok.bind h.2 h2.2⟩
    | err e s2 =>
      rw [h3] at h2
      refine ⟨h2.1, fun hc => ?_⟩
      obtain ⟨e', h4, h5⟩ := h2.2 hc
      exact ⟨e', Er.bind2 h.2 h4, h5⟩
    | div => trivial
  | err e s1 =>
    rw [h1] at h
    refine ⟨h.1, fun hc => ?_⟩
    obtain ⟨e', h4, h5⟩ := h.2 hc
    exact ⟨e', Er.bind1 h4, h5⟩
  | div => trivial

/-- An exception handler that raises again. -/
theorem Fl.rescue {m : L α} {m' : Nat → R α} {f : Exc → Exc} (hm : Fl K m m') (hf : ∀ e, (f e).cls = .stopIteration → e.cls = .stopIteration)
    (hf' : ∀ e e', e.cls = .stopIteration → e'.cls = .stopIteration → (f e).cls = .stopIteration → (f e').cls = .stopIteration) :
    Fl K (M.rescue m (fun e => M.throw (f e))) (fun n => M.rescue (m' n) (fun e => M.throw (f e))) := by
  intro s hs
  have h := hm s hs
  simp only [M.catch_apply]
  cases h1 : m s with
  | ok a s1 => rw [h1] at h; exact ⟨h.1, Ok.rescue h.2⟩
  | err e s1 =>
    rw [h1] at h
    refine ⟨h.1, fun hc => ?_⟩
    obtain ⟨e', h4, h5⟩ := h.2 (hf e hc)
    exact ⟨f e', Er.rescue h4 (Er.throw _), hf' e e' (hf e hc) h5 hc⟩
  | div => trivial

theorem Fl.ite {c : Prop} [Decidable c] {a b : L α} {a' b' : Nat → R α} (h1 : c → Fl K a a') (h2 : ¬ c → Fl K b b') :
    Fl K (if c then a else b) (fun n => if c then a' n else b' n) := by
  by_cases h : c
  · simp only [if_pos h]; exact h1 h
  · simp only [if_neg h]; exact h2 h

/-- What does not call handlers. -/
theorem Fl.of_sim {R' : LState → Unit → Prop} {m : L α} {m' : R α} (h : Sim R' m m') (hK : ∀ s, K s ↔ R' s ()) : Fl K m (fun _ => m') := by
  intro s hs
  have := h s () ((hK s).1 hs)
  cases h1 : m s with
  | ok a s1 =>
    cases h2 : m' () with
    | ok b u => rw [h1, h2] at this; obtain ⟨rfl, h3⟩ := this; exact ⟨(hK _).2 h3, 0, fun _ _ => h2⟩
    | err e u => rw [h1, h2] at this; exact this.elim
    | div => rw [h1, h2] at this; exact this.elim
  | err e s1 =>
    cases h2 : m' () with
    | ok b u => rw [h1, h2] at this; exact this.elim
    | err e' u => rw [h1, h2] at this; obtain ⟨rfl, h3⟩ := this; exact ⟨(hK _).2 h3, fun hc => ⟨e, ⟨0, fun _ _ => h2⟩, hc⟩⟩
    | div => rw [h1, h2] at this; exact this.elim
  | div => trivial
end fl

variable {W : World} {C : Config} {Γ : Env} {G : Ty → Prop} {P : Val → Ty → Prop}

theorem Exc.isTL_not_stop {e : Exc} (h : e.isTL = true) : e.cls ≠ .stopIteration := by
  intro hc
  unfold Exc.isTL at h
  rw [hc] at h
  cases h

/-- Looking a handler up. -/
theorem Fl.resolveBind {α : Type} {t : Ty} {e : Exc} {f : Handler → L α} {f' : Nat → Handler → R α}
    (hf : ∀ h, Installed C h → pick W C t = .ok h → Fl (Knows W C Γ G) (f h) (fun n => f' n h)) :
    Fl (Knows W C Γ G) (TL.resolve W C t e >>= f) (fun n => Ref.resolve W C t e >>= f' n) := by
  intro s h
  simp only [M.bind_apply]
  rw [resolve_eq h.coh]
  cases hp : pick W C t with
  | ok hd =>
    have h2 := hf hd (pick_installed hp) hp _ (h.cacheIdx hp)
    dsimp only
    have hr : ∀ n, (Ref.resolve W C t e >>= f' n) = f' n hd := fun n => by unfold Ref.resolve; rw [hp]; rfl
    simp only [hr]
    exact h2
  | error c =>
    have hr : ∀ n, (Ref.resolve W C t e >>= f' n) = M.throw (lookupExc e c) := fun n => by unfold Ref.resolve; rw [hp]; rfl
    simp only [hr]
    exact ⟨h, fun hc => ⟨_, Er.throw _, hc⟩⟩

section handlers
variable {rec : Rec} (ht : Tame W C Γ G P)
  (hrec : ∀ h v t, Installed C h → P v t → Fl (Knows W C Γ G) (rec h v t) (fun n => Ref.run W C Γ n h v t))
include ht hrec

theorem loadExc_stop {v : Val} {t : Ty} {a : Option Annotation} (e : Exc) : (loadExc v t a e).cls ≠ .stopIteration := by
  unfold loadExc
  split
  · rename_i h
    have := Exc.isTL_not_stop h
    cases e; exact this
  · intro h; cases h

theorem Fl.loadWith (v : Val) (t : Ty) (a : Option Annotation) (hv : P v t) :
    Fl (Knows W C Γ G) (TL.loadWith W C rec v t a) (fun n => Ref.loadWith W C (Ref.run W C Γ n) v t a) := by
  intro s h
  rw [loadWith_eq h.coh]
  cases hp : pick W C t with
  | ok hd =>
    have h1 := hrec hd v t (pick_installed hp) hv _ (h.cacheReg ht (ht.type _ _ hv) hp)
    dsimp only
    cases h2 : rec hd v t (cacheReg W t hd s) with
    | ok r s1 =>
      rw [h2] at h1
      exact ⟨h1.1, Yields.loadWith ⟨hd, hp, h1.2⟩ a⟩
    | err e s1 =>
      rw [h2] at h1
      exact ⟨h1.1, fun hc => absurd hc (loadExc_stop ht hrec e)⟩
    | div => trivial
  | error c =>
    refine ⟨h, fun hc => ⟨_, ⟨0, fun n _ => ?_⟩, hc⟩⟩
    unfold Ref.loadWith Ref.resolve
    rw [hp]; rfl

theorem Fl.forwardrefload (v : Val) (t : Ty) (hv : P v t) :
    Fl (Knows W C Γ G) (TL.forwardrefload W C rec v t) (fun n => Ref.forwardrefload W C Γ (Ref.run W C Γ n) v t) := by
  cases t
  case fref n =>
    unfold TL.forwardrefload Ref.forwardrefload
    intro s h
    simp only [M.bind_apply, M.get_apply]
    cases hΓ : Γ with
    | none => rw [h.off hΓ]; rw [hΓ] at h; exact ⟨h, fun hc => ⟨_, Er.throw _, hc⟩⟩
    | some f =>
      obtain ⟨fr, h1, h2⟩ := h.names f hΓ
      rw [h1]; dsimp only
      rw [h2 n (ht.type _ _ hv)]
      cases hn : f n with
      | none => rw [hΓ] at h; exact ⟨h, fun hc => ⟨_, Er.throw _, hc⟩⟩
      | some t' => have := Fl.loadWith ht hrec v t' (some (.forwardref n)) (ht.fref v f n t' hΓ hv hn) s h; rw [hΓ] at this; exact this
  all_goals exact Fl.throw _

theorem Fl.newtypeload (v : Val) (t : Ty) (hv : P v t) :
    Fl (Knows W C Γ G) (TL.newtypeload W C rec v t) (fun n => Ref.newtypeload W C (Ref.run W C Γ n) v t) := by
  cases t
  case newtype n t => exact Fl.loadWith ht hrec _ _ _ (ht.newtype _ _ _ hv)
  all_goals exact Fl.throw _

theorem Fl.iterElem (h : Handler) (hin : Installed C h) (et : Ty) (x : Val) (hv : P x et) :
    Fl (Knows W C Γ G) (TL.iterElem C rec h et x) (fun n => Ref.iterElem C (Ref.run W C Γ n) h et x) := by
  have hr := hrec h x et hin hv
  cases et <;> unfold TL.iterElem Ref.iterElem <;> first | exact hr | skip
  all_goals exact Fl.ite (fun _ => Fl.ite (fun _ => Fl.pure _) (fun _ => hr)) (fun _ => hr)

theorem Fl.iterElems (h : Handler) (hin : Installed C h) (k : SeqKind) (et : Ty) (v : Val) (t : Ty) (xs : List Val) :
    ∀ i acc, (∀ x ∈ xs, P x et) →
      Fl (Knows W C Γ G) (TL.iterElems W C rec h k et v t xs i acc) (fun n => Ref.iterElems W C (Ref.run W C Γ n) h k et v t xs i acc) := by
  induction xs with
  | nil => intro i acc _; exact Fl.pure _
  | cons x xs ih =>
    intro i acc hx
    unfold TL.iterElems Ref.iterElems
    intro s hs
    have h1 := Fl.iterElem ht hrec h hin et x (hx _ (by simp)) s hs
    simp only [M.handle_apply]
    cases h2 : TL.iterElem C rec h et x s with
    | ok y s1 =>
      rw [h2] at h1
      dsimp only
      cases hc : collAdd W k acc y with
      | error c =>
        refine ⟨h1.1, fun hcs => ⟨_, Er.handle h1.2 ?_, hcs⟩⟩
        simp only [hc]; exact Er.throw _
      | ok acc' =>
        have h3 := ih (i + 1) acc' (fun y hy => hx y (by simp [hy])) s1 h1.1
        dsimp only
        cases h4 : TL.iterElems W C rec h k et v t xs (i + 1) acc' s1 with
        | ok r s2 =>
          rw [h4] at h3
          refine ⟨h3.1, Ok.handle h1.2 ?_⟩
          simp only [hc]; exact h3.2
        | err e s2 =>
          rw [h4] at h3
          refine ⟨h3.1, fun hcs => ?_⟩
          obtain ⟨e', h5, h6⟩ := h3.2 hcs
          refine ⟨e', Er.handle h1.2 ?_, h6⟩
          simp only [hc]; exact h5
        | div => trivial
    | err e s1 =>
      rw [h2] at h1
      dsimp only
      by_cases hc : (usesMap C et && e.cls == .stopIteration) = true
      · rw [if_pos hc]
        simp only [Bool.and_eq_true, beq_iff_eq] at hc
        obtain ⟨e', h3, h4⟩ := h1.2 hc.2
        refine ⟨h1.1, Ok.handle2 h3 ?_⟩
        simp only [hc.1, h4, beq_self_eq_true, Bool.and_self, if_true]
        exact Ok.pure _
      · rw [if_neg hc]
        refine ⟨h1.1, fun hcs => ?_⟩
        exfalso
        revert hcs
        unfold elemError
        split
        · rename_i htl; have := Exc.isTL_not_stop htl; cases e; exact this
        · split <;> intro h <;> cases h
    | div => trivial

theorem Fl.iterload (k : SeqKind) (v : Val) (t : Ty) (hv : P v t) :
    Fl (Knows W C Γ G) (TL.iterload W C rec k v t) (fun n => Ref.iterload W C (Ref.run W C Γ n) k v t) := by
  unfold TL.iterload Ref.iterload
  refine Fl.ite (fun _ => Fl.throw _) (fun hnd => ?_)
  cases t
  case coll k' et =>
    refine Fl.resolveBind (f' := fun n h => _) (fun h hin _ => ?_)
    cases hp : pyIter v with
    | none => exact Fl.throw _
    | some xs =>
      exact Fl.bind (f' := fun n ys => _) (Fl.iterElems ht hrec _ hin _ _ _ _ _ _ _ (ht.coll v xs _ _ hv (by simpa using hnd) hp)) (fun _ => Fl.pure _)
  all_goals exact Fl.throw _

theorem elemError_stop (v : Val) (t : Ty) (i : Nat) (e : Exc) : (elemError v t i e).cls ≠ .stopIteration := by
  unfold elemError
  split
  · rename_i htl; have := Exc.isTL_not_stop htl; cases e; exact this
  · split <;> intro h <;> cases h

theorem Fl.tupElems (v : Val) (t : Ty) (xs : List Val) :
    ∀ us i, (∀ x u, (x, u) ∈ xs.zip us → P x u) →
      Fl (Knows W C Γ G) (TL.tupElems W C rec v t xs us i) (fun n => Ref.tupElems W C (Ref.run W C Γ n) v t xs us i) := by
  induction xs with
  | nil => intro us i _; unfold TL.tupElems Ref.tupElems; exact Fl.pure _
  | cons x xs ih =>
    intro us i hx
    cases us with
    | nil => unfold TL.tupElems Ref.tupElems; exact Fl.pure _
    | cons u us =>
      unfold TL.tupElems Ref.tupElems
      refine Fl.bind (f' := fun n y => _) (Fl.rescue ?_ (fun e h => absurd h (elemError_stop ht hrec _ _ _ _)) (fun e e' _ _ h => absurd h (elemError_stop ht hrec _ _ _ _)))
        (fun _ => Fl.bind (f' := fun n ys => _) (ih _ _ (fun y w hy => hx y w (by simp [hy]))) (fun _ => Fl.pure _))
      intro s h
      have h0 : TL.tupHandler W C u s = match pick W C u with
          | .error c => .err (.plain c) s
          | .ok hd => .ok hd s := by
        unfold TL.tupHandler
        simp only [M.bind_apply, M.get_apply]
        cases hn : aget s.idx u with
        | some hd => rw [h.coh.idx u hd hn]; rfl
        | none => cases pick W C u <;> rfl
      simp only [M.bind_apply, h0]
      cases hp : pick W C u with
      | error c => exact ⟨h, fun hc => ⟨_, Er.throw _, hc⟩⟩
      | ok hd => exact Fl.ite (fun _ => Fl.pure _) (fun _ => hrec _ _ _ (pick_installed hp) (hx x u (by simp))) s h

theorem Fl.tupleload (v : Val) (t : Ty) (hv : P v t) :
    Fl (Knows W C Γ G) (TL.tupleload W C rec v t) (fun n => Ref.tupleload W C (Ref.run W C Γ n) v t) := by
  cases t
  case coll k t =>
    cases k
    case tuple => exact Fl.iterload ht hrec _ _ _ hv
    all_goals exact Fl.throw _
  case tuple ts =>
    unfold TL.tupleload Ref.tupleload
    refine Fl.ite (fun _ => Fl.throw _) (fun hnd => ?_)
    cases hp : pyIter v with
    | none => exact Fl.throw _
    | some xs =>
      refine Fl.ite (fun _ => Fl.throw _) (fun _ => Fl.ite (fun _ => Fl.throw _) (fun _ => ?_))
      exact Fl.bind (f' := fun n ys => _) (Fl.tupElems ht hrec _ _ _ _ _ (ht.tuple v xs _ hv (by simpa using hnd) hp)) (fun _ => Fl.pure _)
  all_goals exact Fl.throw _

theorem Fl.objFields (info : ObjInfo) (v : Val) (t : Ty) (kvs : List (Val × Val)) :
    ∀ acc, (∀ n x ft, (.str n, x) ∈ kvs → aget info.hints n = some ft → P x ft) →
      Fl (Knows W C Γ G) (TL.objFields W C rec info v t kvs acc) (fun n => Ref.objFields W C (Ref.run W C Γ n) info v t kvs acc) := by
  induction kvs with
  | nil => intro acc _; exact Fl.pure _
  | cons p kvs ih =>
    intro acc hx; obtain ⟨k, x⟩ := p; unfold TL.objFields Ref.objFields
    have hx' : ∀ n x ft, (.str n, x) ∈ kvs → aget info.hints n = some ft → P x ft := fun n y ft hy => hx n y ft (by simp [hy])
    cases k
    case str n =>
      refine Fl.ite (fun _ => ?_) (fun _ => ih _ hx')
      cases hh : aget info.hints n with
      | none => exact Fl.throw _
      | some ft =>
        refine Fl.resolveBind (f' := fun n h => _) (fun h hin _ => Fl.bind (f' := fun n y => _) ?_ (fun y => ih _ hx'))
        have hr := Fl.rescue (f := fun e => if e.isTL then e.push ⟨v, t, some (.field n)⟩ else e) (hrec _ _ _ hin (hx n x ft (by simp) hh))
          (fun e => by
            split
            · cases e; exact id
            · exact id)
          (fun e e' he he' h => by
            split
            · rename_i htl; exact absurd he' (Exc.isTL_not_stop htl)
            · exact he')
        have e1 : ∀ m : L Val, M.rescue m (fun e => if e.isTL then M.throw (e.push ⟨v, t, some (.field n)⟩) else M.throw e) =
            M.rescue m (fun e => M.throw (if e.isTL then e.push ⟨v, t, some (.field n)⟩ else e)) := fun m => by
          congr 1; funext e; split <;> rfl
        have e2 : ∀ m : R Val, M.rescue m (fun e => if e.isTL then M.throw (e.push ⟨v, t, some (.field n)⟩) else M.throw e) =
            M.rescue m (fun e => M.throw (if e.isTL then e.push ⟨v, t, some (.field n)⟩ else e)) := fun m => by
          congr 1; funext e; split <;> rfl
        rw [e1]
        simp only [e2]
        exact hr
    all_goals exact ih _ hx'

theorem Fl.objloader (info : ObjInfo) (v : Val) (c : Nat)
    (hv : ∀ v' kvs, objItems C v = some (v', kvs) → ∀ n x ft, (.str n, x) ∈ kvs → aget info.hints n = some ft → P x ft) :
    Fl (Knows W C Γ G) (TL.objloader W C rec info v c) (fun n => Ref.objloader W C (Ref.run W C Γ n) info v c) := by
  unfold TL.objloader Ref.objloader
  cases ho : objItems C v with
  | none => exact Fl.throw _
  | some q =>
    obtain ⟨v', kvs⟩ := q
    refine Fl.ite (fun _ => Fl.throw _) (fun _ => Fl.ite (fun _ => Fl.ite (fun _ => Fl.throw _) (fun _ => Fl.throw _)) (fun _ => ?_))
    refine Fl.bind (f' := fun n ps => _) (Fl.objFields ht hrec _ _ _ _ _ (hv v' kvs ho)) (fun ps => ?_)
    cases construct W c ps with
    | ok r => exact Fl.pure _
    | error e => exact Fl.ite (fun _ => Fl.throw _) (fun _ => Fl.ite (fun _ => Fl.throw _) (fun _ => Fl.throw _))

theorem Fl.objMangled (info : ObjInfo) (v : Val) (c : Nat) (hi : InfoFor W C c info) (hv : P v (.obj c)) :
    Fl (Knows W C Γ G) (mangleOrRaise C info.transforms v (.obj c) >>= fun v' => TL.objloader W C rec info v' c)
      (fun n => Ref.objMangled W C (Ref.run W C Γ n) info v c) := by
  unfold Ref.objMangled
  obtain ⟨x, hx, hok⟩ := mangleOrRaise_lift (C := C) ht info.transforms v (.obj c)
  rw [hx]
  intro s h
  cases x with
  | error e => exact ⟨h, fun hc => ⟨e, ⟨0, fun _ _ => rfl⟩, hc⟩⟩
  | ok v' =>
    refine Fl.objloader ht hrec info v' c ?_ s h
    intro v'' kvs ho n x ft hp hh
    rcases mangle_names_ok (hok v' rfl) with ⟨_, rfl⟩ | ⟨k1, k2, rfl, rfl, _, hl⟩
    · exact ht.objItems hv hi ho n x ft hp hh
    · cases ho
      obtain ⟨f, hf, rfl, hty⟩ := hi.hints n ft hh
      rcases mangleLoop_mem _ _ _ _ _ hl _ hp with h0 | ⟨k, hk, hk2⟩
      · cases h0
      · rcases hk2 with (rfl | he) | ⟨m, p, rfl, ha, he⟩
        · exact ht.field _ k1 c hv (Or.inl rfl) f hf _ x .name hk ft hty
        · have := (pyEq_str_left _ _).1 he
          subst this
          exact ht.field _ k1 c hv (Or.inl rfl) f hf _ x .name hk ft hty
        · have hp : p = f.name := by
            rcases he with he | he
            · cases he; rfl
            · have := (pyEq_str_left _ _).1 he; cases this; rfl
          subst hp
          rw [hi.transforms] at ha
          rcases transformsOf_mem _ (aget_mem ha) with h0 | ⟨g, hg, h1, h2⟩
          · cases h0
          · exact ht.field _ k1 c hv (Or.inl rfl) f hf m x (.renamed g hg h2 h1) hk ft hty

theorem Fl.namedtupleload (v : Val) (t : Ty) (hv : P v t) :
    Fl (Knows W C Γ G) (TL.namedtupleload W C rec v t) (fun n => Ref.namedtupleload W C (Ref.run W C Γ n) v t) := by
  cases t
  case obj c =>
    unfold TL.namedtupleload Ref.namedtupleload
    exact Fl.ite (fun hk => Fl.objloader ht hrec _ _ _ (fun _ _ ho => ht.objItems hv (infoFor_namedtuple hk) ho)) (fun _ => Fl.throw _)
  all_goals exact Fl.throw _

theorem Fl.dataclassload (v : Val) (t : Ty) (hv : P v t) :
    Fl (Knows W C Γ G) (TL.dataclassload W C rec v t) (fun n => Ref.dataclassload W C (Ref.run W C Γ n) v t) := by
  cases t
  case obj c =>
    unfold TL.dataclassload Ref.dataclassload
    refine Fl.ite (fun hk => ?_) (fun _ => Fl.throw _)
    intro s h
    have key : ∃ s', TL.dataclassCached W C c s = .ok (dataclassInfo C (W.cls c)) s' ∧ Knows W C Γ G s' := by
      unfold TL.dataclassCached
      simp only [M.bind_apply, M.get_apply]
      cases hn : aget s.objc c with
      | some i => rw [h.coh.objc c i hn]; exact ⟨s, rfl, h⟩
      | none => exact ⟨_, rfl, h.same (h.coh.ext (Ext.objc hn)) rfl⟩
    obtain ⟨s', h1, h2⟩ := key
    simp only [M.bind_apply, h1]
    exact Fl.objMangled ht hrec _ _ _ (infoFor_dataclass hk) hv s' h2
  all_goals exact Fl.throw _

theorem Fl.attrload (v : Val) (t : Ty) (hv : P v t) :
    Fl (Knows W C Γ G) (TL.attrload W C rec v t) (fun n => Ref.attrload W C (Ref.run W C Γ n) v t) := by
  cases t
  case obj c =>
    unfold TL.attrload Ref.attrload
    refine Fl.ite (fun hk => ?_) (fun _ => Fl.throw _)
    cases hh : attrHints (W.cls c).fields with
    | error e => exact Fl.throw _
    | ok hints => exact Fl.objMangled ht hrec _ _ _ (infoFor_attrs hk hh) hv
  all_goals exact Fl.throw _

theorem Fl.typeddictload (v : Val) (t : Ty) (hv : P v t) :
    Fl (Knows W C Γ G) (TL.typeddictload W C rec v t) (fun n => Ref.typeddictload W C (Ref.run W C Γ n) v t) := by
  cases t
  case obj c =>
    unfold TL.typeddictload Ref.typeddictload
    refine Fl.ite (fun hk => ?_) (fun _ => Fl.throw _)
    intro s h
    simp only [M.bind_apply, M.get_apply, M.modify_apply]
    rw [typeddictInfo_rew ht.notRequired c _ false]
    refine Fl.objloader ht hrec _ _ _ (fun _ _ ho => ht.objItems hv (infoFor_typeddict hk false) ho) _ ?_
    unfold rewriteAnnotations
    split
    · exact h.same (h.coh.ext Ext.rew) rfl
    · exact h
  all_goals exact Fl.throw _

/-! ## Dictionaries -/

/-- A first attempt, whose exceptions are discarded. -/
def FLoose {α : Type} (K : LState → Prop) (m : L α) (m' : Nat → R α) : Prop := ∀ s, K s → match m s with
  | .ok a s' => K s' ∧ Ok m' a
  | .err _ s' => K s'
  | .div => True

omit ht hrec in
theorem FLoose.bind {α β : Type} {K : LState → Prop} {m : L α} {m' : Nat → R α} {f : α → L β} {f' : Nat → α → R β} (hm : FLoose K m m')
    (hf : ∀ a, FLoose K (f a) (fun n => f' n a)) : FLoose K (m >>= f) (fun n => m' n >>= f' n) := by
  intro s hs
  have h := hm s hs
  simp only [M.bind_apply]
  cases h1 : m s with
  | ok a s1 =>
    rw [h1] at h
    have h2 := hf a s1 h.1
    dsimp only
    cases h3 : f a s1 with
    | ok b s2 => rw [h3] at h2; exact ⟨h2.1, Ok.bind h.2 h2.2⟩
    | err e s2 => rw [h3] at h2; exact h2
    | div => trivial
  | err e s1 => rw [h1] at h; exact h
  | div => trivial

omit ht hrec in
theorem FLoose.pure {α : Type} {K : LState → Prop} (a : α) : FLoose K (Pure.pure a : L α) (fun _ => Pure.pure a) := fun _ h => ⟨h, Ok.pure a⟩
omit ht hrec in
theorem FLoose.throw {α : Type} {K : LState → Prop} (e : Exc) (m : Nat → R α) : FLoose K (M.throw e : L α) m := fun _ h => h

theorem floose_part {t : Ty} {h : Handler} (hp : pick W C t = .ok h) {x : Val} (hx : P x t) (a : Annotation) :
    FLoose (Knows W C Γ G) (if (C.isBasic t && isInstTy t x) = true then Pure.pure x else rec h x t) (fun n => Ref.part W C (Ref.run W C Γ n) x t a) := by
  unfold Ref.part
  rcases pass_or (C := C) (t := t) (x := x) with ⟨hb, _⟩ | ⟨hb, _⟩
  · rw [if_pos hb]; simp only [hb, if_true]; exact FLoose.pure _
  · rw [hb]
    intro s hs
    have := hrec h x t (pick_installed hp) hx s hs
    simp only [Bool.false_eq_true, if_false]
    cases h1 : rec h x t s with
    | ok r s1 => rw [h1] at this; exact ⟨this.1, Yields.loadWith ⟨h, hp, this.2⟩ _⟩
    | err e s1 => rw [h1] at this; exact this.1
    | div => trivial

theorem floose_fast {kt vt : Ty} {hk : Handler} {valF : Option Handler} (hpk : pick W C kt = .ok hk)
    (hpv : ∀ hv, valF = some hv → pick W C vt = .ok hv) (kvs : List (Val × Val)) : ∀ acc, (∀ p ∈ kvs, P p.1 kt ∧ P p.2 vt) →
    FLoose (Knows W C Γ G) (dictFast W C rec kt vt hk valF kvs acc) (fun n => Ref.pairs W C (Ref.run W C Γ n) kt vt kvs acc) := by
  induction kvs with
  | nil => intro acc _; exact FLoose.pure _
  | cons p kvs ih =>
    obtain ⟨k, x⟩ := p
    intro acc hx
    have hx1 := hx (k, x) (by simp)
    rw [dictFast_cons]
    unfold Ref.pairs
    refine FLoose.bind (f' := fun n k' => _) (floose_part ht hrec hpk hx1.1 _) (fun k' => FLoose.bind (f' := fun n x' => _) ?_ (fun x' => ?_))
    · cases valF with
      | some hv => exact floose_part ht hrec (hpv hv rfl) hx1.2 _
      | none =>
        rcases pass_or (C := C) (t := vt) (x := x) with ⟨hb, _⟩ | ⟨hb, _⟩
        · unfold Ref.part; rw [if_pos hb]; simp only [hb, if_true]; exact FLoose.pure _
        · rw [hb]; exact FLoose.throw _ _

    · split
      · exact ih _ (fun q hq => hx q (by simp [hq]))
      · exact FLoose.throw _ _

theorem floose_cold {kt vt : Ty} {hv : Handler} (hin : Installed C hv) (hb : C.isBasic vt = false) (kvs acc : List (Val × Val))
    (hx : ∀ p ∈ kvs, P p.1 kt ∧ P p.2 vt) :
    FLoose (Knows W C Γ G) (dictFast W C rec kt vt hv none kvs acc) (fun n => Ref.pairs W C (Ref.run W C Γ n) kt vt kvs acc) := by
  cases kvs with
  | nil => exact FLoose.pure _
  | cons p kvs =>
    obtain ⟨k, x⟩ := p
    have hx1 := hx (k, x) (by simp)
    rw [dictFast_cons]
    intro s hs
    simp only [M.bind_apply, hb, Bool.false_and, Bool.false_eq_true, if_false, M.throw_apply]
    have h1 : match (if (C.isBasic kt && isInstTy kt k) = true then Pure.pure k else rec hv k kt : L Val) s with
        | .ok _ s' => Knows W C Γ G s'
        | .err _ s' => Knows W C Γ G s'
        | .div => True := by
      by_cases hbk : (C.isBasic kt && isInstTy kt k) = true
      · rw [if_pos hbk]; exact hs
      · rw [if_neg hbk]
        have := hrec hv k kt hin hx1.1 s hs
        cases h2 : rec hv k kt s with
        | ok r s1 => rw [h2] at this; exact this.1
        | err e s1 => rw [h2] at this; exact this.1
        | div => trivial
    cases h2 : (if (C.isBasic kt && isInstTy kt k) = true then Pure.pure k else rec hv k kt : L Val) s with
    | ok r s1 => rw [h2] at h1; exact h1
    | err e s1 => rw [h2] at h1; exact h1
    | div => trivial

theorem fl_slow (hd : C.Default) {kt vt : Ty} {hk hv : Handler} (hpk : pick W C kt = .ok hk) (hpv : pick W C vt = .ok hv) (kvs : List (Val × Val)) :
    ∀ acc, (∀ p ∈ kvs, P p.1 kt ∧ P p.2 vt) →
    (∀ p ∈ kvs, (BasicInstance C kt p.1 → typeOf p.1 = kt) ∧ (BasicInstance C vt p.2 → typeOf p.2 = vt)) →
    Fl (Knows W C Γ G) (dictSlow W C rec kt vt kvs acc) (fun n => Ref.pairs W C (Ref.run W C Γ n) kt vt kvs acc) := by
  have part : ∀ {t : Ty} {h : Handler} {x : Val} {a : Annotation}, pick W C t = .ok h → P x t → (BasicInstance C t x → typeOf x = t) →
      Fl (Knows W C Γ G) (loadWith W C rec x t (some a)) (fun n => Ref.part W C (Ref.run W C Γ n) x t a) := by
    intro t h x a hp hx hb s hs
    have h1 := Fl.loadWith ht hrec x t (some a) hx s hs
    unfold Ref.part
    rcases pass_or (C := C) (t := t) (x := x) with ⟨hbk, hbi⟩ | ⟨hbk, _⟩
    · simp only [hbk, if_true]
      have hy : Ok (fun n => Ref.loadWith W C (Ref.run W C Γ n) x t (some a)) x := by
        obtain ⟨p, rfl, h2, _⟩ := id hbi
        exact Yields.loadWith (Yields.basic hd (Or.inl (by simpa [Config.isBasic] using h2)) (hb hbi)) _
      cases h2 : loadWith W C rec x t (some a) s with
      | ok r s1 =>
        rw [h2] at h1
        have := Ok.unique h1.2 hy
        subst this
        exact ⟨h1.1, Ok.pure _⟩
      | err e s1 =>
        rw [h2] at h1
        refine ⟨h1.1, fun hc => ?_⟩
        obtain ⟨e', h3, _⟩ := h1.2 hc
        exact (Ok.not_er hy h3).elim
      | div => trivial
    · simp only [hbk, Bool.false_eq_true, if_false]; exact h1
  induction kvs with
  | nil => intro acc _ _; exact Fl.pure _
  | cons p kvs ih =>
    obtain ⟨k, x⟩ := p
    intro acc hx hex
    have hx1 := hx (k, x) (by simp)
    unfold Ref.pairs
    rw [dictSlow]
    refine Fl.bind (f' := fun n k' => _) (part hpk hx1.1 (hex (k, x) (by simp)).1) (fun k' =>
      Fl.bind (f' := fun n x' => _) (part hpv hx1.2 (hex (k, x) (by simp)).2) (fun x' => ?_))
    exact Fl.ite (fun _ => ih _ (fun q hq => hx q (by simp [hq])) (fun q hq => hex q (by simp [hq]))) (fun _ => Fl.throw _)

theorem Fl.dictload (hd : C.Default) (v : Val) (t : Ty) (hv : P v t) :
    Fl (Knows W C Γ G) (TL.dictload W C rec v t) (fun n => Ref.dictload W C (Ref.run W C Γ n) v t) := by
  cases t
  case dict kt vt =>
    have hg := ht.type _ _ hv
    unfold TL.dictload Ref.dictload
    refine Fl.resolveBind (f' := fun n _ => _) (fun hk _ hpk => ?_)
    intro s hs1
    simp only [M.bind_apply, dictValueHandler_eq hs1.coh]
    cases hpv : pick W C vt with
    | error c =>
      have hr : ∀ n, (Ref.resolve W C vt (mkExc .tlValue (.noHandlerIn vt (.dict kt vt)) v vt) : R Handler) n =
          .err (lookupExc (mkExc .tlValue (.noHandlerIn vt (.dict kt vt)) v vt) c) () := fun n => by unfold Ref.resolve; rw [hpv]; rfl
      exact ⟨hs1, fun hc => ⟨_, ⟨0, fun _ _ => by simp only [M.bind_apply, hr]⟩, hc⟩⟩
    | ok hvh =>
      have hs2 := hs1.cacheIdx hpv
      have hr : ∀ f : Handler → R Val, (Ref.resolve W C vt (mkExc .tlValue (.noHandlerIn vt (.dict kt vt)) v vt) >>= f) = f hvh := fun f => by
        unfold Ref.resolve; rw [hpv]; rfl
      simp only [hr]
      revert hs2
      generalize TL.cacheIdx vt hvh s = s2
      intro hs2
      cases hit : items (dictequivalence C v) with
      | none => exact ⟨hs2, fun hc => by cases hc⟩
      | some kvs =>
        have hdd := (items_dictequivalence v kvs).1 hit
        have hx := ht.dict v kvs _ _ hv hdd
        have hex := ht.dictExact v _ _ kvs hv hdd
        have main : ∀ keyF valF, (keyF = hk ∧ valF = some hvh ∨ keyF = hvh ∧ valF = none) →
            FRes (Knows W C Γ G)
              (M.rescue (dictFast W C rec kt vt keyF valF kvs [] >>= fun r => (Pure.pure (.dict r) : L Val))
                (fun _ => M.rescue (dictSlow W C rec kt vt kvs [] >>= fun r => (Pure.pure (.dict r) : L Val))
                  (fun e => if e.cls.isAttr then M.throw (mkExc .tlAttr .wrapped (dictequivalence C v) (.dict kt vt)) else M.throw e)) s2)
              (fun n => M.rescue (Ref.pairs W C (Ref.run W C Γ n) kt vt kvs [] >>= fun r => (Pure.pure (.dict r) : R Val))
                (fun e => if e.cls.isAttr then M.throw (mkExc .tlAttr .wrapped (dictequivalence C v) (.dict kt vt)) else M.throw e)) := by
          intro keyF valF hcase
          have hloose : FLoose (Knows W C Γ G) (dictFast W C rec kt vt keyF valF kvs []) (fun n => Ref.pairs W C (Ref.run W C Γ n) kt vt kvs []) := by
            rcases hcase with ⟨rfl, rfl⟩ | ⟨rfl, rfl⟩
            · exact floose_fast ht hrec hpk (fun _ h => by cases h; exact hpv) kvs [] hx
            · rcases ht.dictSafe _ _ hg with hb | hkv | ⟨h1, h2, h3, h4⟩
              · exact floose_cold ht hrec (pick_installed hpv) hb kvs [] hx
              · subst hkv; rw [hpk] at hpv; cases hpv
                exact floose_fast ht hrec hpk (fun _ h => by cases h) kvs [] hx
              · have e1 : hk = .basicload := by
                  have := picked hd hpk
                  cases this <;> simp [Config.isBasic] at h1 h3 <;> rfl
                have e2 : keyF = .basicload := by
                  have := picked hd hpv
                  cases this <;> simp [Config.isBasic] at h2 h4 <;> rfl
                subst e1 e2
                exact floose_fast ht hrec hpk (fun _ h => by cases h) kvs [] hx
          have hl := hloose s2 hs2
          have hslow := fl_slow ht hrec hd hpk hpv kvs [] hx hex
          simp only [M.catch_apply, M.bind_apply]
          cases hf : dictFast W C rec kt vt keyF valF kvs [] s2 with
          | ok r s3 => rw [hf] at hl; exact ⟨hl.1, Ok.rescue (Ok.bind (f := fun _ r => Pure.pure (Val.dict r)) hl.2 (Ok.pure _))⟩
          | div => trivial
          | err e s3 =>
            rw [hf] at hl
            have h3 := Fl.rescue (f := fun e => if e.cls.isAttr then mkExc .tlAttr .wrapped (dictequivalence C v) (.dict kt vt) else e)
              (Fl.bind (f' := fun _ r => Pure.pure (Val.dict r)) hslow (fun r => Fl.pure (Val.dict r)))
              (fun e => by split <;> first | exact id | (intro h; cases h))
              (fun e e' he he' h => by rw [he']; exact he') s3 hl
            have e1 : ∀ m : L Val, M.rescue m (fun e => if e.cls.isAttr then M.throw (mkExc .tlAttr .wrapped (dictequivalence C v) (.dict kt vt)) else M.throw e) =
                M.rescue m (fun e => M.throw (if e.cls.isAttr then mkExc .tlAttr .wrapped (dictequivalence C v) (.dict kt vt) else e)) := fun m => by
              congr 1; funext e; split <;> rfl
            have e2 : ∀ m : R Val, M.rescue m (fun e => if e.cls.isAttr then M.throw (mkExc .tlAttr .wrapped (dictequivalence C v) (.dict kt vt)) else M.throw e) =
                M.rescue m (fun e => M.throw (if e.cls.isAttr then mkExc .tlAttr .wrapped (dictequivalence C v) (.dict kt vt) else e)) := fun m => by
              congr 1; funext e; split <;> rfl
            simp only [e2]
            have := e1 (dictSlow W C rec kt vt kvs [] >>= fun r => (Pure.pure (.dict r) : L Val))
            have h4 := congrFun this s3
            simp only [M.catch_apply, M.bind_apply] at h4 h3 ⊢
            rw [h4]
            exact h3
        cases (aget s.idx vt).isSome with
        | false => exact main _ _ (Or.inr ⟨rfl, rfl⟩)
        | true => exact main _ _ (Or.inl ⟨rfl, rfl⟩)
  all_goals exact Fl.throw _

/-! ### Unions and Enums -/

/-- Trying a member of a union. -/
def attempt (W : World) (C : Config) (Γ : Env) (v : Val) (t u : Ty) (n : Nat) : R Val :=
  Ref.resolve W C u (mkExc .tlValue (.noHandlerIn u t) v u) >>= fun h => Ref.run W C Γ n h v u

/-- The member refuses the value. -/
def Spurns (W : World) (C : Config) (Γ : Env) (v : Val) (t u : Ty) : Prop := ∃ e, Er (attempt W C Γ v t u) e ∧ e.isTL = true

/-- What a faulty loop over the members of a union returns. -/
theorem fl_unionTry (v : Val) (t : Ty) (us : List Ty) : ∀ c r es s, (∀ u ∈ us, P v u) → Knows W C Γ G s →
    match TL.unionTry W C rec v t us c r es s with
    | .ok (c', r', _) s' => Knows W C Γ G s' ∧ (c' = c ∧ r' = r ∨
        ∃ pre u post r1, us = pre ++ u :: post ∧ Ok (attempt W C Γ v t u) r1 ∧ c + 1 ≤ c' ∧ (c' = c + 1 → r' = r1))
    | .err e s' => Knows W C Γ G s' ∧ (e.cls = .stopIteration →
        ∃ pre u post e', us = pre ++ u :: post ∧ Er (attempt W C Γ v t u) e' ∧ e'.cls = .stopIteration)
    | .div => True := by
  induction us with
  | nil => intro c r es s _ hs; exact ⟨hs, Or.inl ⟨rfl, rfl⟩⟩
  | cons u us ih =>
    intro c r es s hg hs
    have hg' : ∀ u ∈ us, P v u := fun y hy => hg y (by simp [hy])
    have ha : Fl (Knows W C Γ G) (TL.resolve W C u (mkExc .tlValue (.noHandlerIn u t) v u) >>= fun h => rec h v u) (attempt W C Γ v t u) :=
      Fl.resolveBind (f' := fun n h => _) (fun h hin _ => hrec h v u hin (hg u (by simp)))
    have h0 := ha s hs
    unfold TL.unionTry
    rw [M.handle_apply]
    cases h1 : (TL.resolve W C u (mkExc .tlValue (.noHandlerIn u t) v u) >>= fun h => rec h v u) s with
    | div => trivial
    | ok x s1 =>
      rw [h1] at h0
      dsimp only
      by_cases hu : C.uniondebugconflict = true
      · rw [if_pos hu]
        have h2 := ih (c + 1) x es s1 hg' h0.1
        cases h3 : TL.unionTry W C rec v t us (c + 1) x es s1 with
        | div => trivial
        | ok q s2 =>
          obtain ⟨c', r', es'⟩ := q
          rw [h3] at h2
          refine ⟨h2.1, Or.inr ?_⟩
          rcases h2.2 with ⟨h4, h5⟩ | ⟨pre, w, post, r1, h4, h5, h6, h7⟩
          · exact ⟨[], u, us, x, rfl, h0.2, by omega, fun _ => h5⟩
          · exact ⟨[], u, us, x, rfl, h0.2, by omega, fun h => by omega⟩
        | err e s2 =>
          rw [h3] at h2
          refine ⟨h2.1, fun hc => ?_⟩
          obtain ⟨pre, w, post, e', h4, h5⟩ := h2.2 hc
          exact ⟨u :: pre, w, post, e', by rw [h4]; rfl, h5⟩
      · rw [if_neg hu]
        exact ⟨h0.1, Or.inr ⟨[], u, us, x, rfl, h0.2, Nat.le_refl _, fun _ => rfl⟩⟩
    | err e s1 =>
      rw [h1] at h0
      dsimp only
      by_cases he : e.isTL = true
      · rw [if_pos he]
        have h2 := ih c r (es ++ [e.push ⟨v, t, some (.union u)⟩]) s1 hg' h0.1
        cases h3 : TL.unionTry W C rec v t us c r (es ++ [e.push ⟨v, t, some (.union u)⟩]) s1 with
        | div => trivial
        | ok q s2 =>
          obtain ⟨c', r', es'⟩ := q
          rw [h3] at h2
          refine ⟨h2.1, ?_⟩
          rcases h2.2 with h4 | ⟨pre, w, post, r1, h4, h5⟩
          · exact Or.inl h4
          · exact Or.inr ⟨u :: pre, w, post, r1, by rw [h4]; rfl, h5⟩
        | err e2 s2 =>
          rw [h3] at h2
          refine ⟨h2.1, fun hc => ?_⟩
          obtain ⟨pre, w, post, e', h4, h5⟩ := h2.2 hc
          exact ⟨u :: pre, w, post, e', by rw [h4]; rfl, h5⟩
      · rw [if_neg he]
        refine ⟨h0.1, fun hc => ?_⟩
        obtain ⟨e', h4, h5⟩ := h0.2 hc
        exact ⟨[], u, us, e', rfl, h4, h5⟩

omit ht hrec in
/-- When all members refuse. -/
theorem Spurns.all {v : Val} {t : Ty} (us : List Ty) : ∀ c r es, (∀ u ∈ us, Spurns W C Γ v t u) →
    ∃ es', Ok (fun n => Ref.unionTry W C (Ref.run W C Γ n) v t us c r es) (c, r, es') := by
  induction us with
  | nil => intro c r es _; exact ⟨es, Ok.pure _⟩
  | cons u us ih =>
    intro c r es h
    obtain ⟨e, he, htl⟩ := h u (by simp)
    obtain ⟨es', h2⟩ := ih c r (es ++ [e.push ⟨v, t, some (.union u)⟩]) (fun w hw => h w (by simp [hw]))
    refine ⟨es', ?_⟩
    simp only [Ref.unionTry]
    refine Ok.handle2 he ?_
    simp only [htl, if_true]
    exact h2

omit ht hrec in
/-- When all members but one refuse. -/
theorem Spurns.one {v : Val} {t u : Ty} {r1 : Val} (pre post : List Ty) (hu : Ok (attempt W C Γ v t u) r1) (h2 : ∀ w ∈ post, Spurns W C Γ v t w) :
    ∀ r es, (∀ w ∈ pre, Spurns W C Γ v t w) →
    ∃ es', Ok (fun n => Ref.unionTry W C (Ref.run W C Γ n) v t (pre ++ u :: post) 0 r es) (1, r1, es') := by
  induction pre with
  | nil =>
    intro r es _
    obtain ⟨es', h3⟩ := Spurns.all post 1 r1 es h2
    by_cases hc : C.uniondebugconflict = true
    · refine ⟨es', ?_⟩
      simp only [List.nil_append, Ref.unionTry, hc, if_true]
      exact Ok.handle hu h3
    · refine ⟨es, ?_⟩
      simp only [List.nil_append, Ref.unionTry, hc]
      exact Ok.handle hu (Ok.pure _)
  | cons w pre ih =>
    intro r es h
    obtain ⟨e, he, htl⟩ := h w (by simp)
    obtain ⟨es', h3⟩ := ih r (es ++ [e.push ⟨v, t, some (.union w)⟩]) (fun x hx => h x (by simp [hx]))
    refine ⟨es', ?_⟩
    simp only [List.cons_append, Ref.unionTry]
    refine Ok.handle2 he ?_
    simp only [htl, if_true]
    exact h3

omit ht hrec in
/-- When a member fails, and all others refuse. -/
theorem Spurns.fails {v : Val} {t u : Ty} {e1 : Exc} (pre post : List Ty) (hu : Er (attempt W C Γ v t u) e1) (hn : e1.isTL = false) :
    ∀ r es, (∀ w ∈ pre, Spurns W C Γ v t w) →
    Er (fun n => Ref.unionTry W C (Ref.run W C Γ n) v t (pre ++ u :: post) 0 r es) e1 := by
  induction pre with
  | nil =>
    intro r es _
    simp only [List.nil_append, Ref.unionTry]
    refine Er.handle2 hu ?_
    simp only [hn, Bool.false_eq_true, if_false]
    exact Er.throw _
  | cons w pre ih =>
    intro r es h
    obtain ⟨e, he, htl⟩ := h w (by simp)
    simp only [List.cons_append, Ref.unionTry]
    refine Er.handle2 he ?_
    simp only [htl, if_true]
    exact ih r _ (fun x hx => h x (by simp [hx]))

/-- One of any two members refuses the value. -/
def Apart (W : World) (C : Config) (Γ : Env) (v : Val) (ts : List Ty) : Prop :=
  ts.Pairwise (fun a b => Spurns W C Γ v (.union ts) a ∨ Spurns W C Γ v (.union ts) b)

omit ht hrec in
theorem spurns_rest {v : Val} {t u : Ty} {pre post : List Ty}
    (h : (pre ++ u :: post).Pairwise (fun a b => Spurns W C Γ v t a ∨ Spurns W C Γ v t b)) (hu : ¬ Spurns W C Γ v t u) :
    (∀ w ∈ pre, Spurns W C Γ v t w) ∧ ∀ w ∈ post, Spurns W C Γ v t w := by
  rw [List.pairwise_append] at h
  obtain ⟨_, h1, h2⟩ := h
  rw [List.pairwise_cons] at h1
  exact ⟨fun w hw => (h2 w hw u (by simp)).resolve_right hu, fun w hw => (h1.1 w hw).resolve_left hu⟩

theorem Fl.unionload (v : Val) (t : Ty) (hv : P v t)
    (hap : ∀ ts, t = .union ts → ¬ (C.isBasic (typeOf v) && ts.contains (typeOf v)) = true → Apart W C Γ v ts) :
    Fl (Knows W C Γ G) (TL.unionload W C rec v t) (fun n => Ref.unionload W C (Ref.run W C Γ n) v t) := by
  cases t
  case union ts =>
    unfold TL.unionload Ref.unionload
    refine Fl.ite (fun _ => Fl.pure _) (fun hsc => ?_)
    have hap := hap ts rfl hsc
    intro s h
    have h1 := KR.unionOrder (C := C) (Γ := Γ) (G := G) ht.steadyTags v ts s () h
    have h2 := post_unionOrder (v := v) (ts := ts) h.coh
    simp only [M.bind_apply]
    cases hl : TL.unionOrder W C v ts s with
    | div => trivial
    | err e s' =>
      rw [hl] at h1
      cases hr : Ref.unionOrder W C v ts () with
      | ok b u => rw [hr] at h1; exact h1.elim
      | div => rw [hr] at h1; exact h1.elim
      | err e' u =>
        rw [hr] at h1; obtain ⟨rfl, h3⟩ := h1
        exact ⟨h3, fun hc => ⟨e, ⟨0, fun _ _ => by simp only [M.bind_apply, hr]⟩, hc⟩⟩
    | ok order s' =>
      rw [hl] at h1
      unfold Post at h2
      rw [hl] at h2
      cases hr : Ref.unionOrder W C v ts () with
      | div => rw [hr] at h1; exact h1.elim
      | err e s'' => rw [hr] at h1; exact h1.elim
      | ok order' u' =>
        rw [hr] at h1
        obtain ⟨rfl, h3⟩ := h1
        have hor : Ok (fun _ => Ref.unionOrder W C v ts) order := ⟨0, fun _ _ => hr⟩
        have hpw : order.Pairwise (fun a b => Spurns W C Γ v (.union ts) a ∨ Spurns W C Γ v (.union ts) b) :=
          h2.2.perm.symm.pairwise hap (fun h => h.symm)
        have h4 := fl_unionTry ht hrec v (.union ts) order 0 .none [] s' (fun w hw => ht.union v ts hv w (h2.2.perm.mem_iff.1 hw)) h3
        dsimp only
        cases h5 : TL.unionTry W C rec v (.union ts) order 0 .none [] s' with
        | div => trivial
        | err e s2 =>
          rw [h5] at h4
          refine ⟨h4.1, fun hc => ?_⟩
          obtain ⟨pre, u, post, e', rfl, h6, h7⟩ := h4.2 hc
          have hn : e'.isTL = false := by
            cases h8 : e'.isTL with
            | false => rfl
            | true => exact absurd h7 (Exc.isTL_not_stop h8)
          have hns : ¬ Spurns W C Γ v (.union ts) u := by
            rintro ⟨e2, h8, h9⟩
            obtain ⟨N, h6⟩ := h6
            obtain ⟨N', h8⟩ := h8
            have := (h6 (max N N') (by omega)).symm.trans (h8 (max N N') (by omega))
            cases this
            rw [hn] at h9; cases h9
          exact ⟨e', Er.bind2 hor (Er.bind1 (Spurns.fails pre post h6 hn .none [] (spurns_rest hpw hns).1)), h7⟩
        | ok q s2 =>
          obtain ⟨c', r', es'⟩ := q
          rw [h5] at h4
          obtain ⟨h4, h6⟩ := h4
          dsimp only
          rcases h6 with ⟨rfl, rfl⟩ | ⟨pre, u, post, r1, rfl, h7, h8, h9⟩
          · exact ⟨h4, fun hc => by cases hc⟩
          · by_cases hc1 : c' = 1
            · subst hc1
              have := h9 rfl
              subst this
              have hns : ¬ Spurns W C Γ v (.union ts) u := fun ⟨e2, h10, _⟩ => Ok.not_er h7 h10
              obtain ⟨es2, h10⟩ := Spurns.one pre post h7 (spurns_rest hpw hns).2 .none [] (spurns_rest hpw hns).1
              refine ⟨h4, Ok.bind hor (Ok.bind h10 ?_)⟩
              simp only [if_true]
              exact Ok.pure _
            · rw [if_neg hc1, if_neg (by omega)]
              exact ⟨h4, fun hc => by cases hc⟩
  all_goals exact Fl.throw _

theorem Fl.enumload (v : Val) (t : Ty) (hv : P v t) (hone : ∀ e, t = .enum e → enumCall W e v = none → (W.enm e).hints.length ≤ 1) :
    Fl (Knows W C Γ G) (TL.enumload W C rec v t) (fun n => Ref.enumload W C (Ref.run W C Γ n) v t) := by
  cases t
  case enum e =>
    have hone := hone e rfl
    have hp := ht.enum _ _ hv
    unfold TL.enumload Ref.enumload
    dsimp only
    cases hc : enumCall W e v with
    | some m => exact Fl.pure _
    | none =>
      have h1 := hone hc
      dsimp only
      revert h1 hp
      cases (W.enm e).hints with
      | nil => intro _ _; exact Fl.throw _
      | cons u us =>
        cases us with
        | cons w us => intro _ h; simp at h
        | nil =>
          intro hp _
          refine Fl.rescue (f := fun ex => mkExcSubs .tlValue (.enumNone (.enum e)) v (.enum e) ([] ++ [ex]))
            (Fl.bind (f' := fun n x => _) (Fl.loadWith ht hrec v u _ (hp u (by simp))) (fun x => ?_)) (fun _ h => by cases h) (fun _ _ _ _ h => by cases h)
          cases enumCall W e x with
          | some m => exact Fl.pure _
          | none => exact Fl.throw _
  all_goals exact Fl.throw _

/-- The unions and the Enums that are met leave no choice. -/
structure Decided (W : World) (C : Config) (Γ : Env) (P : Val → Ty → Prop) : Prop where
  union : ∀ v ts, P v (.union ts) → ¬ (C.isBasic (typeOf v) && ts.contains (typeOf v)) = true → Apart W C Γ v ts
  enum : ∀ v e, P v (.enum e) → enumCall W e v = none → (W.enm e).hints.length ≤ 1

theorem Fl.step (hd : C.Default) (hdec : Decided W C Γ P) (h : Handler) (hin : Installed C h) (v : Val) (t : Ty) (hv : P v t) :
    Fl (Knows W C Γ G) (TL.step W C rec h v t) (fun n => Ref.step W C Γ (Ref.run W C Γ n) h v t) := by
  have leaf : ∀ {h : Handler}, h.isLeaf = true → Fl (Knows W C Γ G) (TL.step W C rec h v t) (fun _ => ofL (TL.step W C rec h v t)) := by
    intro h hl
    obtain ⟨o, ho⟩ := leaf_lift (W := W) (C := C) hl v t
    exact Fl.of_sim (KR.ofL o (ho rec)) (fun _ => Iff.rfl)
  cases h
  case unionload => exact Fl.unionload ht hrec v t hv (fun ts e => by subst e; exact hdec.union v ts hv)
  case enumload => exact Fl.enumload ht hrec v t hv (fun ts e => by subst e; exact hdec.enum v ts hv)
  case tupleload => exact Fl.tupleload ht hrec v t hv
  case listload => exact Fl.iterload ht hrec _ v t hv
  case setload => exact Fl.iterload ht hrec _ v t hv
  case frozensetload => exact Fl.iterload ht hrec _ v t hv
  case dictload => exact Fl.dictload ht hrec hd v t hv
  case namedtupleload => exact Fl.namedtupleload ht hrec v t hv
  case dataclassload => exact Fl.dataclassload ht hrec v t hv
  case attrload => exact Fl.attrload ht hrec v t hv
  case typeddictload => exact Fl.typeddictload ht hrec v t hv
  case forwardrefload => exact Fl.forwardrefload ht hrec v t hv
  case newtypeload => exact Fl.newtypeload ht hrec v t hv
  case custom i => exact absurd hin (not_installed hd i)
  case noneload => exact leaf (h := .noneload) rfl
  case basicload => exact leaf (h := .basicload) rfl
  case literalload => exact leaf (h := .literalload) rfl
  case datetimeload => exact leaf (h := .datetimeload) rfl
  case patternload => exact leaf (h := .patternload) rfl
  case timedeltaload => exact leaf (h := .timedeltaload) rfl
  case strconstructload => exact leaf (h := .strconstructload) rfl
  case anyload => exact leaf (h := .anyload) rfl
end handlers

/-- No call that fails raises StopIteration. -/
def Faults.Alien (F : Faults) : Prop := ∀ n h v t s, F n h v t s ≠ some .stopIteration

theorem Fl.runFaulty (ht : Tame W C Γ G P) (hd : C.Default) (hdec : Decided W C Γ P) {F : Faults} (hF : F.Alien) (n : Nat) :
    ∀ h v t, Installed C h → P v t → Fl (Knows W C Γ G) (TL.runFaulty W C F n h v t) (fun n => Ref.run W C Γ n h v t) := by
  induction n with
  | zero => intro h v t _ _ s _; trivial
  | succ n ih =>
    intro h v t hin hv s hs
    unfold TL.runFaulty
    cases hf : F n h v t s with
    | some c => exact ⟨hs, fun hc => absurd (hc ▸ hf) (hF n h v t s)⟩
    | none =>
      have h1 := Fl.step ht ih hd hdec h hin v t hv s hs
      dsimp only
      cases h2 : TL.step W C (TL.runFaulty W C F n) h v t s with
      | ok r s1 => rw [h2] at h1; exact ⟨h1.1, h1.2.step⟩
      | err e s1 =>
        rw [h2] at h1
        refine ⟨h1.1, fun hc => ?_⟩
        obtain ⟨e', h3, h4⟩ := h1.2 hc
        exact ⟨e', h3.step, h4⟩
      | div => trivial

theorem Fl.loadFaulty (ht : Tame W C Γ G P) (hd : C.Default) (hdec : Decided W C Γ P) {F : Faults} (hF : F.Alien) (n : Nat) (v : Val) (t : Ty) (hv : P v t) :
    Fl (Knows W C Γ G) (TL.loadFaulty W C F n v t) (fun n => Ref.loadWith W C (Ref.run W C Γ n) v t none) :=
  Fl.loadWith ht (Fl.runFaulty ht hd hdec hF n) v t none hv
end TL
