import Verif.Lemmas.Threads
import Verif.Lemmas.Fuel
import Verif.Spec.Api
/-!
# Coherent states and the equation of `load`
-/

namespace TL

variable {W : World} {C : Config}

theorem Coh.ext {s s' : LState} (hc : Coh W C s) (he : Ext W C s s') : Coh W C s' where
  idx t h e := (he.idx_new t h e).elim (hc.idx t h) id
  objc c i e := (he.objc_new c i e).elim (hc.objc c i) id
  disc t d e := (he.disc_new t d e).elim
    (fun h => let ⟨ts, rew, a, b, c⟩ := hc.disc t d h; ⟨ts, rew, a, b, fun x hx => he.rew_keep x (c x hx)⟩) id

theorem load_ok_ext {n v t s r s'} (h : load W C n v t s = .ok r s') : Ext W C s s' := (load_ext n v t s).ok h
theorem load_err_ext {n v t s e s'} (h : load W C n v t s = .err e s') : Ext W C s s' := (load_ext n v t s).err h

theorem Coh.new (frefs : Option (List (String × Ty))) (rew : List Nat) : Coh W C { frefs := frefs, tdRew := rew } := by
  constructor <;> intros <;> simp_all

theorem Config.Retuned.evalCond {C C' : Config} (h : C.Retuned C') (c : Cond) (t : Ty) : TL.evalCond W C' c t = TL.evalCond W C c t := by
  cases c <;> simp [TL.evalCond, h.basictypes, h.strconstructed, Config.isBasic]

theorem Config.Retuned.indexFrom {C C' : Config} (h : C.Retuned C') (t : Ty) (hs : List (Cond × Handler)) : ∀ k, TL.indexFrom W C' t hs k = TL.indexFrom W C t hs k := by
  induction hs with
  | nil => intro k; rfl
  | cons p hs ih =>
    intro k
    obtain ⟨c, f⟩ := p
    unfold TL.indexFrom
    rw [h.evalCond, h.raiseconditionerrors, ih]

/-- The options that may be changed do not influence which handler is chosen. -/
theorem Config.Retuned.pick {C C' : Config} (h : C.Retuned C') (t : Ty) : TL.pick W C' t = TL.pick W C t := by
  unfold TL.pick index
  rw [h.handlers, h.indexFrom]

theorem Config.Retuned.coh {C C' : Config} (h : C.Retuned C') {s : LState} : Coh W C s ↔ Coh W C' s := by
  have hi : ∀ c : ClassDef, dataclassInfo C' c = dataclassInfo C c := by intro c; simp [dataclassInfo, h.mangleKey]
  constructor
  · rintro ⟨h1, h2, h3⟩
    exact ⟨fun t f e => by rw [h.pick]; exact h1 t f e, fun c i e => by rw [hi]; exact h2 c i e, h3⟩
  · rintro ⟨h1, h2, h3⟩
    exact ⟨fun t f e => by rw [← h.pick (C' := C')]; exact h1 t f e, fun c i e => by rw [← hi]; exact h2 c i e, h3⟩

theorem Config.Retuned.symm {C C' : Config} (h : C.Retuned C') : C'.Retuned C :=
  ⟨h.1.symm, h.2.symm, h.3.symm, h.4.symm, h.5.symm⟩
theorem Config.Retuned.trans {C C' C'' : Config} (h : C.Retuned C') (h' : C'.Retuned C'') : C.Retuned C'' :=
  ⟨h'.1.trans h.1, h'.2.trans h.2, h'.3.trans h.3, h'.4.trans h.4, h'.5.trans h.5⟩

/-- The states of a loader are those of the loader with other options. -/
theorem Reachable.retune {C C' : Config} (hcc : C.Retuned C') {s : LState} (h : Reachable W C s) : Reachable W C' s := by
  induction h with
  | new f r => exact .new f r
  | loaded _ h hl ih => exact ih.loaded (hcc.symm.trans h) hl
  | raised _ h hl ih => exact ih.raised (hcc.symm.trans h) hl
  | setFrefs f _ ih => exact ih.setFrefs f
  | rewritten c _ ih => exact ih.rewritten c
  | shared jobs _ h hs ih => exact ih.shared jobs (hcc.symm.trans h) hs
  | faulted F n _ h hs ih => exact ih.faulted F n (hcc.symm.trans h) hs

theorem Reachable.coh {s : LState} (h : Reachable W C s) : Coh W C s := by
  induction h with
  | new f r => exact Coh.new f r
  | loaded _ hr h ih => obtain ⟨n, h⟩ := h; exact hr.coh.2 ((hr.coh.1 ih).ext (load_ok_ext h))
  | raised _ hr h ih => obtain ⟨n, h⟩ := h; exact hr.coh.2 ((hr.coh.1 ih).ext (load_err_ext h))
  | setFrefs f _ ih => exact ⟨ih.idx, ih.objc, ih.disc⟩
  | rewritten c _ ih =>
    exact ⟨ih.idx, ih.objc, fun t d e =>
      let ⟨ts, rew, a, b, c⟩ := ih.disc t d e; ⟨ts, rew, a, b, fun x hx => List.mem_cons_of_mem _ (c x hx)⟩⟩
  | shared jobs _ hr hs ih => exact hr.coh.2 ((hr.coh.1 ih).shared hs)
  | faulted F n _ hr h ih =>
    rcases h with ⟨r, h⟩ | ⟨e, h⟩
    · exact hr.coh.2 ((hr.coh.1 ih).ext ((loadFaulty_ext F n _ _ _).ok h))
    · exact hr.coh.2 ((hr.coh.1 ih).ext ((loadFaulty_ext F n _ _ _).err h))

theorem AfterLoads.ext {s s' : LState} (h : AfterLoads W C s s') : Ext W C s s' := by
  induction h with
  | refl => exact Ext.refl s
  | ok _ h ih => obtain ⟨n, h⟩ := h; exact ih.trans (load_ok_ext h)
  | err _ h ih => obtain ⟨n, h⟩ := h; exact ih.trans (load_err_ext h)

theorem AfterLoads.reachable {s s' : LState} (h : AfterLoads W C s s') (hr : Reachable W C s) : Reachable W C s' := by
  induction h with
  | refl => exact hr
  | ok _ h ih => exact ih.ok h
  | err _ h ih => exact ih.err h

/-- The state after remembering the handler of a type. -/
def cacheIdx (t : Ty) (h : Handler) (s : LState) : LState :=
  match aget s.idx t with
  | some _ => s
  | none => { s with idx := aset s.idx t h }

/-- The state after the handler lookup of `load`. -/
def cacheReg (W : World) (t : Ty) (h : Handler) (s : LState) : LState :=
  match aget s.idx t with
  | some _ => s
  | none => registerName W t { s with idx := aset s.idx t h }

/-- The exception raised by a failing lookup. -/
def lookupExc (missing : Exc) (c : ExcClass) : Exc := if c.isValue then missing else .plain c

theorem resolve_eq {s : LState} (hc : Coh W C s) (t : Ty) (e : Exc) :
    resolve W C t e s = match pick W C t with
      | .ok h => .ok h (cacheIdx t h s)
      | .error c => .err (lookupExc e c) s := by
  unfold resolve cacheIdx lookupExc
  simp only [M.bind_apply, M.get_apply]
  cases hn : aget s.idx t with
  | some h => rw [hc.idx t h hn]; rfl
  | none =>
    cases hp : pick W C t with
    | ok h => rfl
    | error c => cases hv : c.isValue <;> simp [hv]

theorem loadResolve_eq {s : LState} (hc : Coh W C s) (v : Val) (t : Ty) :
    loadResolve W C v t s = match pick W C t with
      | .ok h => .ok h (cacheReg W t h s)
      | .error c => .err (lookupExc (mkExc .tlType (.noHandler t) v t) c) s := by
  unfold loadResolve cacheReg lookupExc
  simp only [M.bind_apply, M.get_apply]
  cases hn : aget s.idx t with
  | some h => rw [hc.idx t h hn]; rfl
  | none =>
    cases hp : pick W C t with
    | ok h => rfl
    | error c => cases hv : c.isValue <;> simp [hv]

/-- How `load` reports an exception of the handler. -/
def loadExc (v : Val) (t : Ty) (a : Option Annotation) (e : Exc) : Exc :=
  if e.isTL then e.push ⟨v, t, a⟩ else .plain .assertion

theorem loadWith_eq {s : LState} (hc : Coh W C s) (rec : Rec) (v : Val) (t : Ty) (a : Option Annotation) :
    loadWith W C rec v t a s = match pick W C t with
      | .ok h => match rec h v t (cacheReg W t h s) with
        | .ok r s' => .ok r s'
        | .err e s' => .err (loadExc v t a e) s'
        | .div => .div
      | .error c => .err (lookupExc (mkExc .tlType (.noHandler t) v t) c) s := by
  unfold loadWith
  simp only [M.bind_apply, loadResolve_eq hc]
  cases hp : pick W C t with
  | error c => rfl
  | ok h =>
    simp only [M.catch_apply, loadExc]
    cases rec h v t (cacheReg W t h s) with
    | ok => rfl
    | div => rfl
    | err e s' => dsimp only; split <;> rfl

theorem load_eq {s : LState} (hc : Coh W C s) (n : Nat) (v : Val) (t : Ty) :
    load W C n v t s = match pick W C t with
      | .ok h => match run W C n h v t (cacheReg W t h s) with
        | .ok r s' => .ok r s'
        | .err e s' => .err (loadExc v t none e) s'
        | .div => .div
      | .error c => .err (lookupExc (mkExc .tlType (.noHandler t) v t) c) s := loadWith_eq hc _ v t none

theorem cacheIdx_ext {s : LState} {t : Ty} {h : Handler} (hp : pick W C t = .ok h) : Ext W C s (cacheIdx t h s) := by
  unfold cacheIdx; cases hn : aget s.idx t with
  | some _ => exact Ext.refl s
  | none => exact Ext.idx hn hp

theorem cacheReg_ext {s : LState} {t : Ty} {h : Handler} (hp : pick W C t = .ok h) : Ext W C s (cacheReg W t h s) := by
  unfold cacheReg; cases hn : aget s.idx t with
  | some _ => exact Ext.refl s
  | none => exact (Ext.idx hn hp).trans (Ext.register hp)

theorem cacheIdx_idx {s : LState} {t : Ty} {h : Handler} (hc : Coh W C s) (hp : pick W C t = .ok h) :
    aget (cacheIdx t h s).idx t = some h := by
  unfold cacheIdx; cases hn : aget s.idx t with
  | some h' => have := hc.idx t h' hn; rw [hp] at this; cases this; exact hn
  | none => simp

theorem registerName_idx (t : Ty) (s : LState) : (registerName W t s).idx = s.idx := by
  unfold registerName; repeat' split
  all_goals rfl

theorem cacheReg_idx {s : LState} {t : Ty} {h : Handler} (hc : Coh W C s) (hp : pick W C t = .ok h) :
    aget (cacheReg W t h s).idx t = some h := by
  unfold cacheReg; cases hn : aget s.idx t with
  | some h' => have := hc.idx t h' hn; rw [hp] at this; cases this; exact hn
  | none => simp [registerName_idx]

/-- A successful load, unfolded. -/
theorem loads_iff {s : LState} (hc : Coh W C s) {v : Val} {t : Ty} {r : Val} {s' : LState} :
    Loads W C s v t r s' ↔ ∃ n h, pick W C t = .ok h ∧ run W C n h v t (cacheReg W t h s) = .ok r s' := by
  unfold Loads
  constructor
  · rintro ⟨n, h⟩
    rw [load_eq hc] at h
    cases hp : pick W C t with
    | error c => simp [hp] at h
    | ok hd =>
      rw [hp] at h; dsimp only at h
      refine ⟨n, hd, rfl, ?_⟩
      cases hr : run W C n hd v t (cacheReg W t hd s) <;> simp_all
  · rintro ⟨n, h, hp, hr⟩
    exact ⟨n, by rw [load_eq hc, hp]; simp [hr]⟩

/-- A failing load, unfolded. -/
theorem raises_iff {s : LState} (hc : Coh W C s) {v : Val} {t : Ty} {e : Exc} {s' : LState} :
    Raises W C s v t e s' ↔
      (∃ n h e', pick W C t = .ok h ∧ run W C n h v t (cacheReg W t h s) = .err e' s' ∧ e = loadExc v t none e') ∨
      (∃ c, pick W C t = .error c ∧ e = lookupExc (mkExc .tlType (.noHandler t) v t) c ∧ s' = s) := by
  unfold Raises
  constructor
  · rintro ⟨n, h⟩
    rw [load_eq hc] at h
    cases hp : pick W C t with
    | error c => simp [hp] at h; right; exact ⟨c, rfl, h.1.symm, h.2.symm⟩
    | ok hd =>
      rw [hp] at h; dsimp only at h
      left
      cases hr : run W C n hd v t (cacheReg W t hd s) with
      | ok => simp [hr] at h
      | div => simp [hr] at h
      | err e' s1 => simp [hr] at h; exact ⟨n, hd, e', rfl, by rw [hr, h.2], h.1.symm⟩
  · rintro (⟨n, h, e', hp, hr, rfl⟩ | ⟨c, hp, rfl, rfl⟩)
    · exact ⟨n, by rw [load_eq hc, hp]; simp [hr]⟩
    · exact ⟨0, by rw [load_eq hc, hp]⟩

/-- Inside handlers, calling the selected handler agrees with `load` on a loader that already knows the type. -/
theorem handles_load {s : LState} (hc : Coh W C s) {v : Val} {t : Ty} {r : Val} {s' : LState} {h : Handler}
    (hi : aget s.idx t = some h) : Handles W C s v t r s' ↔ Loads W C s v t r s' := by
  rw [loads_iff hc]
  have : ∀ h, cacheReg W t h s = s := fun h => by unfold cacheReg; rw [hi]
  simp only [this, Handles]

/-- Uniqueness of the outcome. -/
theorem Loads.unique {s : LState} {v : Val} {t : Ty} {r r' : Val} {s1 s2 : LState}
    (h1 : Loads W C s v t r s1) (h2 : Loads W C s v t r' s2) : r = r' ∧ s1 = s2 := by
  obtain ⟨n, h1⟩ := h1; obtain ⟨m, h2⟩ := h2
  have := load_det (n := n) (m := m) (by simp [h1] : load W C n v t s ≠ .div) (by simp [h2])
  rw [h1, h2] at this; cases this; exact ⟨rfl, rfl⟩

theorem Loads.not_raises {s : LState} {v : Val} {t : Ty} {r : Val} {e : Exc} {s1 s2 : LState}
    (h1 : Loads W C s v t r s1) (h2 : Raises W C s v t e s2) : False := by
  obtain ⟨n, h1⟩ := h1; obtain ⟨m, h2⟩ := h2
  have := load_det (n := n) (m := m) (by simp [h1] : load W C n v t s ≠ .div) (by simp [h2])
  rw [h1, h2] at this; cases this

theorem Raises.unique {s : LState} {v : Val} {t : Ty} {e e' : Exc} {s1 s2 : LState}
    (h1 : Raises W C s v t e s1) (h2 : Raises W C s v t e' s2) : e = e' ∧ s1 = s2 := by
  obtain ⟨n, h1⟩ := h1; obtain ⟨m, h2⟩ := h2
  have := load_det (n := n) (m := m) (by simp [h1] : load W C n v t s ≠ .div) (by simp [h2])
  rw [h1, h2] at this; cases this; exact ⟨rfl, rfl⟩

end TL
