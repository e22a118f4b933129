import Verif.Props.Reuse
/-!
# Running the reference loader

`Ok m a`: with enough fuel, the computation returns `a`; `Er m e`: it raises `e`.  `Yields v t r`: the handler selected for `t` returns
`r` on `v`; `Declines v t e`: it raises `e`.
-/

namespace TL

/-- With enough fuel `m` returns `a`. -/
def Ok {α : Type} (m : Nat → R α) (a : α) : Prop := ∃ N, ∀ n, N ≤ n → m n () = .ok a ()
/-- With enough fuel `m` raises `e`. -/
def Er {α : Type} (m : Nat → R α) (e : Exc) : Prop := ∃ N, ∀ n, N ≤ n → m n () = .err e ()

section combinators
variable {α β : Type}

theorem Ok.pure (a : α) : Ok (fun _ => (Pure.pure a : R α)) a := ⟨0, fun _ _ => rfl⟩
theorem Er.throw (e : Exc) : Er (fun _ => (M.throw e : R α)) e := ⟨0, fun _ _ => rfl⟩
theorem Ok.lift {x : Except Exc α} {a : α} (h : x = .ok a) : Ok (fun _ => (M.lift x : R α)) a := by subst h; exact ⟨0, fun _ _ => rfl⟩

theorem Ok.bind {m : Nat → R α} {f : Nat → α → R β} {a : α} {b : β} (h1 : Ok m a) (h2 : Ok (fun n => f n a) b) :
    Ok (fun n => m n >>= f n) b := by
  obtain ⟨N, h1⟩ := h1
  obtain ⟨K, h2⟩ := h2
  refine ⟨max N K, fun n hn => ?_⟩
  simp only [M.bind_apply, h1 n (by omega)]
  exact h2 n (by omega)

theorem Er.bind1 {m : Nat → R α} {f : Nat → α → R β} {e : Exc} (h1 : Er m e) : Er (fun n => m n >>= f n) e := by
  obtain ⟨N, h1⟩ := h1
  exact ⟨N, fun n hn => by simp only [M.bind_apply, h1 n hn]⟩

theorem Er.bind2 {m : Nat → R α} {f : Nat → α → R β} {a : α} {e : Exc} (h1 : Ok m a) (h2 : Er (fun n => f n a) e) :
    Er (fun n => m n >>= f n) e := by
  obtain ⟨N, h1⟩ := h1
  obtain ⟨K, h2⟩ := h2
  refine ⟨max N K, fun n hn => ?_⟩
  simp only [M.bind_apply, h1 n (by omega)]
  exact h2 n (by omega)

theorem Ok.rescue {m : Nat → R α} {f : Nat → Exc → R α} {a : α} (h1 : Ok m a) : Ok (fun n => M.rescue (m n) (f n)) a := by
  obtain ⟨N, h1⟩ := h1
  exact ⟨N, fun n hn => by simp only [M.catch_apply, h1 n hn]⟩

theorem Ok.rescue2 {m : Nat → R α} {f : Nat → Exc → R α} {a : α} {e : Exc} (h1 : Er m e) (h2 : Ok (fun n => f n e) a) :
    Ok (fun n => M.rescue (m n) (f n)) a := by
  obtain ⟨N, h1⟩ := h1
  obtain ⟨K, h2⟩ := h2
  refine ⟨max N K, fun n hn => ?_⟩
  simp only [M.catch_apply, h1 n (by omega)]
  exact h2 n (by omega)

theorem Er.rescue {m : Nat → R α} {f : Nat → Exc → R α} {e e' : Exc} (h1 : Er m e) (h2 : Er (fun n => f n e) e') :
    Er (fun n => M.rescue (m n) (f n)) e' := by
  obtain ⟨N, h1⟩ := h1
  obtain ⟨K, h2⟩ := h2
  refine ⟨max N K, fun n hn => ?_⟩
  simp only [M.catch_apply, h1 n (by omega)]
  exact h2 n (by omega)

theorem Ok.handle {m : Nat → R α} {f : Nat → α → R β} {g : Nat → Exc → R β} {a : α} {b : β} (h1 : Ok m a) (h2 : Ok (fun n => f n a) b) :
    Ok (fun n => M.handle (m n) (f n) (g n)) b := by
  obtain ⟨N, h1⟩ := h1
  obtain ⟨K, h2⟩ := h2
  refine ⟨max N K, fun n hn => ?_⟩
  simp only [M.handle_apply, h1 n (by omega)]
  exact h2 n (by omega)

theorem Ok.handle2 {m : Nat → R α} {f : Nat → α → R β} {g : Nat → Exc → R β} {e : Exc} {b : β} (h1 : Er m e) (h2 : Ok (fun n => g n e) b) :
    Ok (fun n => M.handle (m n) (f n) (g n)) b := by
  obtain ⟨N, h1⟩ := h1
  obtain ⟨K, h2⟩ := h2
  refine ⟨max N K, fun n hn => ?_⟩
  simp only [M.handle_apply, h1 n (by omega)]
  exact h2 n (by omega)

theorem Er.handle {m : Nat → R α} {f : Nat → α → R β} {g : Nat → Exc → R β} {a : α} {e : Exc} (h1 : Ok m a) (h2 : Er (fun n => f n a) e) :
    Er (fun n => M.handle (m n) (f n) (g n)) e := by
  obtain ⟨N, h1⟩ := h1
  obtain ⟨K, h2⟩ := h2
  refine ⟨max N K, fun n hn => ?_⟩
  simp only [M.handle_apply, h1 n (by omega)]
  exact h2 n (by omega)

theorem Er.handle2 {m : Nat → R α} {f : Nat → α → R β} {g : Nat → Exc → R β} {e e' : Exc} (h1 : Er m e) (h2 : Er (fun n => g n e) e') :
    Er (fun n => M.handle (m n) (f n) (g n)) e' := by
  obtain ⟨N, h1⟩ := h1
  obtain ⟨K, h2⟩ := h2
  refine ⟨max N K, fun n hn => ?_⟩
  simp only [M.handle_apply, h1 n (by omega)]
  exact h2 n (by omega)

theorem Ok.ite {c : Prop} [Decidable c] {m m' : Nat → R α} {a : α} (h1 : c → Ok m a) (h2 : ¬ c → Ok m' a) :
    Ok (fun n => if c then m n else m' n) a := by
  by_cases h : c
  · simp only [if_pos h]; exact h1 h
  · simp only [if_neg h]; exact h2 h

theorem Ok.unique {m : Nat → R α} {a b : α} (h1 : Ok m a) (h2 : Ok m b) : a = b := by
  obtain ⟨N, h1⟩ := h1
  obtain ⟨K, h2⟩ := h2
  have := (h1 (max N K) (by omega)).symm.trans (h2 (max N K) (by omega))
  cases this; rfl

theorem Ok.not_er {m : Nat → R α} {a : α} {e : Exc} (h1 : Ok m a) (h2 : Er m e) : False := by
  obtain ⟨N, h1⟩ := h1
  obtain ⟨K, h2⟩ := h2
  have := (h1 (max N K) (by omega)).symm.trans (h2 (max N K) (by omega))
  cases this
end combinators

variable {W : World} {C : Config} {Γ : Env}

/-- The handler selected for `t` returns `r` on `v`. -/
def Yields (W : World) (C : Config) (Γ : Env) (v : Val) (t : Ty) (r : Val) : Prop :=
  ∃ h, pick W C t = .ok h ∧ Ok (fun n => Ref.run W C Γ n h v t) r
/-- The handler selected for `t` raises `e` on `v`. -/
def Declines (W : World) (C : Config) (Γ : Env) (v : Val) (t : Ty) (e : Exc) : Prop :=
  ∃ h, pick W C t = .ok h ∧ Er (fun n => Ref.run W C Γ n h v t) e

theorem Ok.step {h : Handler} {v : Val} {t : Ty} {r : Val} (hs : Ok (fun n => Ref.step W C Γ (Ref.run W C Γ n) h v t) r) :
    Ok (fun n => Ref.run W C Γ n h v t) r := by
  obtain ⟨N, hs⟩ := hs
  refine ⟨N + 1, fun n hn => ?_⟩
  cases n with
  | zero => omega
  | succ n => exact hs n (by omega)

theorem Er.step {h : Handler} {v : Val} {t : Ty} {e : Exc} (hs : Er (fun n => Ref.step W C Γ (Ref.run W C Γ n) h v t) e) :
    Er (fun n => Ref.run W C Γ n h v t) e := by
  obtain ⟨N, hs⟩ := hs
  refine ⟨N + 1, fun n hn => ?_⟩
  cases n with
  | zero => omega
  | succ n => exact hs n (by omega)

theorem Yields.of_step {h : Handler} {v : Val} {t : Ty} {r : Val} (hp : pick W C t = .ok h)
    (hs : Ok (fun n => Ref.step W C Γ (Ref.run W C Γ n) h v t) r) : Yields W C Γ v t r := ⟨h, hp, hs.step⟩

theorem Declines.of_step {h : Handler} {v : Val} {t : Ty} {e : Exc} (hp : pick W C t = .ok h)
    (hs : Er (fun n => Ref.step W C Γ (Ref.run W C Γ n) h v t) e) : Declines W C Γ v t e := ⟨h, hp, hs.step⟩

theorem Yields.unique {v : Val} {t : Ty} {r r' : Val} (h : Yields W C Γ v t r) (h' : Yields W C Γ v t r') : r = r' := by
  obtain ⟨h1, hp, ho⟩ := h
  obtain ⟨h2, hp', ho'⟩ := h'
  rw [hp] at hp'; cases hp'
  exact ho.unique ho'

theorem Ok.resolve {t : Ty} {h : Handler} {e : Exc} (hp : pick W C t = .ok h) : Ok (fun _ => Ref.resolve W C t e) h :=
  ⟨0, fun _ _ => by unfold Ref.resolve; rw [hp]; rfl⟩

theorem Yields.loadWith {v : Val} {t : Ty} {r : Val} (hy : Yields W C Γ v t r) (a : Option Annotation) :
    Ok (fun n => Ref.loadWith W C (Ref.run W C Γ n) v t a) r := by
  obtain ⟨h, hp, ho⟩ := hy
  exact Ok.bind (Ok.resolve hp) (Ok.rescue ho)

theorem Declines.loadWith {v : Val} {t : Ty} {e : Exc} (hy : Declines W C Γ v t e) (htl : e.isTL = true) (a : Option Annotation) :
    Er (fun n => Ref.loadWith W C (Ref.run W C Γ n) v t a) (e.push ⟨v, t, a⟩) := by
  obtain ⟨h, hp, ho⟩ := hy
  refine Er.bind2 (Ok.resolve hp) (Er.rescue ho ?_)
  simp only [htl, if_true]
  exact Er.throw _

theorem Ok.exists {α : Type} {m : Nat → R α} {a : α} (h : Ok m a) : ∃ n, m n () = .ok a () := by
  obtain ⟨N, h⟩ := h; exact ⟨N, h N (Nat.le_refl _)⟩
theorem Er.exists {α : Type} {m : Nat → R α} {e : Exc} (h : Er m e) : ∃ n, m n () = .err e () := by
  obtain ⟨N, h⟩ := h; exact ⟨N, h N (Nat.le_refl _)⟩

/-- What the reference loader returns, a loader returns, whatever its history. -/
theorem Yields.loads (hd : C.Default) (h1 : W.NotRequiredLaw) (h2 : W.SteadyTags) {s : LState} (hs : Reachable W C s) {v : Val} {t : Ty}
    (hn : SameNames W Γ (namesIn W s t) t) (hst : Steady W C Γ v t) {r : Val} (hy : Yields W C Γ v t r) : ∃ s', Loads W C s v t r s' :=
  (loads_ref hd h1 h2 hs hn hst r).2 (hy.loadWith none).exists

theorem Declines.raises (hd : C.Default) (h1 : W.NotRequiredLaw) (h2 : W.SteadyTags) {s : LState} (hs : Reachable W C s) {v : Val} {t : Ty}
    (hn : SameNames W Γ (namesIn W s t) t) (hst : Steady W C Γ v t) {e : Exc} (hy : Declines W C Γ v t e) (htl : e.isTL = true) :
    ∃ s', Raises W C s v t (e.push ⟨v, t, none⟩) s' :=
  (raises_ref hd h1 h2 hs hn hst _).2 (hy.loadWith htl none).exists

/-! ## Fuel -/

section handlers
variable {rec rec' : Ref.Rec} (hrec : ∀ h v t, LeM (rec h v t) (rec' h v t))
include hrec

theorem LeR.loadWith (v : Val) (t : Ty) (a : Option Annotation) : LeM (Ref.loadWith W C rec v t a) (Ref.loadWith W C rec' v t a) := by
  unfold Ref.loadWith; repeat' (first | exact hrec _ _ _ | le1)
theorem LeR.iterElem (h : Handler) (et : Ty) (x : Val) : LeM (Ref.iterElem C rec h et x) (Ref.iterElem C rec' h et x) := by
  unfold Ref.iterElem; repeat' (first | exact hrec _ _ _ | le1)
theorem LeR.iterElems (h : Handler) (k : SeqKind) (et : Ty) (v : Val) (t : Ty) (xs : List Val) :
    ∀ i acc, LeM (Ref.iterElems W C rec h k et v t xs i acc) (Ref.iterElems W C rec' h k et v t xs i acc) := by
  induction xs with
  | nil => intro i acc; exact LeM.refl _
  | cons x xs ih =>
    intro i acc; unfold Ref.iterElems
    repeat' (first | exact LeR.iterElem hrec _ _ _ | exact ih _ _ | le1)
theorem LeR.iterload (k : SeqKind) (v : Val) (t : Ty) : LeM (Ref.iterload W C rec k v t) (Ref.iterload W C rec' k v t) := by
  unfold Ref.iterload
  repeat' (first | exact LeR.iterElems hrec _ _ _ _ _ _ _ _ | le1)
theorem LeR.tupElems (v : Val) (t : Ty) (xs : List Val) :
    ∀ us i, LeM (Ref.tupElems W C rec v t xs us i) (Ref.tupElems W C rec' v t xs us i) := by
  induction xs with
  | nil => intro us i; unfold Ref.tupElems; exact LeM.refl _
  | cons x xs ih =>
    intro us i
    cases us with
    | nil => unfold Ref.tupElems; exact LeM.refl _
    | cons u us => unfold Ref.tupElems; repeat' (first | exact hrec _ _ _ | exact ih _ _ | le1)
theorem LeR.tupleload (v : Val) (t : Ty) : LeM (Ref.tupleload W C rec v t) (Ref.tupleload W C rec' v t) := by
  unfold Ref.tupleload
  repeat' (first | exact LeR.iterload hrec _ _ _ | exact LeR.tupElems hrec _ _ _ _ _ | le1)
theorem LeR.part (x : Val) (t : Ty) (a : Annotation) : LeM (Ref.part W C rec x t a) (Ref.part W C rec' x t a) := by
  unfold Ref.part; repeat' (first | exact LeR.loadWith hrec _ _ _ | le1)
theorem LeR.pairs (kt vt : Ty) (kvs : List (Val × Val)) : ∀ acc, LeM (Ref.pairs W C rec kt vt kvs acc) (Ref.pairs W C rec' kt vt kvs acc) := by
  induction kvs with
  | nil => intro acc; exact LeM.refl _
  | cons p kvs ih =>
    intro acc; obtain ⟨k, x⟩ := p; unfold Ref.pairs
    repeat' (first | exact LeR.part hrec _ _ _ | exact ih _ | le1)
theorem LeR.dictload (v : Val) (t : Ty) : LeM (Ref.dictload W C rec v t) (Ref.dictload W C rec' v t) := by
  unfold Ref.dictload
  repeat' (first | exact LeR.pairs hrec _ _ _ _ | le1)
theorem LeR.objFields (info : ObjInfo) (v : Val) (t : Ty) (kvs : List (Val × Val)) :
    ∀ acc, LeM (Ref.objFields W C rec info v t kvs acc) (Ref.objFields W C rec' info v t kvs acc) := by
  induction kvs with
  | nil => intro acc; exact LeM.refl _
  | cons p kvs ih =>
    intro acc; obtain ⟨k, x⟩ := p; unfold Ref.objFields
    repeat' (first | exact hrec _ _ _ | exact ih _ | le1)
theorem LeR.objloader (info : ObjInfo) (v : Val) (c : Nat) : LeM (Ref.objloader W C rec info v c) (Ref.objloader W C rec' info v c) := by
  unfold Ref.objloader
  repeat' (first | exact LeR.objFields hrec _ _ _ _ _ | le1)
theorem LeR.unionTry (v : Val) (t : Ty) (us : List Ty) :
    ∀ c r es, LeM (Ref.unionTry W C rec v t us c r es) (Ref.unionTry W C rec' v t us c r es) := by
  induction us with
  | nil => intro c r es; exact LeM.refl _
  | cons u us ih =>
    intro c r es; unfold Ref.unionTry
    repeat' (first | exact hrec _ _ _ | exact ih _ _ _ | le1)
theorem LeR.enumHints (v : Val) (e : Nat) (us : List Ty) :
    ∀ es, LeM (Ref.enumHints W C rec v e us es) (Ref.enumHints W C rec' v e us es) := by
  induction us with
  | nil => intro es; exact LeM.refl _
  | cons u us ih =>
    intro es; unfold Ref.enumHints
    repeat' (first | exact LeR.loadWith hrec _ _ _ | exact ih _ | le1)
theorem LeR.step (h : Handler) (v : Val) (t : Ty) : LeM (Ref.step W C Γ rec h v t) (Ref.step W C Γ rec' h v t) := by
  unfold Ref.step
  cases h <;> dsimp only
  case unionload => unfold Ref.unionload; repeat' (first | exact LeR.unionTry hrec _ _ _ _ _ _ | le1)
  case enumload => unfold Ref.enumload; repeat' (first | exact LeR.enumHints hrec _ _ _ _ | le1)
  case tupleload => exact LeR.tupleload hrec _ _
  case listload => exact LeR.iterload hrec _ _ _
  case dictload => exact LeR.dictload hrec _ _
  case setload => exact LeR.iterload hrec _ _ _
  case frozensetload => exact LeR.iterload hrec _ _ _
  case namedtupleload => unfold Ref.namedtupleload; repeat' (first | exact LeR.objloader hrec _ _ _ | le1)
  case dataclassload => unfold Ref.dataclassload Ref.objMangled; repeat' (first | exact LeR.objloader hrec _ _ _ | le1)
  case attrload => unfold Ref.attrload Ref.objMangled; repeat' (first | exact LeR.objloader hrec _ _ _ | le1)
  case typeddictload => unfold Ref.typeddictload; repeat' (first | exact LeR.objloader hrec _ _ _ | le1)
  case forwardrefload => unfold Ref.forwardrefload; repeat' (first | exact LeR.loadWith hrec _ _ _ | le1)
  case newtypeload => unfold Ref.newtypeload; repeat' (first | exact LeR.loadWith hrec _ _ _ | le1)
  case custom i => exact LeM.script (LeR.loadWith hrec) _
  all_goals exact LeM.refl _
end handlers

theorem ref_run_succ_le (n : Nat) : ∀ h v t, LeM (Ref.run W C Γ n h v t) (Ref.run W C Γ (n + 1) h v t) := by
  induction n with
  | zero => intro h v t s hs; exact absurd rfl hs
  | succ n ih => intro h v t; exact LeR.step ih h v t

theorem ref_run_le {n m : Nat} (hnm : n ≤ m) (h v t) : LeM (Ref.run W C Γ n h v t) (Ref.run W C Γ m h v t) := by
  induction hnm with
  | refl => exact LeM.refl _
  | step _ ih => exact ih.trans (ref_run_succ_le _ h v t)

/-- A result obtained with some fuel is obtained with more. -/
theorem Yields.of_run {n : Nat} {h : Handler} {v : Val} {t : Ty} {r : Val} (hp : pick W C t = .ok h)
    (hr : Ref.run W C Γ n h v t () = .ok r ()) : Yields W C Γ v t r :=
  ⟨h, hp, n, fun m hm => by show Ref.run W C Γ m h v t () = _; rw [ref_run_le hm h v t () (by rw [hr]; exact fun h => by cases h), hr]⟩

theorem Declines.of_run {n : Nat} {h : Handler} {v : Val} {t : Ty} {e : Exc} (hp : pick W C t = .ok h)
    (hr : Ref.run W C Γ n h v t () = .err e ()) : Declines W C Γ v t e :=
  ⟨h, hp, n, fun m hm => by show Ref.run W C Γ m h v t () = _; rw [ref_run_le hm h v t () (by rw [hr]; exact fun h => by cases h), hr]⟩

/-- What a loader returns, the reference loader returns. -/
theorem Yields.of_loads (hd : C.Default) (h1 : W.NotRequiredLaw) (h2 : W.SteadyTags) {s : LState} (hs : Reachable W C s) {v : Val} {t : Ty}
    (hn : SameNames W Γ (namesIn W s t) t) (hst : Steady W C Γ v t) {r : Val} {s' : LState} (hl : Loads W C s v t r s') : Yields W C Γ v t r := by
  obtain ⟨n, hr⟩ := (loads_ref hd h1 h2 hs hn hst r).1 ⟨s', hl⟩
  unfold Ref.load at hr
  cases hp : pick W C t with
  | error c =>
    unfold Ref.loadWith Ref.resolve at hr
    rw [hp] at hr; cases hr
  | ok h =>
    rw [ref_loadWith_eq hp] at hr
    cases hx : Ref.run W C Γ n h v t () with
    | ok r' u => rw [hx] at hr; cases hr; exact .of_run hp hx
    | err e u => rw [hx] at hr; cases hr
    | div => rw [hx] at hr; cases hr

/-! ## Introduction rules -/

section rules
variable (hd : C.Default)
include hd

theorem Yields.any (v : Val) : Yields W C Γ v .any v := .of_step (pick_any hd) ⟨0, fun _ _ => rfl⟩
theorem Yields.none : Yields W C Γ .none (.prim .none) .none := .of_step (pick_none hd) ⟨0, fun _ _ => rfl⟩
theorem Yields.basic {v : Val} {p : Prim} (hp : p ∈ C.basictypes ∨ p = .none) (ht : typeOf v = .prim p) : Yields W C Γ v (.prim p) v := by
  by_cases hn : p = .none
  · subst hn
    cases v <;> simp [typeOf] at ht
    exact Yields.none hd
  · refine .of_step (pick_basic hd (hp.resolve_right hn) hn) ⟨0, fun _ _ => ?_⟩
    simp [Ref.step, ofL, basicload, ht]
theorem Yields.lit {v : Val} {vs : List Val} (h : pyIn v vs = true) : Yields W C Γ v (.lit vs) v :=
  .of_step (pick_lit hd vs) ⟨0, fun _ _ => by simp [Ref.step, ofL, literalload, h]⟩
theorem Yields.enum {v m : Val} {e : Nat} (h : enumCall W e v = some m) : Yields W C Γ v (.enum e) m :=
  .of_step (pick_enum hd e) ⟨0, fun _ _ => by simp [Ref.step, Ref.enumload, h]⟩
theorem Yields.newtype {v r : Val} {n : String} {t : Ty} (h : Yields W C Γ v t r) : Yields W C Γ v (.newtype n t) r :=
  .of_step (pick_newtype hd n t) (h.loadWith _)
theorem Yields.fref {v r : Val} {n : String} {t : Ty} {f : String → Option Ty} (hΓ : Γ = some f) (hn : f n = some t) (h : Yields W C Γ v t r) :
    Yields W C Γ v (.fref n) r := by
  refine .of_step (pick_fref hd n) ?_
  have := h.loadWith (some (.forwardref n))
  subst hΓ
  simpa only [Ref.step, Ref.forwardrefload, hn] using this

omit hd in
/-- An element of a basic type or union of basic types that is passed unchanged is one. -/
theorem Ok.iterElem {et : Ty} {x y : Val} {h : Handler} (hp : pick W C et = .ok h) (hy : Yields W C Γ x et y)
    (hx : ∀ p, et = .prim p → C.isBasic et = true → isInst p x = true → y = x)
    (hx2 : ∀ ts, et = .union ts → ts.all C.isBasic = true → typeOf x ∈ ts → y = x) :
    Ok (fun n => Ref.iterElem C (Ref.run W C Γ n) h et x) y := by
  obtain ⟨h', hp', ho⟩ := hy
  rw [hp] at hp'; cases hp'
  cases et with
  | prim p =>
    simp only [Ref.iterElem]
    refine Ok.ite (fun hb => Ok.ite (fun hi => ?_) (fun _ => ho)) (fun _ => ho)
    rw [hx p rfl hb hi]; exact Ok.pure x
  | union ts =>
    simp only [Ref.iterElem]
    refine Ok.ite (fun hb => Ok.ite (fun hi => ?_) (fun _ => ho)) (fun _ => ho)
    rw [hx2 ts rfl hb hi]; exact Ok.pure x
  | _ => exact ho

omit hd in
/-- The elements of a collection, one after the other. -/
theorem Ok.iterElems {et : Ty} {k : SeqKind} {v : Val} {t : Ty} {h : Handler} (xs : List Val) : ∀ (ys : List Val) (i : Nat) (acc r : List Val),
    Zip2 (fun x y => Ok (fun n => Ref.iterElem C (Ref.run W C Γ n) h et x) y) xs ys →
    ys.foldlM (fun acc y => collAdd W k acc y) acc = .ok r →
    Ok (fun n => Ref.iterElems W C (Ref.run W C Γ n) h k et v t xs i acc) r := by
  induction xs with
  | nil =>
    intro ys i acc r hf hr
    cases hf
    cases hr
    exact Ok.pure _
  | cons x xs ih =>
    intro ys i acc r hf hr
    cases hf with
    | cons hx hf =>
      rename_i y ys
      simp only [List.foldlM_cons] at hr
      simp only [Ref.iterElems]
      cases hc : collAdd W k acc y with
      | error c => rw [hc] at hr; cases hr
      | ok acc' =>
        rw [hc] at hr
        refine Ok.handle hx ?_
        simp only [hc]
        exact ih ys _ acc' r hf hr

omit hd in
theorem foldlM_collAdd_seq {k : SeqKind} (hk : k.isSet = false) (ys : List Val) : ∀ acc,
    ys.foldlM (fun acc y => collAdd W k acc y) acc = .ok (acc ++ ys) := by
  induction ys with
  | nil => intro acc; simp; rfl
  | cons y ys ih =>
    intro acc
    have : collAdd W k acc y = .ok (acc ++ [y]) := by unfold collAdd; rw [hk]; rfl
    simp only [List.foldlM_cons, this]
    show List.foldlM _ (acc ++ [y]) ys = _
    rw [ih]; simp

omit hd in
/-- Different hashable elements make a set of them in that order. -/
theorem foldlM_collAdd_set {k : SeqKind} (hk : k.isSet = true) (ys : List Val) : ∀ acc, (∀ y ∈ ys, W.hash y = true) → Distinct (acc ++ ys) →
    ys.foldlM (fun acc y => collAdd W k acc y) acc = .ok (acc ++ ys) := by
  induction ys with
  | nil => intro acc _ _; simp; rfl
  | cons y ys ih =>
    intro acc hh hdis
    have hnew : pyIn y acc = false := by
      unfold pyIn
      rw [List.any_eq_false]
      intro a ha
      have := List.pairwise_append.1 hdis
      rw [this.2.2 a ha y (by simp)]
      simp
    have : collAdd W k acc y = .ok (acc ++ [y]) := by
      unfold collAdd setAdd; rw [hk, hh y (by simp), hnew]; rfl
    simp only [List.foldlM_cons, this]
    show List.foldlM _ (acc ++ [y]) ys = _
    rw [ih _ (fun z hz => hh z (by simp [hz])) (by simpa using hdis)]; simp

theorem Yields.coll {k : SeqKind} {et : Ty} {v : Val} {xs ys : List Val} {h : Handler} (hv : v.isDict = false) (hi : pyIter v = some xs)
    (hp : pick W C et = .ok h) (hf : Zip2 (fun x y => Ok (fun n => Ref.iterElem C (Ref.run W C Γ n) h et x) y) xs ys) {r : List Val}
    (hr : ys.foldlM (fun acc y => collAdd W k acc y) [] = .ok r) : Yields W C Γ v (.coll k et) (.seq k r) := by
  have key : Ok (fun n => Ref.iterload W C (Ref.run W C Γ n) k v (.coll k et)) (.seq k r) := by
    simp only [Ref.iterload, hv, Bool.false_eq_true, if_false, hi]
    exact Ok.bind (Ok.resolve hp) (Ok.bind (Ok.iterElems xs ys 0 [] r hf hr) (Ok.pure _))
  refine .of_step (pick_coll hd k et) ?_
  cases k <;> exact key

omit hd in
theorem Ok.tupElems {v : Val} {t : Ty} (xs : List Val) : ∀ (us : List Ty) (ys : List Val) (i : Nat), us.length ≤ xs.length →
    Zip2 (fun (p : Val × Ty) y => Yields W C Γ p.1 p.2 y ∧ (typeOf p.1 = p.2 → C.isBasic p.2 = true → y = p.1)) (xs.zip us) ys →
    Ok (fun n => Ref.tupElems W C (Ref.run W C Γ n) v t xs us i) ys := by
  induction xs with
  | nil =>
    intro us ys i hl hf
    cases hf
    cases us with
    | nil => simp only [Ref.tupElems]; exact Ok.pure _
    | cons => simp at hl
  | cons x xs ih =>
    intro us ys i hl hf
    cases us with
    | nil => cases hf; simp only [Ref.tupElems]; exact Ok.pure _
    | cons u us =>
      cases hf with
      | cons hx hf =>
        rename_i y ys
        obtain ⟨⟨h, hp, ho⟩, hb⟩ := hx
        simp only [Ref.tupElems, hp]
        refine Ok.bind (Ok.rescue (Ok.ite (fun hc => ?_) (fun _ => ho))) (Ok.bind (ih us ys _ (by simpa using hl) hf) (Ok.pure _))
        simp only [Bool.and_eq_true, beq_iff_eq] at hc
        rw [hb hc.2 hc.1]; exact Ok.pure _

theorem Yields.tuple {ts : List Ty} {v : Val} {xs ys : List Val} (hv : v.isDict = false) (hi : pyIter v = some xs) (hlen : ts.length = xs.length)
    (hf : Zip2 (fun (p : Val × Ty) y => Yields W C Γ p.1 p.2 y ∧ (typeOf p.1 = p.2 → C.isBasic p.2 = true → y = p.1)) (xs.zip ts) ys) :
    Yields W C Γ v (.tuple ts) (.seq .tuple ys) := by
  refine .of_step (pick_tuple hd ts) ?_
  have h1 : ¬ xs.length > ts.length := by omega
  have h2 : ¬ xs.length < ts.length := by omega
  simp only [Ref.step, Ref.tupleload, hv, Bool.false_eq_true, if_false, hi, h1, decide_false, Bool.and_false, h2]
  exact Ok.bind (Ok.tupElems xs ts ys 0 (by omega) hf) (Ok.pure _)

omit hd in
theorem Ok.part {x : Val} {t : Ty} {y : Val} {a : Annotation} (hy : Yields W C Γ x t y) (hb : BasicInstance C t x → y = x) :
    Ok (fun n => Ref.part W C (Ref.run W C Γ n) x t a) y := by
  simp only [Ref.part]
  refine Ok.ite (fun h => ?_) (fun _ => hy.loadWith _)
  rw [hb (isInstTy_basic h)]; exact Ok.pure _

omit hd in
theorem Ok.pairs {kt vt : Ty} (kvs : List (Val × Val)) : ∀ (rs acc : List (Val × Val)),
    Zip2 (fun p q => (Yields W C Γ p.1 kt q.1 ∧ (BasicInstance C kt p.1 → q.1 = p.1)) ∧
      (Yields W C Γ p.2 vt q.2 ∧ (BasicInstance C vt p.2 → q.2 = p.2)) ∧ W.hash q.1 = true) kvs rs →
    Ok (fun n => Ref.pairs W C (Ref.run W C Γ n) kt vt kvs acc) (rs.foldl (fun acc q => dset acc q.1 q.2) acc) := by
  induction kvs with
  | nil => intro rs acc hf; cases hf; exact Ok.pure _
  | cons p kvs ih =>
    intro rs acc hf
    cases hf with
    | cons hx hf =>
      rename_i q rs
      obtain ⟨⟨h1, h2⟩, ⟨h3, h4⟩, h5⟩ := hx
      obtain ⟨k, x⟩ := p
      simp only [Ref.pairs]
      refine Ok.bind (Ok.part h1 h2) (Ok.bind (Ok.part h3 h4) ?_)
      simp only [h5, if_true]
      exact ih rs _ hf

theorem Yields.dict {kt vt : Ty} {v : Val} {kvs rs : List (Val × Val)} {hk hv : Handler} (hdd : DictData C v kvs)
    (hpk : pick W C kt = .ok hk) (hpv : pick W C vt = .ok hv)
    (hf : Zip2 (fun p q => (Yields W C Γ p.1 kt q.1 ∧ (BasicInstance C kt p.1 → q.1 = p.1)) ∧
      (Yields W C Γ p.2 vt q.2 ∧ (BasicInstance C vt p.2 → q.2 = p.2)) ∧ W.hash q.1 = true) kvs rs) :
    Yields W C Γ v (.dict kt vt) (dictOf rs) := by
  refine .of_step (pick_dict hd kt vt) ?_
  simp only [Ref.step, Ref.dictload, (items_dictequivalence v kvs).2 hdd]
  exact Ok.bind (Ok.resolve hpk) (Ok.bind (Ok.resolve hpv) (Ok.rescue (Ok.bind (Ok.pairs kvs rs [] hf) (Ok.pure _))))

/-! ### Unions -/

/-- The shortcut for values of a basic type. -/
theorem Yields.union_exact {v : Val} {ts : List Ty} (hb : C.isBasic (typeOf v) = true) (hm : typeOf v ∈ ts) : Yields W C Γ v (.union ts) v := by
  refine .of_step (pick_union hd ts) ⟨0, fun _ _ => ?_⟩
  simp [Ref.step, Ref.unionload, hb, hm]

omit hd in
/-- The members before the first one that accepts refuse with a TypedloadException. -/
theorem Ok.unionTry {v : Val} {t u : Ty} {r : Val} (hu : C.uniondebugconflict = false) (hy : Yields W C Γ v u r) (us vs : List Ty) :
    ∀ (r0 : Val) (es : List Exc), (∀ w ∈ us, ∃ e, Declines W C Γ v w e ∧ e.isTL = true) →
    ∃ es', Ok (fun n => Ref.unionTry W C (Ref.run W C Γ n) v t (us ++ u :: vs) 0 r0 es) (1, r, es') := by
  induction us with
  | nil =>
    intro r0 es _
    obtain ⟨h, hp, ho⟩ := hy
    refine ⟨es, ?_⟩
    simp only [List.nil_append, Ref.unionTry, hu, Bool.false_eq_true, if_false]
    exact Ok.handle (Ok.bind (Ok.resolve hp) ho) (Ok.pure _)
  | cons w us ih =>
    intro r0 es hr
    obtain ⟨e, ⟨h, hp, he⟩, htl⟩ := hr w (by simp)
    obtain ⟨es', ho⟩ := ih r0 (es ++ [e.push ⟨v, t, some (.union w)⟩]) (fun x hx => hr x (by simp [hx]))
    refine ⟨es', ?_⟩
    simp only [List.cons_append, Ref.unionTry]
    refine Ok.handle2 (Er.bind2 (Ok.resolve hp) he) ?_
    simp only [htl, if_true]
    exact ho

/-- A union whose order of members is known. -/
theorem Yields.union_order {v r : Val} {ts us vs : List Ty} {u : Ty} (hu : C.uniondebugconflict = false)
    (hs : ¬ (C.isBasic (typeOf v) = true ∧ typeOf v ∈ ts))
    (ho : Ref.unionOrder W C v ts = Pure.pure (us ++ u :: vs)) (hy : Yields W C Γ v u r)
    (hr : ∀ w ∈ us, ∃ e, Declines W C Γ v w e ∧ e.isTL = true) : Yields W C Γ v (.union ts) r := by
  refine .of_step (pick_union hd ts) ?_
  have hs' : (C.isBasic (typeOf v) && ts.contains (typeOf v)) = false := by
    cases h : C.isBasic (typeOf v) && ts.contains (typeOf v) with
    | false => rfl
    | true =>
      simp only [Bool.and_eq_true, List.contains_iff_mem] at h
      exact absurd h hs
  obtain ⟨es', hk⟩ := Ok.unionTry (t := .union ts) hu hy us vs .none [] hr
  simp only [Ref.step, Ref.unionload, hs', Bool.false_eq_true, if_false, ho]
  refine Ok.bind (Ok.pure _) (Ok.bind hk ?_)
  simp only [if_true]
  exact Ok.pure _

/-! ### Refusals -/

theorem Declines.coll_dict {k : SeqKind} {et : Ty} (kvs : List (Val × Val)) :
    Declines W C Γ (.dict kvs) (.coll k et) (mkExc .tlType .dictAsIter (.dict kvs) (.coll k et)) := by
  refine .of_step (pick_coll hd k et) ⟨0, fun _ _ => ?_⟩
  cases k <;> rfl

theorem Declines.basic {v : Val} {p : Prim} (hp : p ∈ C.basictypes) (hn : p ≠ .none) (hb : C.basiccast = false) (ht : typeOf v ≠ .prim p) :
    Declines W C Γ v (.prim p) (mkExc .tlValue (.wrongType v (.prim p)) v (.prim p)) := by
  refine .of_step (pick_basic hd hp hn) ⟨0, fun _ _ => ?_⟩
  simp [Ref.step, ofL, basicload, ht, hb]

theorem Declines.none {v : Val} (hv : v ≠ .none) : Declines W C Γ v (.prim .none) (mkExc .tlValue .notNone v (.prim .none)) := by
  refine .of_step (pick_none hd) ⟨0, fun _ _ => ?_⟩
  simp [Ref.step, ofL, noneload, hv]
end rules

end TL
