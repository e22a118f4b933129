import Verif.Lemmas.Basic
/-!
# More fuel never changes an outcome
-/

namespace TL

variable {σ ε α β : Type}

/-- Where `m` does not diverge, `m'` does the same. -/
def LeM (m m' : M σ ε α) : Prop := ∀ s, m s ≠ .div → m' s = m s

theorem LeM.refl (m : M σ ε α) : LeM m m := fun _ _ => rfl
theorem LeM.trans {a b c : M σ ε α} (h1 : LeM a b) (h2 : LeM b c) : LeM a c := fun s hs => by
  have := h1 s hs; rw [h2 s (by rwa [this]), this]
theorem LeM.bind {m m' : M σ ε α} {f f' : α → M σ ε β} (hm : LeM m m') (hf : ∀ a, LeM (f a) (f' a)) :
    LeM (m >>= f) (m' >>= f') := by
  intro s hs
  simp only [M.bind_apply] at hs ⊢
  cases h : m s with
  | div => simp [h] at hs
  | ok a s' => rw [hm s (by simp [h]), h]; rw [h] at hs; exact hf a s' hs
  | err e s' => rw [hm s (by simp [h]), h]
theorem LeM.rescue {m m' : M σ ε α} {f f' : ε → M σ ε α} (hm : LeM m m') (hf : ∀ a, LeM (f a) (f' a)) :
    LeM (M.rescue m f) (M.rescue m' f') := by
  intro s hs
  simp only [M.catch_apply] at hs ⊢
  cases h : m s with
  | div => simp [h] at hs
  | ok a s' => rw [hm s (by simp [h]), h]
  | err e s' => rw [hm s (by simp [h]), h]; rw [h] at hs; exact hf e s' hs
theorem LeM.handle {m m' : M σ ε α} {f f' : α → M σ ε β} {g g' : ε → M σ ε β} (hm : LeM m m')
    (hf : ∀ a, LeM (f a) (f' a)) (hg : ∀ a, LeM (g a) (g' a)) : LeM (M.handle m f g) (M.handle m' f' g') := by
  intro s hs
  simp only [M.handle_apply] at hs ⊢
  cases h : m s with
  | div => simp [h] at hs
  | ok a s' => rw [hm s (by simp [h]), h]; rw [h] at hs; exact hf a s' hs
  | err e s' => rw [hm s (by simp [h]), h]; rw [h] at hs; exact hg e s' hs

theorem LeM.script {call call' : Val → Ty → Option Annotation → M σ Exc Val} (h : ∀ v t a, LeM (call v t a) (call' v t a)) (p : Script) :
    LeM (p.run call) (p.run call') := by
  induction p with
  | ret v => exact LeM.refl _
  | raise e => exact LeM.refl _
  | call v t a next ih => exact LeM.handle (h v t a) (fun r => ih (.ok r)) (fun e => ih (.error e))

variable {W : World} {C : Config}

/-- One step of the syntax-directed proof of `LeM`. -/
macro "le1" : tactic => `(tactic| first
  | exact LeM.refl _ | assumption
  | refine LeM.bind ?_ (fun _ => ?_) | refine LeM.rescue ?_ (fun _ => ?_)
  | refine LeM.handle ?_ (fun _ => ?_) (fun _ => ?_) | split)

section handlers
variable {rec rec' : Rec} (hrec : ∀ h v t, LeM (rec h v t) (rec' h v t))
include hrec

theorem LeM.loadWith (v : Val) (t : Ty) (a : Option Annotation) :
    LeM (loadWith W C rec v t a) (loadWith W C rec' v t a) := by
  unfold TL.loadWith; repeat' (first | exact hrec _ _ _ | le1)

theorem LeM.iterElem (h : Handler) (et : Ty) (x : Val) : LeM (iterElem C rec h et x) (iterElem C rec' h et x) := by
  unfold TL.iterElem; repeat' (first | exact hrec _ _ _ | le1)

theorem LeM.iterElems (h : Handler) (k : SeqKind) (et : Ty) (v : Val) (t : Ty) (xs : List Val) :
    ∀ i acc, LeM (iterElems W C rec h k et v t xs i acc) (iterElems W C rec' h k et v t xs i acc) := by
  induction xs with
  | nil => intro i acc; exact LeM.refl _
  | cons x xs ih =>
    intro i acc; unfold TL.iterElems
    repeat' (first | exact LeM.iterElem hrec _ _ _ | exact ih _ _ | le1)

theorem LeM.iterload (k : SeqKind) (v : Val) (t : Ty) : LeM (iterload W C rec k v t) (iterload W C rec' k v t) := by
  unfold TL.iterload
  repeat' (first | exact LeM.iterElems hrec _ _ _ _ _ _ _ _ | le1)

theorem LeM.tupElems (v : Val) (t : Ty) (xs : List Val) :
    ∀ us i, LeM (tupElems W C rec v t xs us i) (tupElems W C rec' v t xs us i) := by
  induction xs with
  | nil => intro us i; unfold TL.tupElems; exact LeM.refl _
  | cons x xs ih =>
    intro us i
    cases us with
    | nil => unfold TL.tupElems; exact LeM.refl _
    | cons u us => unfold TL.tupElems; repeat' (first | exact hrec _ _ _ | exact ih _ _ | le1)

theorem LeM.tupleload (v : Val) (t : Ty) : LeM (tupleload W C rec v t) (tupleload W C rec' v t) := by
  unfold TL.tupleload
  repeat' (first | exact LeM.iterload hrec _ _ _ | exact LeM.tupElems hrec _ _ _ _ _ | le1)

theorem LeM.dictFast (kt vt : Ty) (kf : Handler) (vf : Option Handler) (kvs : List (Val × Val)) :
    ∀ acc, LeM (dictFast W C rec kt vt kf vf kvs acc) (dictFast W C rec' kt vt kf vf kvs acc) := by
  induction kvs with
  | nil => intro acc; exact LeM.refl _
  | cons p kvs ih =>
    intro acc; obtain ⟨k, x⟩ := p; unfold TL.dictFast
    repeat' (first | exact hrec _ _ _ | exact ih _ | le1)

theorem LeM.dictSlow (kt vt : Ty) (kvs : List (Val × Val)) :
    ∀ acc, LeM (dictSlow W C rec kt vt kvs acc) (dictSlow W C rec' kt vt kvs acc) := by
  induction kvs with
  | nil => intro acc; exact LeM.refl _
  | cons p kvs ih =>
    intro acc; obtain ⟨k, x⟩ := p; unfold TL.dictSlow
    repeat' (first | exact LeM.loadWith hrec _ _ _ | exact ih _ | le1)

theorem LeM.dictload (v : Val) (t : Ty) : LeM (dictload W C rec v t) (dictload W C rec' v t) := by
  unfold TL.dictload
  repeat' (first | exact LeM.dictFast hrec _ _ _ _ _ _ | exact LeM.dictSlow hrec _ _ _ _ | le1)

theorem LeM.objFields (info : ObjInfo) (v : Val) (t : Ty) (kvs : List (Val × Val)) :
    ∀ acc, LeM (objFields W C rec info v t kvs acc) (objFields W C rec' info v t kvs acc) := by
  induction kvs with
  | nil => intro acc; exact LeM.refl _
  | cons p kvs ih =>
    intro acc; obtain ⟨k, x⟩ := p; unfold TL.objFields
    repeat' (first | exact hrec _ _ _ | exact ih _ | le1)

theorem LeM.objloader (info : ObjInfo) (v : Val) (c : Nat) :
    LeM (objloader W C rec info v c) (objloader W C rec' info v c) := by
  unfold TL.objloader
  repeat' (first | exact LeM.objFields hrec _ _ _ _ _ | le1)

theorem LeM.unionTry (v : Val) (t : Ty) (us : List Ty) :
    ∀ c r es, LeM (unionTry W C rec v t us c r es) (unionTry W C rec' v t us c r es) := by
  induction us with
  | nil => intro c r es; exact LeM.refl _
  | cons u us ih =>
    intro c r es; unfold TL.unionTry
    repeat' (first | exact hrec _ _ _ | exact ih _ _ _ | le1)

theorem LeM.enumHints (v : Val) (e : Nat) (us : List Ty) :
    ∀ es, LeM (enumHints W C rec v e us es) (enumHints W C rec' v e us es) := by
  induction us with
  | nil => intro es; exact LeM.refl _
  | cons u us ih =>
    intro es; unfold TL.enumHints
    repeat' (first | exact LeM.loadWith hrec _ _ _ | exact ih _ | le1)

theorem LeM.step (h : Handler) (v : Val) (t : Ty) : LeM (step W C rec h v t) (step W C rec' h v t) := by
  unfold TL.step
  cases h <;> dsimp only
  case unionload => unfold unionload; repeat' (first | exact LeM.unionTry hrec _ _ _ _ _ _ | le1)
  case enumload => unfold enumload; repeat' (first | exact LeM.enumHints hrec _ _ _ _ | le1)
  case tupleload => exact LeM.tupleload hrec _ _
  case listload => exact LeM.iterload hrec _ _ _
  case dictload => exact LeM.dictload hrec _ _
  case setload => exact LeM.iterload hrec _ _ _
  case frozensetload => exact LeM.iterload hrec _ _ _
  case namedtupleload => unfold namedtupleload; repeat' (first | exact LeM.objloader hrec _ _ _ | le1)
  case dataclassload => unfold dataclassload; repeat' (first | exact LeM.objloader hrec _ _ _ | le1)
  case attrload => unfold attrload; repeat' (first | exact LeM.objloader hrec _ _ _ | le1)
  case typeddictload => unfold typeddictload; repeat' (first | exact LeM.objloader hrec _ _ _ | le1)
  case forwardrefload => unfold forwardrefload; repeat' (first | exact LeM.loadWith hrec _ _ _ | le1)
  case newtypeload => unfold newtypeload; repeat' (first | exact LeM.loadWith hrec _ _ _ | le1)
  case custom i => exact LeM.script (LeM.loadWith hrec) _
  all_goals exact LeM.refl _
end handlers

theorem run_succ_le (n : Nat) : ∀ h v t, LeM (run W C n h v t) (run W C (n + 1) h v t) := by
  induction n with
  | zero => intro h v t s hs; exact absurd rfl hs
  | succ n ih => intro h v t; exact LeM.step ih h v t

theorem run_le {n m : Nat} (hnm : n ≤ m) (h v t) : LeM (run W C n h v t) (run W C m h v t) := by
  induction hnm with
  | refl => exact LeM.refl _
  | step _ ih => exact ih.trans (run_succ_le _ h v t)

theorem loadWith_le {n m : Nat} (hnm : n ≤ m) (v t a) :
    LeM (loadWith W C (run W C n) v t a) (loadWith W C (run W C m) v t a) := LeM.loadWith (run_le hnm) v t a

theorem load_le {n m : Nat} (hnm : n ≤ m) (v t) : LeM (load W C n v t) (load W C m v t) := loadWith_le hnm v t none

/-- The outcome of a load does not depend on the fuel, once there is enough of it. -/
theorem load_det {n m : Nat} {v : Val} {t : Ty} {s : LState} (hn : load W C n v t s ≠ .div)
    (hm : load W C m v t s ≠ .div) : load W C n v t s = load W C m v t s := by
  rcases Nat.le_total n m with h | h
  · exact (load_le h v t s hn).symm
  · exact load_le h v t s hm

end TL
