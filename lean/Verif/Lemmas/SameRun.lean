import Verif.Props.UnionFresh
/-!
# The reference loader depends only on the forward references that are used
-/

namespace TL

set_option linter.unusedSectionVars false

variable {W : World} {C : Config} {Γ Γ' : Env} {t0 : Ty}

section handlers
variable {rec rec' : Ref.Rec} (hrec : ∀ h v t, Installed C h → Uses W Γ t0 t → rec h v t = rec' h v t)
include hrec

theorem SameNames.resolve {α : Type} {t : Ty} {e : Exc} {f f' : Handler → R α} (hf : ∀ h, Installed C h → f h = f' h) :
    (Ref.resolve W C t e >>= f) = (Ref.resolve W C t e >>= f') := by
  funext s
  unfold Ref.resolve
  simp only [M.bind_apply]
  cases hp : pick W C t with
  | ok h => simp only [M.pure_apply]; rw [hf h (pick_installed hp)]
  | error c => rfl

theorem SameNames.loadWith (v : Val) (t : Ty) (a : Option Annotation) (hg : Uses W Γ t0 t) :
    Ref.loadWith W C rec v t a = Ref.loadWith W C rec' v t a := by
  unfold Ref.loadWith
  exact SameNames.resolve hrec (fun h hin => by rw [hrec h v t hin hg])

theorem SameNames.iterElems (h : Handler) (hin : Installed C h) (k : SeqKind) (et : Ty) (v : Val) (t : Ty) (hg : Uses W Γ t0 et) (xs : List Val) : ∀ i acc,
    Ref.iterElems W C rec h k et v t xs i acc = Ref.iterElems W C rec' h k et v t xs i acc := by
  have h1 : ∀ x, Ref.iterElem C rec h et x = Ref.iterElem C rec' h et x := by
    intro x; unfold Ref.iterElem; rw [hrec h x et hin hg]
  induction xs with
  | nil => intro i acc; rfl
  | cons x xs ih =>
    intro i acc
    unfold Ref.iterElems
    rw [h1]
    congr 1
    funext y
    cases collAdd W k acc y with
    | error c => rfl
    | ok acc' => exact ih _ _

theorem SameNames.iterload (k : SeqKind) (v : Val) (t : Ty) (hg : Uses W Γ t0 t) : Ref.iterload W C rec k v t = Ref.iterload W C rec' k v t := by
  unfold Ref.iterload
  split
  · rfl
  · cases t <;> try rfl
    dsimp only
    refine SameNames.resolve hrec (fun h hin => ?_)
    cases pyIter v with
    | none => rfl
    | some xs => dsimp only; rw [SameNames.iterElems hrec h hin _ _ _ _ hg.coll]

theorem SameNames.tupElems (v : Val) (t : Ty) (xs : List Val) : ∀ us i, (∀ u ∈ us, Uses W Γ t0 u) →
    Ref.tupElems W C rec v t xs us i = Ref.tupElems W C rec' v t xs us i := by
  induction xs with
  | nil => intro us i _; unfold Ref.tupElems; rfl
  | cons x xs ih =>
    intro us i hg
    cases us with
    | nil => unfold Ref.tupElems; rfl
    | cons u us =>
      unfold Ref.tupElems
      rw [ih _ _ (fun w hw => hg w (by simp [hw]))]
      congr 2
      cases hp : pick W C u with
      | error c => rfl
      | ok h => dsimp only; rw [hrec _ _ _ (pick_installed hp) (hg u (by simp))]

theorem SameNames.tupleload (v : Val) (t : Ty) (hg : Uses W Γ t0 t) : Ref.tupleload W C rec v t = Ref.tupleload W C rec' v t := by
  cases t
  case coll k t =>
    cases k
    case tuple => exact SameNames.iterload hrec _ _ _ hg
    all_goals rfl
  case tuple ts =>
    unfold Ref.tupleload
    have := fun xs => SameNames.tupElems hrec v (.tuple ts) xs ts 0 (fun u hu => hg.tuple hu)
    simp only [this]
  all_goals rfl

theorem SameNames.pairs (kt vt : Ty) (hk : Uses W Γ t0 kt) (hv : Uses W Γ t0 vt) (kvs : List (Val × Val)) : ∀ acc,
    Ref.pairs W C rec kt vt kvs acc = Ref.pairs W C rec' kt vt kvs acc := by
  induction kvs with
  | nil => intro acc; rfl
  | cons p kvs ih =>
    intro acc; obtain ⟨k, x⟩ := p
    unfold Ref.pairs Ref.part
    rw [SameNames.loadWith hrec _ _ _ hk, SameNames.loadWith hrec _ _ _ hv]
    simp only [ih]

theorem SameNames.dictload (v : Val) (t : Ty) (hg : Uses W Γ t0 t) : Ref.dictload W C rec v t = Ref.dictload W C rec' v t := by
  cases t <;> try rfl
  unfold Ref.dictload
  have := fun kvs => SameNames.pairs hrec _ _ hg.dictKey hg.dictVal kvs []
  simp only [this]

theorem SameNames.objFields (info : ObjInfo) (v : Val) (t : Ty) (hi : ∀ n ft, aget info.hints n = some ft → Uses W Γ t0 ft) (kvs : List (Val × Val)) : ∀ acc,
    Ref.objFields W C rec info v t kvs acc = Ref.objFields W C rec' info v t kvs acc := by
  induction kvs with
  | nil => intro acc; rfl
  | cons p kvs ih =>
    intro acc; obtain ⟨k, x⟩ := p; unfold Ref.objFields
    cases k
    case str n =>
      dsimp only
      split
      · cases hh : aget info.hints n with
        | none => rfl
        | some ft =>
          dsimp only
          refine SameNames.resolve hrec (fun h hin => ?_)
          rw [hrec _ _ _ hin (hi _ _ hh)]
          simp only [ih]
      · exact ih _
    all_goals exact ih _

theorem SameNames.objloader (info : ObjInfo) (v : Val) (c : Nat) (hi : ∀ n ft, aget info.hints n = some ft → Uses W Γ t0 ft) :
    Ref.objloader W C rec info v c = Ref.objloader W C rec' info v c := by
  unfold Ref.objloader
  have := fun v t kvs => SameNames.objFields hrec info v t hi kvs []
  simp only [this]

theorem SameNames.objMangled (info : ObjInfo) (v : Val) (c : Nat) (hi : ∀ n ft, aget info.hints n = some ft → Uses W Γ t0 ft) :
    Ref.objMangled W C rec info v c = Ref.objMangled W C rec' info v c := by
  unfold Ref.objMangled
  have := fun v => SameNames.objloader hrec info v c hi
  simp only [this]

theorem SameNames.unionTry (v : Val) (t : Ty) (us : List Ty) (hg : ∀ u ∈ us, Uses W Γ t0 u) : ∀ c r es,
    Ref.unionTry W C rec v t us c r es = Ref.unionTry W C rec' v t us c r es := by
  induction us with
  | nil => intros; rfl
  | cons u us ih =>
    intro c r es
    unfold Ref.unionTry
    rw [SameNames.resolve hrec (fun h hin => hrec h v u hin (hg u (by simp)))]
    simp only [ih (fun w hw => hg w (by simp [hw]))]

theorem SameNames.enumHints (v : Val) (e : Nat) (us : List Ty) (hg : ∀ u ∈ us, Uses W Γ t0 u) : ∀ es,
    Ref.enumHints W C rec v e us es = Ref.enumHints W C rec' v e us es := by
  induction us with
  | nil => intros; rfl
  | cons u us ih =>
    intro es
    unfold Ref.enumHints
    rw [SameNames.loadWith hrec _ _ _ (hg u (by simp))]
    simp only [ih (fun w hw => hg w (by simp [hw]))]

theorem SameNames.unionload (v : Val) (t : Ty) (hg : Uses W Γ t0 t) : Ref.unionload W C rec v t = Ref.unionload W C rec' v t := by
  cases t <;> try rfl
  rename_i ts
  unfold Ref.unionload
  dsimp only
  split
  · rfl
  funext s
  simp only [M.bind_apply]
  cases ho : Ref.unionOrder W C v ts s with
  | ok order s1 =>
    dsimp only
    have hsub : ∀ u ∈ order, u ∈ ts := fun u hu => (refOrder_mem ho u).1 hu
    rw [SameNames.unionTry hrec _ _ _ (fun u hu => hg.union (hsub u hu))]
  | err e s1 => rfl
  | div => rfl

theorem SameNames.step (hd : C.Default) (hn : SameNames W Γ Γ' t0) (h : Handler) (hin : Installed C h) (v : Val) (t : Ty) (hg : Uses W Γ t0 t) :
    Ref.step W C Γ rec h v t = Ref.step W C Γ' rec' h v t := by
  unfold Ref.step
  cases h <;> dsimp only
  case unionload => exact SameNames.unionload hrec _ _ hg
  case custom i => exact absurd hin (not_installed hd i)
  case enumload =>
    cases t <;> try rfl
    unfold Ref.enumload
    dsimp only
    rw [SameNames.enumHints hrec _ _ _ (fun u hu => hg.enum hu)]
  case tupleload => exact SameNames.tupleload hrec _ _ hg
  case listload => exact SameNames.iterload hrec _ _ _ hg
  case setload => exact SameNames.iterload hrec _ _ _ hg
  case frozensetload => exact SameNames.iterload hrec _ _ _ hg
  case dictload => exact SameNames.dictload hrec _ _ hg
  case forwardrefload =>
    cases t <;> try rfl
    rename_i n
    unfold Ref.forwardrefload
    cases hΓ : Γ with
    | none => rw [hn.1.1 hΓ]
    | some f =>
      cases hΓ' : Γ' with
      | none => rw [hn.1.2 hΓ'] at hΓ; cases hΓ
      | some f' =>
        dsimp only
        rw [← hn.2 f f' hΓ hΓ' n hg]
        cases hf : f n with
        | none => rfl
        | some u => exact SameNames.loadWith hrec _ _ _ (.fref f hg hΓ hf)
  case newtypeload =>
    cases t <;> try rfl
    exact SameNames.loadWith hrec _ _ _ hg.newtype
  case namedtupleload =>
    cases t <;> try rfl
    rename_i c
    unfold Ref.namedtupleload
    dsimp only
    split
    · rename_i hk
      refine SameNames.objloader hrec _ _ _ (fun n ft h => ?_)
      obtain ⟨f, hf, _, hty⟩ := (infoFor_namedtuple (C := C) hk).hints n ft h
      exact hg.field hf hty
    · rfl
  case dataclassload =>
    cases t <;> try rfl
    rename_i c
    unfold Ref.dataclassload
    dsimp only
    split
    · rename_i hk
      refine SameNames.objMangled hrec _ _ _ (fun n ft h => ?_)
      obtain ⟨f, hf, _, hty⟩ := (infoFor_dataclass (C := C) hk).hints n ft h
      exact hg.field hf hty
    · rfl
  case typeddictload =>
    cases t <;> try rfl
    rename_i c
    unfold Ref.typeddictload
    dsimp only
    split
    · rename_i hk
      refine SameNames.objloader hrec _ _ _ (fun n ft h => ?_)
      obtain ⟨f, hf, _, hty⟩ := (infoFor_typeddict (C := C) hk false).hints n ft h
      exact hg.field hf hty
    · rfl
  case attrload =>
    cases t <;> try rfl
    rename_i c
    unfold Ref.attrload
    dsimp only
    split
    · rename_i hk
      cases hh : attrHints (W.cls c).fields with
      | error e => rfl
      | ok hints =>
        refine SameNames.objMangled hrec _ _ _ (fun n ft h => ?_)
        obtain ⟨f, hf, _, hty⟩ := (infoFor_attrs (C := C) hk hh).hints n ft h
        exact hg.field hf hty
    · rfl
end handlers

/-- The reference loader is the same when the forward references that are used mean the same. -/
theorem SameNames.run (hd : C.Default) (hn : SameNames W Γ Γ' t0) :
    ∀ n h v t, Installed C h → Uses W Γ t0 t → Ref.run W C Γ n h v t = Ref.run W C Γ' n h v t
  | 0, _, _, _, _, _ => rfl
  | n + 1, h, v, t, hin, hg => SameNames.step (SameNames.run hd hn n) hd hn h hin v t hg

end TL
