import Verif.Spec.Reference
import Verif.Props.Errors
/-!
# A Loader object computes the reference loader

`Sim` relates the calls of a loader, from any state that knows the same forward references, to the calls of the reference loader.
-/

namespace TL

set_option linter.unusedSectionVars false

variable {W : World} {C : Config} {Γ : Env} {G : Ty → Prop} {P : Val → Ty → Prop}

/-- The loader's caches are right and its forward references are those of `Γ`, as far as references of `G` are concerned. -/
structure Knows (W : World) (C : Config) (Γ : Env) (G : Ty → Prop) (s : LState) : Prop where
  coh : Coh W C s
  off : Γ = none → s.frefs = none
  names : ∀ f, Γ = some f → ∃ fr, s.frefs = some fr ∧ ∀ n, G (.fref n) → aget fr n = f n

/-- The data key `m` provides the field `f` of the class: it is its name, or the name given by the metadata (of a field of that name). -/
inductive KeyOf (C : Config) (c : ClassDef) (f : Field) : String → Prop
  | name : KeyOf C c f f.name
  | renamed {m} (g : Field) : g ∈ c.fields → g.name = f.name → renamed C c.kind g = some m → KeyOf C c f m

/-- Types whose loading does not depend on the history of the loader; `G` are the types met, and `P v t` says that the data `v` is
loaded into `t` on the way. -/
structure Tame (W : World) (C : Config) (Γ : Env) (G : Ty → Prop) (P : Val → Ty → Prop) : Prop where
  type : ∀ v t, P v t → G t
  coll : ∀ v xs k t, P v (.coll k t) → v.isDict = false → pyIter v = some xs → ∀ x ∈ xs, P x t
  tuple : ∀ v xs ts, P v (.tuple ts) → v.isDict = false → pyIter v = some xs → ∀ x t, (x, t) ∈ xs.zip ts → P x t
  dict : ∀ v kvs k w, P v (.dict k w) → DictData C v kvs → ∀ p ∈ kvs, P p.1 k ∧ P p.2 w
  union : ∀ v ts, P v (.union ts) → ∀ t ∈ ts, P v t
  newtype : ∀ v n t, P v (.newtype n t) → P v t
  enum : ∀ v e, P v (.enum e) → ∀ t ∈ (W.enm e).hints, P v t
  field : ∀ v kvs c, P v (.obj c) → DictData C v kvs → ∀ f ∈ (W.cls c).fields, ∀ m x, KeyOf C (W.cls c) f m → (.str m, x) ∈ kvs →
    ∀ t, FieldTy (W.cls c).kind f t → P x t
  fref : ∀ v f n t, Γ = some f → P v (.fref n) → f n = some t → P v t
  unnamed : ∀ f n, Γ = some f → G (.fref n) → f n = none → ∀ t, G t → W.tyName t ≠ some n
  dictSafe : ∀ k v, G (.dict k v) → DictSafe C k v
  dictColl : ∀ k v, G (.dict k v) → k = v ∨ (∀ a u, k ≠ .coll a u) ∨ (∀ a u, v ≠ .coll a u) ∧ ∀ g, v ≠ .bare g
  dictExact : ∀ d k v kvs, P d (.dict k v) → DictData C d kvs → ∀ p ∈ kvs, (BasicInstance C k p.1 → typeOf p.1 = k) ∧
    (BasicInstance C v p.2 → typeOf p.2 = v)
  dictUsual : ∀ k v, G (.dict k v) → C.Usual W k ∧ C.Usual W v
  asks : ∀ i v t x u, P v t → pick W C t = .ok (.custom i) → (W.customLoad i v t).Asks x u → P x u
  notRequired : W.NotRequiredLaw
  steadyTags : W.SteadyTags

/-- The handler can be called for the type `t`: it is installed and, if it is one of the user's, it is the one selected for `t`. -/
def Apt (W : World) (C : Config) (h : Handler) (t : Ty) : Prop := Installed C h ∧ ∀ i, h = .custom i → pick W C t = .ok h

theorem pick_apt {t : Ty} {h : Handler} (hp : pick W C t = .ok h) : Apt W C h t := ⟨pick_installed hp, fun _ _ => hp⟩

theorem apt_other {t u : Ty} {h : Handler} (hp : pick W C t = .ok h) (hd : Picked W C t h) : Apt W C h u :=
  ⟨pick_installed hp, fun _ e => absurd (e ▸ hd) Picked.not_custom⟩

/-- The default handler, when the user changed nothing for the type. -/
theorem Config.Usual.picked {t : Ty} (hu : C.Usual W t) {h : Handler} (hp : pick W C t = .ok h) : Picked W C t h := by
  have : pick W C.stock t = .ok h := by rw [← hp]; exact hu.symm
  cases TL.picked (C := C.stock) rfl this with
  | basic h1 h2 => exact .basic h1 h2
  | strcons h1 => exact .strcons h1
  | bare h1 => exact .bare h1
  | _ => constructor

/-- The relation between loader states and the absent state of the reference. -/
abbrev KR (W : World) (C : Config) (Γ : Env) (G : Ty → Prop) : LState → Unit → Prop := fun s _ => Knows W C Γ G s

theorem Knows.same {s s' : LState} (h : Knows W C Γ G s) (hc : Coh W C s') (hf : s'.frefs = s.frefs) : Knows W C Γ G s' :=
  ⟨hc, fun e => by rw [hf]; exact h.off e, fun f e => by rw [hf]; exact h.names f e⟩

theorem Knows.cacheIdx {s : LState} (h : Knows W C Γ G s) {t : Ty} {hd : Handler} (hp : pick W C t = .ok hd) :
    Knows W C Γ G (cacheIdx t hd s) :=
  h.same (h.coh.ext (cacheIdx_ext hp)) (cacheIdx_frefs _ _ _)

theorem registerName_cases (t : Ty) (s : LState) : registerName W t s = s ∨ ∃ fr n, s.frefs = some fr ∧ W.tyName t = some n ∧
    aget fr n = none ∧ registerName W t s = { s with frefs := some (aset fr n t) } := by
  unfold registerName
  split
  · exact Or.inl rfl
  · rename_i fr hfr
    split
    · exact Or.inl rfl
    · rename_i n hn
      split
      · exact Or.inl rfl
      · rename_i hno; exact Or.inr ⟨fr, n, hfr, hn, hno, rfl⟩

theorem Knows.cacheReg (ht : Tame W C Γ G P) {s : LState} (h : Knows W C Γ G s) {t : Ty} (hg : G t) {hd : Handler} (hp : pick W C t = .ok hd) :
    Knows W C Γ G (cacheReg W t hd s) := by
  refine ⟨h.coh.ext (cacheReg_ext hp), fun e => (cacheReg_ext (s := s) hp).frefs_none.1 (h.off e), fun f e => ?_⟩
  obtain ⟨fr, h1, h2⟩ := h.names f e
  unfold TL.cacheReg
  split
  · exact ⟨fr, h1, h2⟩
  · rcases registerName_cases (W := W) t { s with idx := aset s.idx t hd } with hr | ⟨fr', n, h3, h4, h5, hr⟩
    · rw [hr]; exact ⟨fr, h1, h2⟩
    · rw [hr]
      have h3' : s.frefs = some fr' := h3
      rw [h1] at h3'; cases h3'
      refine ⟨aset fr n t, rfl, fun m hm => ?_⟩
      rw [aget_aset]
      split
      · rename_i hmn; subst hmn
        exact absurd h4 (ht.unnamed f _ e hm (by rw [← h2 _ hm]; exact h5) t hg)
      · exact h2 m hm

/-! ## Primitives -/

theorem Sim.ite {σ σ' ε α : Type} {R : σ → σ' → Prop} {c : Prop} [Decidable c] {a b : M σ ε α} {a' b' : M σ' ε α} (h1 : c → Sim R a a')
    (h2 : ¬ c → Sim R b b') : Sim R (if c then a else b) (if c then a' else b') := by
  by_cases h : c
  · simp only [if_pos h]; exact h1 h
  · simp only [if_neg h]; exact h2 h


theorem KR.resolve (t : Ty) (e : Exc) : Sim (KR W C Γ G) (resolve W C t e) (Ref.resolve W C t e) := by
  intro s _ h
  rw [resolve_eq h.coh]
  unfold Ref.resolve
  cases hp : pick W C t with
  | ok hd => exact ⟨rfl, h.cacheIdx hp⟩
  | error c => exact ⟨rfl, h⟩

/-- A handler that was found is installed. -/
theorem KR.resolveBind {α : Type} {t : Ty} {e : Exc} {f : Handler → L α} {f' : Handler → R α}
    (hf : ∀ h, Apt W C h t → Sim (KR W C Γ G) (f h) (f' h)) :
    Sim (KR W C Γ G) (TL.resolve W C t e >>= f) (Ref.resolve W C t e >>= f') := by
  intro s u h
  simp only [M.bind_apply]
  rw [resolve_eq h.coh]
  unfold Ref.resolve
  cases hp : pick W C t with
  | ok hd => exact hf hd (pick_apt hp) _ u (h.cacheIdx hp)
  | error c => exact ⟨rfl, h⟩

theorem KR.leaf {α : Type} {m : L α} (x : Except Exc α) (hx : m = M.lift x) : Sim (KR W C Γ G) m (fun _ => match m {} with
    | .ok a _ => .ok a ()
    | .err e _ => .err e ()
    | .div => .div) := by
  subst hx
  intro s _ h
  cases x with
  | ok a => exact ⟨rfl, h⟩
  | error e => exact ⟨rfl, h⟩

theorem KR.ofL {m : L Val} (x : Except Exc Val) (hx : m = M.lift x) : Sim (KR W C Γ G) m (ofL m) := KR.leaf x hx

theorem KR.dataclassCached (c : Nat) {f : ObjInfo → L Val} {g : R Val} (hf : Sim (KR W C Γ G) (f (dataclassInfo C (W.cls c))) g) :
    Sim (KR W C Γ G) (TL.dataclassCached W C c >>= f) g := by
  intro s u h
  have key : ∃ s', TL.dataclassCached W C c s = .ok (dataclassInfo C (W.cls c)) s' ∧ Knows W C Γ G s' := by
    unfold TL.dataclassCached
    simp only [M.bind_apply, M.get_apply]
    cases hn : aget s.objc c with
    | some i => rw [h.coh.objc c i hn]; exact ⟨s, rfl, h⟩
    | none => exact ⟨_, rfl, h.same (h.coh.ext (Ext.objc hn)) rfl⟩
  obtain ⟨s', h1, h2⟩ := key
  simp only [M.bind_apply, h1]
  exact hf s' u h2

theorem KR.discCached (hw : W.SteadyTags) (ts : List Ty) {f : Disc → L (List Ty)} {g : R (List Ty)} (hf : Sim (KR W C Γ G) (f (mkDisc W [] ts)) g) :
    Sim (KR W C Γ G) (TL.discCached W ts >>= f) g := by
  intro s u h
  have key : ∃ s', TL.discCached W ts s = .ok (mkDisc W [] ts) s' ∧ Knows W C Γ G s' := by
    unfold TL.discCached
    simp only [M.bind_apply, M.get_apply]
    cases hn : aget s.disc (.union (W.unionKey ts)) with
    | some d =>
      obtain ⟨ts', rew, h1, h2, _⟩ := h.coh.disc _ d hn
      rw [h2, mkDisc_rew hw.noHidden rew [], ← mkDisc_spelling hw.oneSpelling (by injection h1)]
      exact ⟨s, rfl, h⟩
    | none =>
      refine ⟨_, ?_, h.same (h.coh.ext (Ext.disc hn)) rfl⟩
      simp only [M.bind_apply, M.modify_apply, M.pure_apply, mkDisc_rew hw.noHidden s.tdRew []]
  obtain ⟨s', h1, h2⟩ := key
  simp only [M.bind_apply, h1]
  exact hf s' u h2

theorem KR.tupHandler (t : Ty) : Sim (KR W C Γ G) (TL.tupHandler W C t) (match pick W C t with
    | .error c => M.throw (.plain c)
    | .ok h => Pure.pure h) := by
  intro s u h
  unfold TL.tupHandler
  simp only [M.bind_apply, M.get_apply]
  cases hn : aget s.idx t with
  | some hd => rw [h.coh.idx t hd hn]; exact ⟨rfl, h⟩
  | none => cases pick W C t <;> exact ⟨rfl, h⟩

theorem KR.unionOrder (hw : W.SteadyTags) (v : Val) (ts : List Ty) :
    Sim (KR W C Γ G) (TL.unionOrder W C v ts) (Ref.unionOrder W C v ts) := by
  cases v
  case dict kvs =>
    refine KR.discCached hw ts ?_
    show Sim _ _ (match mkDisc W [] ts with
      | none => Pure.pure (sortArgs C ts)
      | some (key, table) =>
        if table.isEmpty then Pure.pure (sortArgs C ts)
        else if W.hash ((dget kvs (.str key)).getD .none) then
          match dget table ((dget kvs (.str key)).getD .none) with
          | some p => Pure.pure (bump (sortArgs C ts) p)
          | none => Pure.pure (sortArgs C ts)
        else M.throw (Exc.plain .type))
    cases mkDisc W [] ts with
    | none => exact Sim.pure _
    | some q =>
      obtain ⟨key, table⟩ := q
      dsimp only
      cases table.isEmpty <;> cases W.hash ((dget kvs (.str key)).getD .none) <;> cases dget table ((dget kvs (.str key)).getD .none) <;>
        first | exact Sim.pure _ | exact Sim.throw _
  all_goals exact Sim.pure _

/-- One step of the syntax-directed proof. -/
macro "kr1" : tactic => `(tactic| first
  | exact Sim.pure _ | exact Sim.throw _ | exact KR.resolve _ _
  | assumption
  | refine Sim.bind ?_ (fun _ => ?_) | refine Sim.rescue ?_ (fun _ => ?_)
  | refine Sim.handle ?_ (fun _ => ?_) (fun _ => ?_) | refine Sim.ite (fun _ => ?_) (fun _ => ?_))

section handlers
variable {rec : Rec} {rec' : Ref.Rec} (ht : Tame W C Γ G P)
  (hrec : ∀ h v t, Apt W C h t → P v t → Sim (KR W C Γ G) (rec h v t) (rec' h v t))
include ht hrec

theorem KR.loadWith (v : Val) (t : Ty) (a : Option Annotation) (hv : P v t) :
    Sim (KR W C Γ G) (TL.loadWith W C rec v t a) (Ref.loadWith W C rec' v t a) := by
  unfold TL.loadWith Ref.loadWith
  intro s u h
  simp only [M.bind_apply]
  rw [loadResolve_eq h.coh]
  unfold Ref.resolve
  cases hp : pick W C t with
  | ok hd =>
    exact Sim.rescue (hrec hd v t (pick_apt hp) hv) (fun e => Sim.ite (fun _ => Sim.throw _) (fun _ => Sim.throw _)) _ u
      (h.cacheReg ht (ht.type _ _ hv) hp)
  | error c => exact ⟨rfl, h⟩

theorem KR.forwardrefload (v : Val) (t : Ty) (hv : P v t) :
    Sim (KR W C Γ G) (TL.forwardrefload W C rec v t) (Ref.forwardrefload W C Γ rec' v t) := by
  cases t
  case fref n =>
    unfold TL.forwardrefload Ref.forwardrefload
    intro s u h
    simp only [M.bind_apply, M.get_apply]
    cases hΓ : Γ with
    | none => rw [h.off hΓ]; rw [hΓ] at h; exact ⟨rfl, h⟩
    | some f =>
      obtain ⟨fr, h1, h2⟩ := h.names f hΓ
      rw [h1]; dsimp only
      rw [h2 n (ht.type _ _ hv)]
      cases hn : f n with
      | none => rw [hΓ] at h; exact ⟨rfl, h⟩
      | some t' => have := KR.loadWith ht hrec v t' (some (.forwardref n)) (ht.fref v f n t' hΓ hv hn) s u h; rw [hΓ] at this; exact this
  all_goals exact Sim.throw _

theorem KR.newtypeload (v : Val) (t : Ty) (hv : P v t) :
    Sim (KR W C Γ G) (TL.newtypeload W C rec v t) (Ref.newtypeload W C rec' v t) := by
  cases t
  case newtype n t => exact KR.loadWith ht hrec _ _ _ (ht.newtype _ _ _ hv)
  all_goals exact Sim.throw _

/-- Handlers of the user, which may call the loader back. -/
theorem KR.custom (p : Script) (hp : ∀ x u, p.Asks x u → P x u) :
    Sim (KR W C Γ G) (p.run (TL.loadWith W C rec)) (p.run (Ref.loadWith W C rec')) := by
  induction p with
  | ret v => exact Sim.pure _
  | raise e => exact Sim.throw _
  | call v t a next ih =>
    exact Sim.handle (KR.loadWith ht hrec v t a (hp _ _ .here)) (fun r => ih _ (fun x u h => hp x u (.later h)))
      (fun e => ih _ (fun x u h => hp x u (.later h)))

theorem KR.iterElem (h : Handler) (et : Ty) (hin : Apt W C h et) (x : Val) (hv : P x et) :
    Sim (KR W C Γ G) (TL.iterElem C rec h et x) (Ref.iterElem C rec' h et x) := by
  cases et <;> unfold TL.iterElem Ref.iterElem <;> repeat' (first | exact hrec _ _ _ hin hv | kr1)

theorem KR.iterElems (h : Handler) (k : SeqKind) (et : Ty) (hin : Apt W C h et) (v : Val) (t : Ty) (xs : List Val) :
    ∀ i acc, (∀ x ∈ xs, P x et) → Sim (KR W C Γ G) (TL.iterElems W C rec h k et v t xs i acc) (Ref.iterElems W C rec' h k et v t xs i acc) := by
  induction xs with
  | nil => intro i acc _; exact Sim.pure _
  | cons x xs ih =>
    intro i acc hx; unfold TL.iterElems Ref.iterElems
    refine Sim.handle (KR.iterElem ht hrec _ _ hin _ (hx _ (by simp))) (fun y => ?_) (fun e => Sim.ite (fun _ => Sim.pure _) (fun _ => Sim.throw _))
    cases collAdd W k acc y with
    | error c => exact Sim.throw _
    | ok acc' => exact ih _ _ (fun y hy => hx y (by simp [hy]))

theorem KR.iterload (k : SeqKind) (v : Val) (t : Ty) (hv : P v t) :
    Sim (KR W C Γ G) (TL.iterload W C rec k v t) (Ref.iterload W C rec' k v t) := by
  unfold TL.iterload Ref.iterload
  refine Sim.ite (fun _ => Sim.throw _) (fun hnd => ?_)
  cases t
  case coll k' et =>
      refine KR.resolveBind (fun h hin => ?_)
      cases hp : pyIter v with
      | none => exact Sim.throw _
      | some xs => exact Sim.bind (KR.iterElems ht hrec _ _ _ hin _ _ _ _ _ (ht.coll v xs _ _ hv (by simpa using hnd) hp)) (fun _ => Sim.pure _)
  all_goals exact Sim.throw _

theorem KR.tupElems (v : Val) (t : Ty) (xs : List Val) :
    ∀ us i, (∀ x u, (x, u) ∈ xs.zip us → P x u) → Sim (KR W C Γ G) (TL.tupElems W C rec v t xs us i) (Ref.tupElems W C rec' v t xs us i) := by
  induction xs with
  | nil => intro us i _; unfold TL.tupElems Ref.tupElems; exact Sim.pure _
  | cons x xs ih =>
    intro us i hx
    cases us with
    | nil => unfold TL.tupElems Ref.tupElems; exact Sim.pure _
    | cons u us =>
      unfold TL.tupElems Ref.tupElems
      refine Sim.bind (Sim.rescue ?_ (fun _ => Sim.throw _)) (fun _ => Sim.bind (ih _ _ (fun y w hy => hx y w (by simp [hy])))
        (fun _ => Sim.pure _))
      intro s a h
      have := KR.tupHandler u s a h
      simp only [M.bind_apply]
      cases hp : pick W C u with
      | error c =>
        rw [hp] at this
        cases h1 : TL.tupHandler W C u s <;> rw [h1] at this <;> first | exact this.elim | exact this
      | ok hd =>
        rw [hp] at this
        cases h1 : TL.tupHandler W C u s with
        | div => rw [h1] at this; exact this.elim
        | err e s' => rw [h1] at this; exact this.elim
        | ok hd' s' =>
          rw [h1] at this
          obtain ⟨rfl, h2⟩ := this
          exact Sim.ite (fun _ => Sim.pure _) (fun _ => hrec _ _ _ (pick_apt hp) (hx x u (by simp))) s' a h2

theorem KR.tupleload (v : Val) (t : Ty) (hv : P v t) :
    Sim (KR W C Γ G) (TL.tupleload W C rec v t) (Ref.tupleload W C rec' v t) := by
  cases t
  case coll k t =>
    cases k
    case tuple => exact KR.iterload ht hrec _ _ _ hv
    all_goals exact Sim.throw _
  case tuple ts =>
    unfold TL.tupleload Ref.tupleload
    refine Sim.ite (fun _ => Sim.throw _) (fun hnd => ?_)
    cases hp : pyIter v with
    | none => exact Sim.throw _
    | some xs =>
      refine Sim.ite (fun _ => Sim.throw _) (fun _ => Sim.ite (fun _ => Sim.throw _) (fun _ => ?_))
      exact Sim.bind (KR.tupElems ht hrec _ _ _ _ _ (ht.tuple v xs _ hv (by simpa using hnd) hp)) (fun _ => Sim.pure _)
  all_goals exact Sim.throw _

theorem KR.objFields (info : ObjInfo) (v : Val) (t : Ty) (kvs : List (Val × Val)) :
    ∀ acc, (∀ n x ft, (.str n, x) ∈ kvs → aget info.hints n = some ft → P x ft) → Sim (KR W C Γ G) (TL.objFields W C rec info v t kvs acc) (Ref.objFields W C rec' info v t kvs acc) := by
  induction kvs with
  | nil => intro acc _; exact Sim.pure _
  | cons p kvs ih =>
    intro acc hx; obtain ⟨k, x⟩ := p; unfold TL.objFields Ref.objFields
    have hx' : ∀ n x ft, (.str n, x) ∈ kvs → aget info.hints n = some ft → P x ft := fun n y ft hy => hx n y ft (by simp [hy])
    cases k
    case str n =>
      refine Sim.ite (fun _ => ?_) (fun _ => ih _ hx')
      cases hh : aget info.hints n with
      | none => exact Sim.throw _
      | some ft =>
        exact KR.resolveBind (fun h hin => Sim.bind (Sim.rescue (hrec _ _ _ hin (hx n x ft (by simp) hh))
          (fun e => Sim.ite (fun _ => Sim.throw _) (fun _ => Sim.throw _))) (fun y => ih _ hx'))
    all_goals exact ih _ hx'

theorem KR.objloader (info : ObjInfo) (v : Val) (c : Nat)
    (hv : ∀ v' kvs, objItems C v = some (v', kvs) → ∀ n x ft, (.str n, x) ∈ kvs → aget info.hints n = some ft → P x ft) :
    Sim (KR W C Γ G) (TL.objloader W C rec info v c) (Ref.objloader W C rec' info v c) := by
  unfold TL.objloader Ref.objloader
  cases ho : objItems C v with
  | none => exact Sim.throw _
  | some q =>
    obtain ⟨v', kvs⟩ := q
    refine Sim.ite (fun _ => Sim.throw _) (fun _ => Sim.ite (fun _ => Sim.ite (fun _ => Sim.throw _) (fun _ => Sim.throw _)) (fun _ => ?_))
    refine Sim.bind (KR.objFields ht hrec _ _ _ _ _ (hv v' kvs ho)) (fun ps => ?_)
    cases construct W c ps with
    | ok r => exact Sim.pure _
    | error e => exact Sim.ite (fun _ => Sim.throw _) (fun _ => Sim.ite (fun _ => Sim.throw _) (fun _ => Sim.throw _))

omit hrec in
theorem Tame.objItems {v v' : Val} {kvs : List (Val × Val)} {c : Nat} {info : ObjInfo} (hv : P v (.obj c)) (hi : InfoFor W C c info)
    (ho : objItems C v = some (v', kvs)) : ∀ n x ft, (.str n, x) ∈ kvs → aget info.hints n = some ft → P x ft := by
  intro n x ft hx hh
  obtain ⟨f, hf, rfl, hty⟩ := hi.hints n ft hh
  exact ht.field v kvs c hv ((objItems_iff v kvs).1 ⟨v', ho⟩) f hf _ x .name hx ft hty

omit hrec in
theorem mangleOrRaise_lift (tr : List (String × String)) (v : Val) (t : Ty) : ∃ x, mangleOrRaise C tr v t = M.lift x ∧
    ∀ v', x = .ok v' → mangle_names tr v C.failonextra = .ok v' := by
  unfold mangleOrRaise
  cases hm : mangle_names tr v C.failonextra with
  | ok v' => exact ⟨.ok v', rfl, fun _ h => by cases h; rfl⟩
  | error e =>
    dsimp only
    repeat' split
    all_goals exact ⟨.error _, rfl, fun _ h => by cases h⟩

theorem KR.objMangled (info : ObjInfo) (v : Val) (c : Nat) (hi : InfoFor W C c info) (hv : P v (.obj c)) :
    Sim (KR W C Γ G) (mangleOrRaise C info.transforms v (.obj c) >>= fun v' => TL.objloader W C rec info v' c)
      (Ref.objMangled W C rec' info v c) := by
  unfold Ref.objMangled
  obtain ⟨x, hx, hok⟩ := mangleOrRaise_lift (C := C) ht info.transforms v (.obj c)
  rw [hx]
  intro s u h
  cases x with
  | error e => exact ⟨rfl, h⟩
  | ok v' =>
    refine KR.objloader ht hrec info v' c ?_ s u h
    intro v'' kvs ho n x ft hp hh
    rcases mangle_names_ok (hok v' rfl) with ⟨_, rfl⟩ | ⟨k1, k2, rfl, rfl, _, hl⟩
    · exact ht.objItems hv hi ho n x ft hp hh
    · cases ho
      obtain ⟨f, hf, rfl, hty⟩ := hi.hints n ft hh
      rcases mangleLoop_mem _ _ _ _ _ hl _ hp with h0 | ⟨k, hk, hk2⟩
      · cases h0
      · rcases hk2 with (rfl | he) | ⟨m, p, rfl, ha, he⟩
        · exact ht.field _ k1 c hv (Or.inl rfl) f hf _ x .name hk ft hty
        · have := (pyEq_str_left _ _).1 he
          subst this
          exact ht.field _ k1 c hv (Or.inl rfl) f hf _ x .name hk ft hty
        · have hp : p = f.name := by
            rcases he with he | he
            · cases he; rfl
            · have := (pyEq_str_left _ _).1 he; cases this; rfl
          subst hp
          rw [hi.transforms] at ha
          rcases transformsOf_mem _ (aget_mem ha) with h0 | ⟨g, hg, h1, h2⟩
          · cases h0
          · exact ht.field _ k1 c hv (Or.inl rfl) f hf m x (.renamed g hg h2 h1) hk ft hty

theorem KR.namedtupleload (v : Val) (t : Ty) (hv : P v t) :
    Sim (KR W C Γ G) (TL.namedtupleload W C rec v t) (Ref.namedtupleload W C rec' v t) := by
  cases t
  case obj c =>
    unfold TL.namedtupleload Ref.namedtupleload
    refine Sim.ite (fun hk => ?_) (fun _ => Sim.throw _)
    · skip
      exact KR.objloader ht hrec _ _ _ (fun _ _ ho => ht.objItems hv (infoFor_namedtuple hk) ho)
  all_goals exact Sim.throw _

theorem KR.dataclassload (v : Val) (t : Ty) (hv : P v t) :
    Sim (KR W C Γ G) (TL.dataclassload W C rec v t) (Ref.dataclassload W C rec' v t) := by
  cases t
  case obj c =>
    unfold TL.dataclassload Ref.dataclassload
    refine Sim.ite (fun hk => ?_) (fun _ => Sim.throw _)
    · skip
      exact KR.dataclassCached c (KR.objMangled ht hrec _ _ _ (infoFor_dataclass hk) hv)
  all_goals exact Sim.throw _

theorem KR.attrload (v : Val) (t : Ty) (hv : P v t) :
    Sim (KR W C Γ G) (TL.attrload W C rec v t) (Ref.attrload W C rec' v t) := by
  cases t
  case obj c =>
    unfold TL.attrload Ref.attrload
    refine Sim.ite (fun hk => ?_) (fun _ => Sim.throw _)
    · skip
      cases hh : attrHints (W.cls c).fields with
      | error e => exact Sim.throw _
      | ok hints =>
        exact KR.objMangled ht hrec _ _ _ (infoFor_attrs hk hh) hv
  all_goals exact Sim.throw _

theorem KR.typeddictload (v : Val) (t : Ty) (hv : P v t) :
    Sim (KR W C Γ G) (TL.typeddictload W C rec v t) (Ref.typeddictload W C rec' v t) := by
  cases t
  case obj c =>
    unfold TL.typeddictload Ref.typeddictload
    refine Sim.ite (fun hk => ?_) (fun _ => Sim.throw _)
    · intro s u h
      simp only [M.bind_apply, M.get_apply, M.modify_apply]
      rw [typeddictInfo_rew ht.notRequired c _ false]
      refine KR.objloader ht hrec _ _ _ (fun _ _ ho => ht.objItems hv (infoFor_typeddict hk false) ho) _ u ?_
      · unfold rewriteAnnotations
        split
        · exact h.same (h.coh.ext Ext.rew) rfl
        · exact h
  all_goals exact Sim.throw _

theorem KR.unionTry (v : Val) (t : Ty) (us : List Ty) :
    ∀ c r es, (∀ u ∈ us, P v u) → Sim (KR W C Γ G) (TL.unionTry W C rec v t us c r es) (Ref.unionTry W C rec' v t us c r es) := by
  induction us with
  | nil => intro c r es _; exact Sim.pure _
  | cons u us ih =>
    intro c r es hg; unfold TL.unionTry Ref.unionTry
    have hg' : ∀ u ∈ us, P v u := fun y hy => hg y (by simp [hy])
    repeat' (first | exact hrec _ _ _ ‹_› (hg _ (by simp)) | refine KR.resolveBind (fun _ _ => ?_) | exact ih _ _ _ hg' | kr1)

theorem KR.unionload (v : Val) (t : Ty) (hv : P v t) :
    Sim (KR W C Γ G) (TL.unionload W C rec v t) (Ref.unionload W C rec' v t) := by
  cases t
  case union ts =>
    unfold TL.unionload Ref.unionload
    refine Sim.ite (fun _ => Sim.pure _) (fun _ => ?_)
    · intro s u h
      have h1 := KR.unionOrder (C := C) ht.steadyTags v ts s u h
      have h2 := post_unionOrder (v := v) (ts := ts) h.coh
      simp only [M.bind_apply]
      cases hl : TL.unionOrder W C v ts s with
      | div => rw [hl] at h1; cases hr : Ref.unionOrder W C v ts u <;> rw [hr] at h1 <;> first | exact h1.elim | trivial
      | err e s' =>
        rw [hl] at h1; cases hr : Ref.unionOrder W C v ts u <;> rw [hr] at h1 <;> first | exact h1.elim | exact h1
      | ok order s' =>
        rw [hl] at h1
        unfold Post at h2
        rw [hl] at h2
        cases hr : Ref.unionOrder W C v ts u with
        | div => rw [hr] at h1; exact h1.elim
        | err e s'' => rw [hr] at h1; exact h1.elim
        | ok order' u' =>
          rw [hr] at h1
          obtain ⟨rfl, h3⟩ := h1
          refine Sim.bind (KR.unionTry ht hrec v _ order 0 .none [] ?_) ?_ s' u' h3
          · intro w hw; exact ht.union v ts hv w (h2.2.perm.mem_iff.1 hw)
          · rintro ⟨c, r, es⟩
            dsimp only
            repeat' kr1
  all_goals exact Sim.throw _

theorem KR.enumHints (v : Val) (e : Nat) (us : List Ty) :
    ∀ es, (∀ u ∈ us, P v u) → Sim (KR W C Γ G) (TL.enumHints W C rec v e us es) (Ref.enumHints W C rec' v e us es) := by
  induction us with
  | nil => intro es _; exact Sim.throw _
  | cons u us ih =>
    intro es hg; unfold TL.enumHints Ref.enumHints
    have hg' : ∀ u ∈ us, P v u := fun y hy => hg y (by simp [hy])
    refine Sim.rescue (Sim.bind (KR.loadWith ht hrec _ _ _ (hg _ (by simp))) (fun x => ?_)) (fun _ => ih _ hg')
    cases enumCall W e x with
    | some m => exact Sim.pure _
    | none => exact Sim.throw _

theorem KR.enumload (v : Val) (t : Ty) (hv : P v t) :
    Sim (KR W C Γ G) (TL.enumload W C rec v t) (Ref.enumload W C rec' v t) := by
  cases t
  case enum e =>
    unfold TL.enumload Ref.enumload
    dsimp only
    cases enumCall W e v with
    | some m => exact Sim.pure _
    | none => exact KR.enumHints ht hrec _ _ _ _ (ht.enum _ _ hv)
  all_goals exact Sim.throw _
end handlers

/-! ## Dictionaries -/

/-- A handler that does not call others: it is a leaf, or does not suit the type. -/
def Idle (W : World) (h : Handler) (t : Ty) : Prop := h.isLeaf = true ∨ suits W h t = false

theorem idle_not_div {rec : Rec} {h : Handler} {t : Ty} (hi : Idle W h t) (v : Val) (s : LState) : step W C rec h v t s ≠ .div := by
  by_cases hl : h.isLeaf = true
  · obtain ⟨o, ho⟩ := leaf_lift (W := W) (C := C) hl v t
    rw [ho]; cases o <;> exact fun h => (by cases h)
  · have hs : suits W h t = false := hi.resolve_left hl
    intro hx
    cases h <;> (try exact hl rfl) <;> cases t <;> first | cases hs | skip
    all_goals simp only [step, unionload, enumload, tupleload, iterload, dictload, namedtupleload, dataclassload,
      attrload, typeddictload, forwardrefload, newtypeload, M.throw_apply] at hx
    all_goals first | cases hx | skip
    all_goals first
      | (split at hx <;> cases hx; done)
      | (rename_i k _; cases k <;> first | (cases hx; done) | (cases hs; done))
      | (simp only [suits, beq_eq_false_iff_ne, ne_eq] at hs; rw [if_neg hs] at hx; cases hx)

/-- A handler that suits a type of another handler is that handler, collections aside. -/
theorem suits_same {kt vt : Ty} {hk hv : Handler} (hpk : Picked W C kt hk) (hpv : Picked W C vt hv)
    (hc : (∀ a u, kt ≠ .coll a u) ∨ (∀ a u, vt ≠ .coll a u) ∧ ∀ g, vt ≠ .bare g) : Idle W hv kt ∨ hv = hk := by
  have hcu : ∀ i, hv ≠ .custom i := by
    rintro i rfl
    generalize hx : Handler.custom i = x at hpv
    cases hpv with
    | bare h => rcases h with h | h | h | h | h <;> rw [h] at hx <;> cases hx
    | @obj c => cases hk : (W.cls c).kind <;> rw [hk] at hx <;> cases hx
    | @coll k => cases k <;> cases hx
    | _ => cases hx
  by_cases hl : hv.isLeaf = true
  · exact Or.inl (Or.inl hl)
  · by_cases hs : suits W hv kt = true
    · right
      cases hpk with
      | coll =>
        rename_i k u
        have hc' := hc.resolve_left (fun h => h _ _ rfl)
        cases hpv with
        | coll => exact absurd rfl (hc'.1 _ _)
        | bare => exact absurd rfl (hc'.2 _)
        | tuple => cases k <;> first | rfl | cases hs
        | obj => rename_i c; cases hk : (W.cls c).kind <;> rw [hk] at hs <;> cases hs
        | _ => first | cases hs | exact absurd rfl hl
      | obj =>
        rename_i c
        cases hv <;> first | exact absurd rfl (hcu _) | (simp only [suits, beq_iff_eq] at hs; rw [hs]; rfl) | cases hs
      | bare h => cases hv <;> first | exact absurd rfl (hcu _) | cases hs
      | _ => cases hv <;> first | exact absurd rfl (hcu _) | rfl | cases hs
    · exact Or.inl (Or.inr (by simpa using hs))

/-- The outcome of a first attempt, whose exceptions are discarded, and the final outcome. -/
def LooseRes {α : Type} (K : LState → Prop) : Res LState Exc α → Res Unit Exc α → Prop
  | .ok a s, .ok b _ => a = b ∧ K s
  | .err _ s, _ => K s
  | .div, .div => True
  | _, _ => False

/-- `m` is a first attempt at what `m'` does. -/
def Loose {α : Type} (K : LState → Prop) (m : L α) (m' : R α) : Prop := ∀ s u, K s → LooseRes K (m s) (m' u)

section loose
variable {α β : Type} {K : LState → Prop}
theorem Loose.pure (a : α) : Loose K (Pure.pure a : L α) (Pure.pure a : R α) := fun _ _ h => ⟨rfl, h⟩
theorem Loose.throw (e : Exc) (m : R α) : Loose K (M.throw e : L α) m := fun _ _ h => h
theorem Loose.bind {m : L α} {m' : R α} {f : α → L β} {f' : α → R β} (hm : Loose K m m') (hf : ∀ a, Loose K (f a) (f' a)) :
    Loose K (m >>= f) (m' >>= f') := by
  intro s u h
  have := hm s u h
  simp only [M.bind_apply]
  cases h1 : m s with
  | ok a s' =>
    rw [h1] at this
    cases h2 : m' u with
    | ok b u' => rw [h2] at this; obtain ⟨rfl, h3⟩ := this; exact hf a s' u' h3
    | err e u' => rw [h2] at this; exact this.elim
    | div => rw [h2] at this; exact this.elim
  | err e s' =>
    rw [h1] at this
    have hk : K s' := by cases h2 : m' u <;> rw [h2] at this <;> exact this
    exact hk
  | div =>
    rw [h1] at this
    cases h2 : m' u with
    | ok b u' => rw [h2] at this; exact this.elim
    | err e u' => rw [h2] at this; exact this.elim
    | div => trivial
end loose

/-- Either no call returns (the fuel is exhausted), or simple calls do. -/
def Live (W : World) (C : Config) (rec : Rec) (rec' : Ref.Rec) : Prop :=
  ((∀ h v t s, rec h v t s = .div) ∧ ∀ h v t u, rec' h v t u = .div) ∨
  ((∀ h v t s, Idle W h t → rec h v t s ≠ .div) ∧
    ∀ h x t, C.Usual W t → BasicInstance C t x → typeOf x = t → pick W C t = .ok h → rec h x t = Pure.pure x)

theorem basicInstance_hash {t : Ty} {x : Val} (h : BasicInstance C t x) : W.hash x = true := by
  obtain ⟨p, rfl, _, hi⟩ := h
  cases x <;> simp [isInst] at hi <;> rfl

theorem pass_or {t : Ty} {x : Val} : (C.isBasic t && isInstTy t x) = true ∧ BasicInstance C t x ∨
    (C.isBasic t && isInstTy t x) = false ∧ ¬ BasicInstance C t x := by
  cases h : C.isBasic t && isInstTy t x with
  | true => exact Or.inl ⟨rfl, isInstTy_iff.1 h⟩
  | false => exact Or.inr ⟨rfl, fun hb => by rw [isInstTy_iff.2 hb] at h; cases h⟩

theorem ref_loadWith_eq {rec' : Ref.Rec} {t : Ty} {h : Handler} (hp : pick W C t = .ok h) (x : Val) (a : Option Annotation) (u : Unit) :
    Ref.loadWith W C rec' x t a u = match rec' h x t u with
      | .ok r u' => .ok r u'
      | .err e u' => .err (loadExc x t a e) u'
      | .div => .div := by
  unfold Ref.loadWith Ref.resolve
  rw [hp]
  simp only [M.bind_apply, M.pure_apply, M.catch_apply]
  cases rec' h x t u with
  | ok => rfl
  | div => rfl
  | err e u' => unfold loadExc; dsimp only; split <;> rfl

section dict
variable {rec : Rec} {rec' : Ref.Rec} (ht : Tame W C Γ G P) (hlive : Live W C rec rec')
  (hrec : ∀ h v t, Apt W C h t → P v t → Sim (KR W C Γ G) (rec h v t) (rec' h v t))
include ht hrec

theorem loose_part {t : Ty} {h : Handler} (hp : pick W C t = .ok h) {x : Val} (hx : P x t) (a : Annotation) :
    Loose (Knows W C Γ G) (if (C.isBasic t && isInstTy t x) = true then Pure.pure x else rec h x t) (Ref.part W C rec' x t a) := by
  unfold Ref.part
  rcases pass_or (C := C) (t := t) (x := x) with ⟨hb, _⟩ | ⟨hb, _⟩
  · rw [if_pos hb, if_pos hb]; exact Loose.pure _
  · rw [hb]
    intro s u hs
    have := hrec h x t (pick_apt hp) hx s u hs
    show LooseRes _ (rec h x t s) (Ref.loadWith W C rec' x t (some a) u)
    rw [ref_loadWith_eq hp]
    cases h1 : rec h x t s <;> cases h2 : rec' h x t u <;> rw [h1, h2] at this <;> first | exact this.elim | skip
    · exact this
    · exact this.2
    · trivial

theorem ref_pairs_cons (kt vt : Ty) (k x : Val) (rest acc : List (Val × Val)) :
    Ref.pairs W C rec' kt vt ((k, x) :: rest) acc = Ref.part W C rec' k kt (.key k) >>= fun k' => Ref.part W C rec' x vt (.value x) >>= fun x' =>
      if W.hash k' then Ref.pairs W C rec' kt vt rest (dset acc k' x') else M.throw (.plain .type) := rfl

/-- The first pass with the right handlers. -/
theorem loose_fast {kt vt : Ty} {hk : Handler} {valF : Option Handler} (hpk : pick W C kt = .ok hk)
    (hpv : ∀ hv, valF = some hv → pick W C vt = .ok hv) (kvs : List (Val × Val)) : ∀ acc, (∀ p ∈ kvs, P p.1 kt ∧ P p.2 vt) →
    Loose (Knows W C Γ G) (dictFast W C rec kt vt hk valF kvs acc) (Ref.pairs W C rec' kt vt kvs acc) := by
  induction kvs with
  | nil => intro acc _; exact Loose.pure _
  | cons p kvs ih =>
    obtain ⟨k, x⟩ := p
    intro acc hx
    have hx1 := hx (k, x) (by simp)
    rw [dictFast_cons, ref_pairs_cons ht hrec]
    refine Loose.bind (loose_part ht hrec hpk hx1.1 _) (fun k' => Loose.bind ?_ (fun x' => ?_))
    · cases valF with
      | some hv => exact loose_part ht hrec (hpv hv rfl) hx1.2 _
      | none =>
        rcases pass_or (C := C) (t := vt) (x := x) with ⟨hb, _⟩ | ⟨hb, _⟩
        · unfold Ref.part; rw [if_pos hb, if_pos hb]; exact Loose.pure _
        · rw [hb]; exact Loose.throw _ _
    · split
      · exact ih _ (fun q hq => hx q (by simp [hq]))
      · exact Loose.throw _ _

include hlive in
/-- The first pass with an unassigned value handler and values that are not of a basic type. -/
theorem loose_cold {kt vt : Ty} {hk hv : Handler} (hin : Apt W C hv kt) (hpk : pick W C kt = .ok hk) (hb : C.isBasic vt = false)
    (hi : Idle W hv kt ∨ hv = hk) (kvs acc : List (Val × Val)) (hx : ∀ p ∈ kvs, P p.1 kt ∧ P p.2 vt) :
    Loose (Knows W C Γ G) (dictFast W C rec kt vt hv none kvs acc) (Ref.pairs W C rec' kt vt kvs acc) := by
  cases kvs with
  | nil => exact Loose.pure _
  | cons p kvs =>
    obtain ⟨k, x⟩ := p
    have hx1 := hx (k, x) (by simp)
    rw [dictFast_cons, ref_pairs_cons ht hrec]
    have hend : ∀ k', Loose (Knows W C Γ G) ((if (C.isBasic vt && isInstTy vt x) = true then Pure.pure x else M.throw (.plain .name) : L Val) >>= fun x' =>
        if W.hash k' then dictFast W C rec kt vt hv none kvs (dset acc k' x') else M.throw (.plain .type))
        (Ref.part W C rec' x vt (.value x) >>= fun x' =>
          if W.hash k' then Ref.pairs W C rec' kt vt kvs (dset acc k' x') else M.throw (.plain .type)) := by
      intro k'
      rw [hb]
      exact fun s u h => h
    rcases hi with hi | rfl
    · intro s u hs
      rcases pass_or (C := C) (t := kt) (x := k) with ⟨hbk, _⟩ | ⟨hbk, _⟩
      · rw [hbk]
        have : Ref.part W C rec' k kt (.key k) = Pure.pure k := by unfold Ref.part; rw [if_pos hbk]
        rw [this]
        exact hend k s u hs
      · rw [hbk]
        simp only [M.bind_apply, Bool.false_eq_true, if_false]
        have := hrec hv k kt hin hx1.1 s u hs
        cases h1 : rec hv k kt s with
        | ok a s' =>
          cases h2 : rec' hv k kt u with
          | ok b u' => rw [h1, h2] at this; dsimp only; rw [hb]; exact this.2
          | err e u' => rw [h1, h2] at this; exact this.elim
          | div => rw [h1, h2] at this; exact this.elim
        | err e s' =>
          cases h2 : rec' hv k kt u with
          | ok b u' => rw [h1, h2] at this; exact this.elim
          | err e' u' => rw [h1, h2] at this; exact this.2
          | div => rw [h1, h2] at this; exact this.elim
        | div =>
          rcases hlive with ⟨_, hdead⟩ | ⟨hl, _⟩
          · have hdiv : Ref.part W C rec' k kt (.key k) u = .div := by
              unfold Ref.part; rw [hbk]
              show Ref.loadWith W C rec' k kt _ u = _
              rw [ref_loadWith_eq hpk, hdead]
            simp only [hdiv]; trivial
          · exact absurd h1 (hl hv k kt s hi)
    · exact Loose.bind (loose_part ht hrec hpk hx1.1 _) hend

/-- The second pass. -/
theorem sim_slow {kt vt : Ty} {hk hv : Handler} (hpk : pick W C kt = .ok hk) (hpv : pick W C vt = .ok hv)
    (huk : C.Usual W kt) (huv : C.Usual W vt) (hl : ∀ h x t, C.Usual W t → BasicInstance C t x → typeOf x = t → pick W C t = .ok h → rec h x t = Pure.pure x) (kvs : List (Val × Val)) :
    ∀ acc, (∀ p ∈ kvs, P p.1 kt ∧ P p.2 vt) →
    (∀ p ∈ kvs, (BasicInstance C kt p.1 → typeOf p.1 = kt) ∧ (BasicInstance C vt p.2 → typeOf p.2 = vt)) →
    Sim (KR W C Γ G) (dictSlow W C rec kt vt kvs acc) (Ref.pairs W C rec' kt vt kvs acc) := by
  have part : ∀ {t : Ty} {h : Handler} {x : Val} {a : Annotation}, C.Usual W t → pick W C t = .ok h → P x t → (BasicInstance C t x → typeOf x = t) →
      Sim (KR W C Γ G) (loadWith W C rec x t (some a)) (Ref.part W C rec' x t a) := by
    intro t h x a hu hp hx hb
    unfold Ref.part
    rcases pass_or (C := C) (t := t) (x := x) with ⟨hbk, hbi⟩ | ⟨hbk, _⟩
    · rw [if_pos hbk]
      intro s u hs
      rw [loadWith_eq hs.coh, hp]
      dsimp only
      rw [hl h x t hu hbi (hb hbi) hp]
      exact ⟨rfl, hs.cacheReg ht (ht.type _ _ hx) hp⟩
    · rw [hbk]; exact KR.loadWith ht hrec _ _ _ hx
  induction kvs with
  | nil => intro acc _ _; exact Sim.pure _
  | cons p kvs ih =>
    obtain ⟨k, x⟩ := p
    intro acc hx hex
    have hx1 := hx (k, x) (by simp)
    rw [ref_pairs_cons ht hrec, dictSlow]
    refine Sim.bind (part huk hpk hx1.1 (hex (k, x) (by simp)).1) (fun k' => Sim.bind (part huv hpv hx1.2 (hex (k, x) (by simp)).2) (fun x' => ?_))
    exact Sim.ite (fun _ => ih _ (fun q hq => hx q (by simp [hq])) (fun q hq => hex q (by simp [hq]))) (fun _ => Sim.throw _)
end dict

/-- Without fuel, when the first pass raises, the single pass does not return. -/
theorem dead_pairs {rec : Rec} {rec' : Ref.Rec} (hd : ∀ h v t s, rec h v t s = .div) (hd' : ∀ h v t u, rec' h v t u = .div) {kt vt : Ty}
    {hk hv keyF : Handler} {valF : Option Handler} (hpk : pick W C kt = .ok hk) (hpv : pick W C vt = .ok hv) (kvs : List (Val × Val)) :
    ∀ acc s e s' u, dictFast W C rec kt vt keyF valF kvs acc s = .err e s' →
      Ref.pairs W C rec' kt vt kvs acc u = .div ∧ ∀ s1, Coh W C s1 → dictSlow W C rec kt vt kvs [] s1 = .div := by
  induction kvs with
  | nil => intro acc s e s' u h; cases h
  | cons p kvs ih =>
    obtain ⟨k, x⟩ := p
    intro acc s e s' u h
    have hslow : ∀ s1, Coh W C s1 → dictSlow W C rec kt vt ((k, x) :: kvs) [] s1 = .div := by
      intro s1 hc
      rw [dictSlow, M.bind_apply, loadWith_eq hc, hpk]
      dsimp only
      rw [hd]
    refine ⟨?_, hslow⟩
    have hload : ∀ {t : Ty} {h : Handler} (x : Val) (a : Option Annotation), pick W C t = .ok h → Ref.loadWith W C rec' x t a u = .div := by
      intro t h x a hp
      rw [ref_loadWith_eq hp, hd']
    rw [dictFast_cons] at h
    show (Ref.part W C rec' k kt (.key k) >>= fun k' => Ref.part W C rec' x vt (.value x) >>= fun x' =>
      if W.hash k' then Ref.pairs W C rec' kt vt kvs (dset acc k' x') else M.throw (.plain .type)) u = .div
    unfold Ref.part
    rcases pass_or (C := C) (t := kt) (x := k) with ⟨hbk, hbi⟩ | ⟨hbk, _⟩
    · rw [hbk] at h ⊢
      simp only [M.bind_apply, if_true, M.pure_apply] at h ⊢
      rcases pass_or (C := C) (t := vt) (x := x) with ⟨hbx, _⟩ | ⟨hbx, _⟩
      · rw [hbx] at h ⊢
        simp only [if_true, M.pure_apply, basicInstance_hash (W := W) hbi] at h ⊢
        exact (ih _ _ _ _ u h).1
      · rw [hbx]
        simp only [Bool.false_eq_true, if_false, hload x _ hpv]
    · rw [hbk]
      simp only [M.bind_apply, Bool.false_eq_true, if_false, hload k _ hpk]

section
variable {rec : Rec} {rec' : Ref.Rec} (ht : Tame W C Γ G P) (hlive : Live W C rec rec')
  (hrec : ∀ h v t, Apt W C h t → P v t → Sim (KR W C Γ G) (rec h v t) (rec' h v t))
include ht hlive hrec

theorem KR.dictload (v : Val) (t : Ty) (hv : P v t) :
    Sim (KR W C Γ G) (TL.dictload W C rec v t) (Ref.dictload W C rec' v t) := by
  cases t
  case dict kt vt =>
    have hg := ht.type _ _ hv
    have hus := ht.dictUsual _ _ hg
    unfold TL.dictload Ref.dictload
    intro s u hs
    simp only [M.bind_apply, resolve_eq hs.coh]
    unfold Ref.resolve
    cases hpk : pick W C kt with
    | error c => exact ⟨rfl, hs⟩
    | ok hk =>
      have hs1 := hs.cacheIdx hpk
      simp only [dictValueHandler_eq hs1.coh]
      cases hpv : pick W C vt with
      | error c => exact ⟨rfl, hs1⟩
      | ok hvh =>
        have hs2 := hs1.cacheIdx hpv
        simp only [M.pure_apply]
        revert hs2
        generalize TL.cacheIdx vt hvh (TL.cacheIdx kt hk s) = s2
        intro hs2
        cases hit : items (dictequivalence C v) with
        | none => exact ⟨rfl, hs2⟩
        | some kvs =>
          have hdd := (items_dictequivalence v kvs).1 hit
          have hx := ht.dict v kvs _ _ hv hdd
          have hex := ht.dictExact v _ _ kvs hv hdd
          have main : ∀ keyF valF, (keyF = hk ∧ valF = some hvh ∨ keyF = hvh ∧ valF = none) →
              SimRes (KR W C Γ G)
                (M.rescue (dictFast W C rec kt vt keyF valF kvs [] >>= fun r => (Pure.pure (.dict r) : L Val))
                  (fun _ => M.rescue (dictSlow W C rec kt vt kvs [] >>= fun r => (Pure.pure (.dict r) : L Val))
                    (fun e => if e.cls.isAttr then M.throw (mkExc .tlAttr .wrapped (dictequivalence C v) (.dict kt vt)) else M.throw e)) s2)
                (M.rescue (Ref.pairs W C rec' kt vt kvs [] >>= fun r => (Pure.pure (.dict r) : R Val))
                  (fun e => if e.cls.isAttr then M.throw (mkExc .tlAttr .wrapped (dictequivalence C v) (.dict kt vt)) else M.throw e) u) := by
            intro keyF valF hcase
            have hloose : Loose (Knows W C Γ G) (dictFast W C rec kt vt keyF valF kvs []) (Ref.pairs W C rec' kt vt kvs []) := by
              rcases hcase with ⟨rfl, rfl⟩ | ⟨rfl, rfl⟩
              · exact loose_fast ht hrec hpk (fun _ h => by cases h; exact hpv) kvs [] hx
              · rcases ht.dictColl _ _ hg with hkv | hcoll
                · subst hkv; rw [hpk] at hpv; cases hpv
                  exact loose_fast ht hrec hpk (fun _ h => by cases h) kvs [] hx
                · rcases ht.dictSafe _ _ hg with hb | hkv | ⟨h1, h2, h3, h4⟩
                  · exact loose_cold ht hlive hrec (apt_other hpv (hus.2.picked hpv)) hpk hb (suits_same (hus.1.picked hpk) (hus.2.picked hpv) hcoll) kvs [] hx
                  · subst hkv; rw [hpk] at hpv; cases hpv
                    exact loose_fast ht hrec hpk (fun _ h => by cases h) kvs [] hx
                  · have e1 : hk = .basicload := by
                      have := hus.1.picked hpk
                      cases this <;> simp [Config.isBasic] at h1 h3 <;> rfl
                    have e2 : keyF = .basicload := by
                      have := hus.2.picked hpv
                      cases this <;> simp [Config.isBasic] at h2 h4 <;> rfl
                    subst e1 e2
                    exact loose_fast ht hrec hpk (fun _ h => by cases h) kvs [] hx
            have hl := hloose s2 u hs2
            simp only [M.catch_apply, M.bind_apply]
            cases hf : dictFast W C rec kt vt keyF valF kvs [] s2 with
            | ok r s3 =>
              rw [hf] at hl
              cases hr : Ref.pairs W C rec' kt vt kvs [] u with
              | ok r' u' => rw [hr] at hl; obtain ⟨rfl, h3⟩ := hl; exact ⟨rfl, h3⟩
              | err e u' => rw [hr] at hl; exact hl.elim
              | div => rw [hr] at hl; exact hl.elim
            | div =>
              rw [hf] at hl
              cases hr : Ref.pairs W C rec' kt vt kvs [] u with
              | ok r' u' => rw [hr] at hl; exact hl.elim
              | err e u' => rw [hr] at hl; exact hl.elim
              | div => trivial
            | err e s3 =>
              rw [hf] at hl
              have hs3 : Knows W C Γ G s3 := by cases hr : Ref.pairs W C rec' kt vt kvs [] u <;> rw [hr] at hl <;> exact hl
              rcases hlive with ⟨hdd, hdd'⟩ | ⟨_, hbl⟩
              · obtain ⟨h1, h2⟩ := dead_pairs hdd hdd' hpk hpv kvs [] s2 e s3 u hf
                rw [h1]
                simp only [h2 s3 hs3.coh]
                trivial
              · have := sim_slow ht hrec hpk hpv hus.1 hus.2 hbl kvs [] hx hex
                exact Sim.rescue (Sim.bind this (fun r => Sim.pure (Val.dict r)))
                  (fun e => Sim.ite (fun _ => Sim.throw _) (fun _ => Sim.throw _)) s3 u hs3
          cases (aget (TL.cacheIdx kt hk s).idx vt).isSome with
          | false => exact main _ _ (Or.inr ⟨rfl, rfl⟩)
          | true => exact main _ _ (Or.inl ⟨rfl, rfl⟩)
  all_goals exact Sim.throw _

theorem KR.step (h : Handler) (v : Val) (t : Ty) (hin : Apt W C h t) (hv : P v t) :
    Sim (KR W C Γ G) (TL.step W C rec h v t) (Ref.step W C Γ rec' h v t) := by
  have leaf : ∀ {h : Handler}, h.isLeaf = true → ∃ x, TL.step W C rec h v t = M.lift x := by
    intro h hl
    obtain ⟨o, ho⟩ := leaf_lift (W := W) (C := C) hl v t
    exact ⟨o, ho rec⟩
  cases h
  case unionload => exact KR.unionload ht hrec v t hv
  case enumload => exact KR.enumload ht hrec v t hv
  case tupleload => exact KR.tupleload ht hrec v t hv
  case listload => exact KR.iterload ht hrec _ v t hv
  case setload => exact KR.iterload ht hrec _ v t hv
  case frozensetload => exact KR.iterload ht hrec _ v t hv
  case dictload => exact KR.dictload ht hlive hrec v t hv
  case namedtupleload => exact KR.namedtupleload ht hrec v t hv
  case dataclassload => exact KR.dataclassload ht hrec v t hv
  case attrload => exact KR.attrload ht hrec v t hv
  case typeddictload => exact KR.typeddictload ht hrec v t hv
  case forwardrefload => exact KR.forwardrefload ht hrec v t hv
  case newtypeload => exact KR.newtypeload ht hrec v t hv
  case custom i => exact KR.custom ht hrec _ (fun x u hx => ht.asks i v t x u hv (hin.2 i rfl) hx)
  all_goals
    first
    | (obtain ⟨x, hx⟩ := leaf (h := .noneload) rfl; exact KR.ofL x hx)
    | (obtain ⟨x, hx⟩ := leaf (h := .basicload) rfl; exact KR.ofL x hx)
    | (obtain ⟨x, hx⟩ := leaf (h := .literalload) rfl; exact KR.ofL x hx)
    | (obtain ⟨x, hx⟩ := leaf (h := .datetimeload) rfl; exact KR.ofL x hx)
    | (obtain ⟨x, hx⟩ := leaf (h := .patternload) rfl; exact KR.ofL x hx)
    | (obtain ⟨x, hx⟩ := leaf (h := .timedeltaload) rfl; exact KR.ofL x hx)
    | (obtain ⟨x, hx⟩ := leaf (h := .strconstructload) rfl; exact KR.ofL x hx)
    | (obtain ⟨x, hx⟩ := leaf (h := .anyload) rfl; exact KR.ofL x hx)
end

/-- A basic value loads to itself. -/
theorem step_basic (rec : Rec) {h : Handler} {x : Val} {t : Ty} (hu : C.Usual W t) (hb : BasicInstance C t x) (he : typeOf x = t)
    (hp : pick W C t = .ok h) : step W C rec h x t = Pure.pure x := by
  obtain ⟨p, rfl, h1, h2⟩ := hb
  have := hu.picked hp
  cases this with
  | none => cases x <;> simp [isInst] at h2; rfl
  | basic => simp [step, basicload, he]

theorem KR.run (ht : Tame W C Γ G P) (n : Nat) : ∀ h v t, Apt W C h t → P v t →
    Sim (KR W C Γ G) (TL.run W C n h v t) (Ref.run W C Γ n h v t) := by
  induction n with
  | zero => intro h v t _ _ s u _; trivial
  | succ n ih =>
    intro h v t hin hv
    refine KR.step ht ?_ ih h v t hin hv
    cases n with
    | zero => exact Or.inl ⟨fun _ _ _ _ => rfl, fun _ _ _ _ => rfl⟩
    | succ n => exact Or.inr ⟨fun h v t s hi => idle_not_div hi v s, fun h x t hu hb he hp => step_basic _ hu hb he hp⟩

theorem KR.load (ht : Tame W C Γ G P) (n : Nat) (v : Val) (t : Ty) (hv : P v t) :
    Sim (KR W C Γ G) (TL.load W C n v t) (Ref.load W C Γ n v t) := KR.loadWith ht (KR.run ht n) v t none hv

end TL
