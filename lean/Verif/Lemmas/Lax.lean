import Verif.Props.Reuse
/-!
# Comparing a strict and a permissive configuration

`Le m m'`: when `m` succeeds, `m'` succeeds with the same result.  Proved for the reference loader, where the second
configuration converts more and rejects less, for types without unions.
-/

namespace TL

set_option linter.unusedSectionVars false

/-- The same configuration with other values of `basiccast` and `failonextra`. -/
def Config.but (C : Config) (basiccast failonextra : Bool) : Config := { C with basiccast := basiccast, failonextra := failonextra }

/-- The right outcome is the left one if that is a success.  (A StopIteration has to be kept as well: `map` takes it as the end of
the data.) -/
def LeRes {α : Type} : Res Unit Exc α → Res Unit Exc α → Prop
  | .ok a _, r => r = .ok a ()
  | .err e _, r => e.cls = .stopIteration → ∃ e', r = .err e' () ∧ e'.cls = .stopIteration
  | .div, _ => True

/-- `m'` succeeds when `m` does. -/
def Le {α : Type} (m m' : R α) : Prop := LeRes (m ()) (m' ())

section le
variable {α β : Type}

theorem Le.refl (m : R α) : Le m m := by
  unfold Le
  cases h : m () with
  | ok a u => exact rfl
  | err e u => exact fun hc => ⟨e, rfl, hc⟩
  | div => trivial

theorem Le.throw {e : Exc} (m : R α) (h : e.cls ≠ .stopIteration) : Le (M.throw e) m := fun hc => absurd hc h

theorem Le.bind {m m' : R α} {f f' : α → R β} (hm : Le m m') (hf : ∀ a, Le (f a) (f' a)) : Le (m >>= f) (m' >>= f') := by
  unfold Le at *
  simp only [M.bind_apply]
  cases h : m () with
  | ok a u => rw [h] at hm; rw [show m' () = _ from hm]; exact hf a
  | err e u =>
    rw [h] at hm
    intro hc
    obtain ⟨e', h1, h2⟩ := hm hc
    exact ⟨e', by rw [h1], h2⟩
  | div => trivial

/-- An exception handler that raises again. -/
theorem Le.rescue {m m' : R α} {f f' : Exc → Exc} (hm : Le m m') (hf : ∀ e, (f e).cls = .stopIteration → e.cls = .stopIteration)
    (hf' : ∀ e e', e.cls = .stopIteration → e'.cls = .stopIteration → (f e).cls = .stopIteration → (f' e').cls = .stopIteration) :
    Le (M.rescue m (fun e => M.throw (f e))) (M.rescue m' (fun e => M.throw (f' e))) := by
  unfold Le at *
  simp only [M.catch_apply]
  cases h : m () with
  | ok a u => rw [h] at hm; rw [show m' () = _ from hm]; rfl
  | err e u =>
    rw [h] at hm
    intro hc
    obtain ⟨e', h1, h2⟩ := hm (hf e hc)
    rw [h1]
    exact ⟨_, rfl, hf' e e' (hf e hc) h2 hc⟩
  | div => trivial

theorem Le.ite {c : Prop} [Decidable c] {a b a' b' : R α} (h1 : c → Le a a') (h2 : ¬ c → Le b b') :
    Le (if c then a else b) (if c then a' else b') := by
  by_cases h : c
  · simp only [if_pos h]; exact h1 h
  · simp only [if_neg h]; exact h2 h
end le

variable {W : World} {C : Config} {Γ : Env} {G : Ty → Prop} {bc fe : Bool}

theorem isBasic_but (t : Ty) : (C.but bc fe).isBasic t = C.isBasic t := by cases t <;> rfl
theorem evalCond_but (c : Cond) (t : Ty) : evalCond W (C.but bc fe) c t = evalCond W C c t := by
  cases c <;> first | rfl | (simp only [evalCond, isBasic_but])
theorem indexFrom_but (t : Ty) (l : List (Cond × Handler)) : ∀ i, indexFrom W (C.but bc fe) t l i = indexFrom W C t l i := by
  induction l with
  | nil => intro i; rfl
  | cons p l ih =>
    intro i; obtain ⟨c, h⟩ := p
    unfold indexFrom
    rw [evalCond_but]
    simp only [ih]
    rfl
theorem pick_but (t : Ty) : pick W (C.but bc fe) t = pick W C t := by
  unfold pick index
  rw [show (C.but bc fe).handlers = C.handlers from rfl, indexFrom_but]
theorem resolve_but (t : Ty) (e : Exc) : Ref.resolve W (C.but bc fe) t e = Ref.resolve W C t e := by
  unfold Ref.resolve; rw [pick_but]
theorem usesMap_but (t : Ty) : usesMap (C.but bc fe) t = usesMap C t := by
  unfold usesMap
  cases t <;> simp only [isBasic_but]
  rw [show (C.but bc fe).isBasic = C.isBasic from funext isBasic_but]
theorem dictequivalence_but (v : Val) : dictequivalence (C.but bc fe) v = dictequivalence C v := rfl
theorem objItems_but (v : Val) : objItems (C.but bc fe) v = objItems C v := rfl

/-- The types that are met: no unions, and no enums that try several annotations. -/
structure Straight (W : World) (Γ : Env) (G : Ty → Prop) : Prop where
  coll : ∀ k t, G (.coll k t) → G t
  tuple : ∀ ts, G (.tuple ts) → ∀ t ∈ ts, G t
  dictKey : ∀ k v, G (.dict k v) → G k
  dictVal : ∀ k v, G (.dict k v) → G v
  newtype : ∀ n t, G (.newtype n t) → G t
  field : ∀ c, G (.obj c) → ∀ f ∈ (W.cls c).fields, ∀ t, FieldTy (W.cls c).kind f t → G t
  fref : ∀ f n t, Γ = some f → G (.fref n) → f n = some t → G t
  noUnion : ∀ ts, ¬ G (.union ts)
  noHints : ∀ e, G (.enum e) → (W.enm e).hints = []

theorem elemError_not_stop (v : Val) (t : Ty) (i : Nat) (e : Exc) : (elemError v t i e).cls ≠ .stopIteration := by
  unfold elemError
  split
  · rename_i h
    rw [Exc.cls_push]
    intro hc
    rw [Exc.isTL, hc] at h
    cases h
  · split <;> intro hc <;> cases hc

/-- A handler that was found is installed. -/
theorem Le.resolveBind {α : Type} {t : Ty} {e : Exc} {f f' : Handler → R α} (hf : ∀ h, Installed C h → Le (f h) (f' h)) :
    Le (Ref.resolve W C t e >>= f) (Ref.resolve W C t e >>= f') := by
  unfold Le Ref.resolve
  simp only [M.bind_apply]
  cases hp : pick W C t with
  | ok h => exact hf h (pick_installed hp)
  | error c => exact Le.refl (M.throw (Ref.lookupError e c) : R α)

section handlers
variable {rec rec' : Ref.Rec} (hs : Straight W Γ G) (hrec : ∀ h v t, Installed C h → G t → Le (rec h v t) (rec' h v t))
include hs hrec

theorem Le.loadWith (v : Val) (t : Ty) (a : Option Annotation) (hg : G t) :
    Le (Ref.loadWith W C rec v t a) (Ref.loadWith W (C.but bc fe) rec' v t a) := by
  unfold Ref.loadWith
  rw [resolve_but]
  refine Le.resolveBind (fun h hin => ?_)
  have key : ∀ (r : Ref.Rec), M.rescue (r h v t) (fun e => if e.isTL then M.throw (e.push ⟨v, t, a⟩) else M.throw (.plain .assertion)) =
      M.rescue (r h v t) (fun e => M.throw (if e.isTL then e.push ⟨v, t, a⟩ else .plain .assertion)) := by
    intro r; congr 1; funext e; split <;> rfl
  rw [key rec, key rec']
  have nostop : ∀ e : Exc, (if e.isTL then e.push ⟨v, t, a⟩ else .plain .assertion).cls ≠ .stopIteration := by
    intro e hc
    split at hc
    · rename_i h; rw [Exc.cls_push] at hc; rw [Exc.isTL, hc] at h; cases h
    · cases hc
  exact Le.rescue (hrec h v t hin hg) (fun e h => absurd h (nostop e)) (fun e e' _ _ h => absurd h (nostop e))

theorem Le.iterElem (h : Handler) (hin : Installed C h) (et : Ty) (x : Val) (hg : G et) : Le (Ref.iterElem C rec h et x) (Ref.iterElem (C.but bc fe) rec' h et x) := by
  unfold Ref.iterElem
  cases et <;> simp only [isBasic_but] <;> try exact hrec _ _ _ hin hg
  · exact Le.ite (fun _ => Le.ite (fun _ => Le.refl _) (fun _ => hrec _ _ _ hin hg)) (fun _ => hrec _ _ _ hin hg)
  · exact absurd hg (hs.noUnion _)

theorem Le.iterElems (h : Handler) (hin : Installed C h) (k : SeqKind) (et : Ty) (v : Val) (t : Ty) (hg : G et) (xs : List Val) : ∀ i acc,
    Le (Ref.iterElems W C rec h k et v t xs i acc) (Ref.iterElems W (C.but bc fe) rec' h k et v t xs i acc) := by
  induction xs with
  | nil => intro i acc; exact Le.refl _
  | cons x xs ih =>
    intro i acc
    unfold Ref.iterElems
    have h1 := Le.iterElem (C := C) (bc := bc) (fe := fe) hs hrec h hin et x hg
    rw [usesMap_but]
    unfold Le at *
    simp only [M.handle_apply]
    cases hm : Ref.iterElem C rec h et x () with
    | ok y u =>
      rw [hm] at h1
      rw [show Ref.iterElem (C.but bc fe) rec' h et x () = _ from h1]
      dsimp only
      cases collAdd W k acc y with
      | error c => intro hc; exact absurd hc (elemError_not_stop _ _ _ _)
      | ok acc' => exact ih _ _
    | err e u =>
      rw [hm] at h1
      dsimp only
      by_cases hc : (usesMap C et && e.cls == .stopIteration) = true
      · simp only [if_pos hc, M.pure_apply]
        have hstop : e.cls = .stopIteration := by simp at hc; exact hc.2
        obtain ⟨e', h2, h3⟩ := h1 hstop
        rw [h2]
        dsimp only
        have hc' : (usesMap C et && e'.cls == .stopIteration) = true := by simp at hc ⊢; exact ⟨hc.1, h3⟩
        simp only [if_pos hc', M.pure_apply]
        rfl
      · simp only [if_neg hc]
        intro hx
        exact absurd hx (elemError_not_stop _ _ _ _)
    | div => trivial

theorem Le.iterload (k : SeqKind) (v : Val) (t : Ty) (hg : G t) : Le (Ref.iterload W C rec k v t) (Ref.iterload W (C.but bc fe) rec' k v t) := by
  unfold Ref.iterload
  refine Le.ite (fun _ => Le.refl _) (fun _ => ?_)
  cases t <;> try exact Le.refl _
  rename_i k' et
  dsimp only
  rw [resolve_but]
  refine Le.resolveBind (fun h hin => ?_)
  cases pyIter v with
  | none => exact Le.refl _
  | some xs => exact Le.bind (Le.iterElems hs hrec _ hin _ _ _ _ (hs.coll _ _ hg) _ _ _) (fun _ => Le.refl _)

theorem Le.tupElems (v : Val) (t : Ty) (xs : List Val) : ∀ us i, (∀ u ∈ us, G u) →
    Le (Ref.tupElems W C rec v t xs us i) (Ref.tupElems W (C.but bc fe) rec' v t xs us i) := by
  induction xs with
  | nil => intro us i _; unfold Ref.tupElems; exact Le.refl _
  | cons x xs ih =>
    intro us i hg
    cases us with
    | nil => unfold Ref.tupElems; exact Le.refl _
    | cons u us =>
      unfold Ref.tupElems
      refine Le.bind ?_ (fun y => Le.bind (ih _ _ (fun w hw => hg w (by simp [hw]))) (fun _ => Le.refl _))
      refine Le.rescue ?_ (fun e h => absurd h (elemError_not_stop _ _ _ _)) (fun e _ _ _ h => absurd h (elemError_not_stop _ _ _ _))
      rw [pick_but, isBasic_but]
      cases hp : pick W C u with
      | error c => exact Le.refl _
      | ok h => exact Le.ite (fun _ => Le.refl _) (fun _ => hrec _ _ _ (pick_installed hp) (hg u (by simp)))

theorem Le.tupleload (hfe : fe = true → C.failonextra = true) (v : Val) (t : Ty) (hg : G t) :
    Le (Ref.tupleload W C rec v t) (Ref.tupleload W (C.but bc fe) rec' v t) := by
  cases t
  case coll k t =>
    cases k
    case tuple => exact Le.iterload hs hrec _ _ _ hg
    all_goals exact Le.refl _
  case tuple ts =>
    unfold Ref.tupleload
    refine Le.ite (fun _ => Le.refl _) (fun _ => ?_)
    cases pyIter v with
    | none => exact Le.refl _
    | some xs =>
      dsimp only
      by_cases hx : (C.failonextra && decide (xs.length > ts.length)) = true
      · simp only [if_pos hx]; exact Le.throw _ (fun h => by cases h)
      · have hx' : ¬ ((C.but bc fe).failonextra && decide (xs.length > ts.length)) = true := by
          intro h
          apply hx
          rw [Bool.and_eq_true] at h ⊢
          exact ⟨hfe h.1, h.2⟩
        simp only [if_neg hx, if_neg hx']
        exact Le.ite (fun _ => Le.refl _) (fun _ => Le.bind (Le.tupElems hs hrec _ _ _ _ _ (hs.tuple _ hg)) (fun _ => Le.refl _))
  all_goals exact Le.refl _

theorem Le.part (x : Val) (t : Ty) (a : Annotation) (hg : G t) : Le (Ref.part W C rec x t a) (Ref.part W (C.but bc fe) rec' x t a) := by
  unfold Ref.part
  rw [isBasic_but]
  exact Le.ite (fun _ => Le.refl _) (fun _ => Le.loadWith hs hrec _ _ _ hg)

theorem Le.pairs (kt vt : Ty) (hk : G kt) (hv : G vt) (kvs : List (Val × Val)) : ∀ acc,
    Le (Ref.pairs W C rec kt vt kvs acc) (Ref.pairs W (C.but bc fe) rec' kt vt kvs acc) := by
  induction kvs with
  | nil => intro acc; exact Le.refl _
  | cons p kvs ih =>
    intro acc; obtain ⟨k, x⟩ := p
    unfold Ref.pairs
    exact Le.bind (Le.part hs hrec _ _ _ hk) (fun k' => Le.bind (Le.part hs hrec _ _ _ hv) (fun x' => Le.ite (fun _ => ih _) (fun _ => Le.refl _)))

theorem Le.dictload (v : Val) (t : Ty) (hg : G t) : Le (Ref.dictload W C rec v t) (Ref.dictload W (C.but bc fe) rec' v t) := by
  cases t <;> try exact Le.refl _
  rename_i kt vt
  unfold Ref.dictload
  simp only [resolve_but, dictequivalence_but]
  refine Le.bind (Le.refl _) (fun _ => Le.bind (Le.refl _) (fun _ => ?_))
  have key : ∀ (m : R Val), M.rescue m (fun e => if e.cls.isAttr then M.throw (mkExc .tlAttr .wrapped (dictequivalence C v) (.dict kt vt)) else M.throw e) =
      M.rescue m (fun e => M.throw (if e.cls.isAttr then mkExc .tlAttr .wrapped (dictequivalence C v) (.dict kt vt) else e)) := by
    intro m; congr 1; funext e; split <;> rfl
  rw [key, key]
  refine Le.rescue ?_ (fun e h => ?_) (fun e e' h h' _ => ?_)
  · cases items (dictequivalence C v) with
    | none => exact Le.refl _
    | some kvs => exact Le.bind (Le.pairs hs hrec _ _ (hs.dictKey _ _ hg) (hs.dictVal _ _ hg) _ _) (fun _ => Le.refl _)
  · split at h
    · cases h
    · exact h
  · rw [if_neg]
    · exact h'
    · rw [h']; decide

theorem Le.objFields (info : ObjInfo) (v : Val) (t : Ty) (hi : ∀ n ft, aget info.hints n = some ft → G ft) (kvs : List (Val × Val)) : ∀ acc,
    Le (Ref.objFields W C rec info v t kvs acc) (Ref.objFields W (C.but bc fe) rec' info v t kvs acc) := by
  induction kvs with
  | nil => intro acc; exact Le.refl _
  | cons p kvs ih =>
    intro acc; obtain ⟨k, x⟩ := p; unfold Ref.objFields
    cases k
    case str n =>
      refine Le.ite (fun _ => ?_) (fun _ => ih _)
      cases hh : aget info.hints n with
      | none => exact Le.refl _
      | some ft =>
        dsimp only
        rw [resolve_but]
        refine Le.resolveBind (fun h hin => Le.bind ?_ (fun y => ih _))
        have key : ∀ (m : R Val), M.rescue m (fun e => if e.isTL then M.throw (e.push ⟨v, t, some (.field n)⟩) else M.throw e) =
            M.rescue m (fun e => M.throw (if e.isTL then e.push ⟨v, t, some (.field n)⟩ else e)) := by
          intro m; congr 1; funext e; split <;> rfl
        rw [key, key]
        refine Le.rescue (hrec _ _ _ hin (hi _ _ hh)) (fun e h => ?_) (fun e e' h h' _ => ?_)
        · split at h
          · rw [Exc.cls_push] at h; exact h
          · exact h
        · split
          · rw [Exc.cls_push]; exact h'
          · exact h'
    all_goals exact ih _

theorem Le.objloader (hfe : fe = true → C.failonextra = true) (info : ObjInfo) (v : Val) (c : Nat) (hi : ∀ n ft, aget info.hints n = some ft → G ft) :
    Le (Ref.objloader W C rec info v c) (Ref.objloader W (C.but bc fe) rec' info v c) := by
  unfold Ref.objloader
  rw [objItems_but]
  cases objItems C v with
  | none => exact Le.refl _
  | some q =>
    obtain ⟨v', kvs⟩ := q
    refine Le.ite (fun _ => Le.refl _) (fun _ => ?_)
    by_cases hx : (C.failonextra && !(extraKeys info kvs).isEmpty) = true
    · simp only [if_pos hx]
      split
      · exact Le.throw _ (fun h => by cases h)
      · exact Le.throw _ (fun h => by cases h)
    · have hx' : ¬ ((C.but bc fe).failonextra && !(extraKeys info kvs).isEmpty) = true := by
        intro h
        apply hx
        rw [Bool.and_eq_true] at h ⊢
        exact ⟨hfe h.1, h.2⟩
      simp only [if_neg hx, if_neg hx']
      exact Le.bind (Le.objFields hs hrec _ _ _ hi _ _) (fun _ => Le.refl _)

omit hs hrec in
theorem mangleLoop_lax {tr : List (String × String)} (hfe : fe = true → C.failonextra = true) (kvs : List (Val × Val)) : ∀ acc r,
    mangleLoop tr C.failonextra kvs acc = .ok r → mangleLoop tr fe kvs acc = .ok r := by
  induction kvs with
  | nil => intro acc r h; exact h
  | cons p kvs ih =>
    intro acc r h; obtain ⟨k, x⟩ := p
    unfold mangleLoop at h ⊢
    cases k
    case str n =>
      dsimp only at h ⊢
      split at h
      · rename_i hc
        rw [if_pos hc]
        split at h
        · cases h
        · rename_i hf
          rw [if_neg (fun hh => hf (hfe hh))]
          exact ih _ _ h
      · rename_i hc
        rw [if_neg hc]
        split at h <;> exact ih _ _ h
    all_goals exact ih _ _ h

omit hs hrec in
theorem mangle_names_lax {tr : List (String × String)} {v v' : Val} (hfe : fe = true → C.failonextra = true)
    (h : mangle_names tr v C.failonextra = .ok v') : mangle_names tr v fe = .ok v' := by
  unfold mangle_names at *
  split at h
  · rename_i hc; rw [if_pos hc]; exact h
  · rename_i hc
    rw [if_neg hc]
    cases hi : items v with
    | none => rw [hi] at h; cases h
    | some kvs =>
      rw [hi] at h
      dsimp only at h ⊢
      cases hm : mangleLoop tr C.failonextra kvs [] with
      | error e => rw [hm] at h; cases h
      | ok r => rw [hm] at h; rw [mangleLoop_lax hfe _ _ _ hm]; exact h

omit hs hrec in
theorem mangle_names_err {tr : List (String × String)} {v : Val} {e : ExcClass} {fe : Bool} (h : mangle_names tr v fe = .error e) : e = .value ∨ e = .attr := by
  have loop : ∀ (kvs acc : List (Val × Val)), mangleLoop tr fe kvs acc = .error e → e = .value := by
    intro kvs
    induction kvs with
    | nil => intro acc h; cases h
    | cons p kvs ih =>
      intro acc h; obtain ⟨k, x⟩ := p
      unfold mangleLoop at h
      cases k
      case str n =>
        dsimp only at h
        repeat' split at h
        all_goals first | exact ih _ h | (cases h; rfl)
      all_goals exact ih _ h
  unfold mangle_names at h
  split at h
  · cases h
  · cases hi : items v with
    | none => rw [hi] at h; cases h; exact Or.inr rfl
    | some kvs =>
      rw [hi] at h
      dsimp only at h
      cases hm : mangleLoop tr fe kvs [] with
      | error e' => rw [hm] at h; cases h; exact Or.inl (loop _ _ hm)
      | ok r => rw [hm] at h; cases h

theorem Le.objMangled (hfe : fe = true → C.failonextra = true) (info : ObjInfo) (v : Val) (c : Nat) (hi : ∀ n ft, aget info.hints n = some ft → G ft) :
    Le (Ref.objMangled W C rec info v c) (Ref.objMangled W (C.but bc fe) rec' info v c) := by
  unfold Ref.objMangled
  refine Le.bind ?_ (fun v' => Le.objloader hs hrec hfe _ _ _ hi)
  unfold mangleOrRaise
  cases hm : mangle_names info.transforms v C.failonextra with
  | ok v' => rw [show (C.but bc fe).failonextra = fe from rfl, mangle_names_lax hfe hm]; exact Le.refl _
  | error e =>
    have : ofL (α := Val) (if e.isValue then M.throw (mkExc .tlValue (.py e) v (.obj c)) else if e.isAttr then M.throw (mkExc .tlAttr (.py e) v (.obj c))
      else M.throw (.plain e)) = M.throw (if e.isValue then mkExc .tlValue (.py e) v (.obj c) else mkExc .tlAttr (.py e) v (.obj c)) := by
      rcases mangle_names_err hm with rfl | rfl <;> rfl
    rw [this]
    refine Le.throw _ (fun h => ?_)
    split at h <;> cases h

theorem Le.forwardrefload (v : Val) (t : Ty) (hg : G t) : Le (Ref.forwardrefload W C Γ rec v t) (Ref.forwardrefload W (C.but bc fe) Γ rec' v t) := by
  cases t <;> try exact Le.refl _
  rename_i n
  unfold Ref.forwardrefload
  cases hΓ : Γ with
  | none => exact Le.refl _
  | some f =>
    dsimp only
    cases hn : f n with
    | none => exact Le.refl _
    | some t' => exact Le.loadWith hs hrec _ _ _ (hs.fref f n t' hΓ hg hn)

theorem Le.newtypeload (v : Val) (t : Ty) (hg : G t) : Le (Ref.newtypeload W C rec v t) (Ref.newtypeload W (C.but bc fe) rec' v t) := by
  cases t <;> try exact Le.refl _
  exact Le.loadWith hs hrec _ _ _ (hs.newtype _ _ hg)

theorem Le.enumload (v : Val) (t : Ty) (hg : G t) : Le (Ref.enumload W C rec v t) (Ref.enumload W (C.but bc fe) rec' v t) := by
  cases t <;> try exact Le.refl _
  rename_i e
  unfold Ref.enumload
  dsimp only
  cases enumCall W e v with
  | some m => exact Le.refl _
  | none => rw [hs.noHints e hg]; exact Le.refl _

omit hs hrec in
theorem Le.basicload (hbc : C.basiccast = true → bc = true) (v : Val) (t : Ty) : Le (ofL (TL.basicload W C v t)) (ofL (TL.basicload W (C.but bc fe) v t)) := by
  unfold TL.basicload
  by_cases ht : typeOf v ≠ t
  · simp only [if_pos ht]
    by_cases hb : C.basiccast = true
    · rw [show (C.but bc fe).basiccast = bc from rfl, hbc hb, hb]; exact Le.refl _
    · simp only [if_neg hb]
      exact Le.throw (e := mkExc .tlValue (.wrongType v t) v t) _ (fun h => by cases h)
  · simp only [if_neg ht]; exact Le.refl _

theorem Le.step (hd : C.Default) (hbc : C.basiccast = true → bc = true) (hfe : fe = true → C.failonextra = true) (h : Handler) (hin : Installed C h) (v : Val) (t : Ty) (hg : G t) :
    Le (Ref.step W C Γ rec h v t) (Ref.step W (C.but bc fe) Γ rec' h v t) := by
  unfold Ref.step
  cases h <;> dsimp only
  case unionload =>
    cases t <;> first | exact Le.refl _ | exact absurd hg (hs.noUnion _)
  case custom i => exact absurd hin (not_installed hd i)
  case basicload => exact Le.basicload hbc _ _
  case enumload => exact Le.enumload hs hrec _ _ hg
  case tupleload => exact Le.tupleload hs hrec hfe _ _ hg
  case listload => exact Le.iterload hs hrec _ _ _ hg
  case setload => exact Le.iterload hs hrec _ _ _ hg
  case frozensetload => exact Le.iterload hs hrec _ _ _ hg
  case dictload => exact Le.dictload hs hrec _ _ hg
  case forwardrefload => exact Le.forwardrefload hs hrec _ _ hg
  case newtypeload => exact Le.newtypeload hs hrec _ _ hg
  case namedtupleload =>
    cases t <;> try exact Le.refl _
    rename_i c
    unfold Ref.namedtupleload
    refine Le.ite (fun hk => Le.objloader hs hrec hfe _ _ _ ?_) (fun _ => Le.refl _)
    intro n ft h
    obtain ⟨f, hf, _, hty⟩ := (infoFor_namedtuple (C := C) hk).hints n ft h
    exact hs.field c hg f hf ft hty
  case dataclassload =>
    cases t <;> try exact Le.refl _
    rename_i c
    unfold Ref.dataclassload
    refine Le.ite (fun hk => Le.objMangled hs hrec hfe _ _ _ ?_) (fun _ => Le.refl _)
    intro n ft h
    obtain ⟨f, hf, _, hty⟩ := (infoFor_dataclass (C := C) hk).hints n ft h
    exact hs.field c hg f hf ft hty
  case typeddictload =>
    cases t <;> try exact Le.refl _
    rename_i c
    unfold Ref.typeddictload
    refine Le.ite (fun hk => Le.objloader hs hrec hfe _ _ _ ?_) (fun _ => Le.refl _)
    intro n ft h
    obtain ⟨f, hf, _, hty⟩ := (infoFor_typeddict (C := C) hk false).hints n ft h
    exact hs.field c hg f hf ft hty
  case attrload =>
    cases t <;> try exact Le.refl _
    rename_i c
    unfold Ref.attrload
    refine Le.ite (fun hk => ?_) (fun _ => Le.refl _)
    cases hh : attrHints (W.cls c).fields with
    | error e => exact Le.refl _
    | ok hints =>
      refine Le.objMangled hs hrec hfe _ _ _ ?_
      intro n ft h
      obtain ⟨f, hf, _, hty⟩ := (infoFor_attrs (C := C) hk hh).hints n ft h
      exact hs.field c hg f hf ft hty
  all_goals exact Le.refl _
end handlers

theorem Le.run (hd : C.Default) (hs : Straight W Γ G) (hbc : C.basiccast = true → bc = true) (hfe : fe = true → C.failonextra = true) :
    ∀ n h v t, Installed C h → G t → Le (Ref.run W C Γ n h v t) (Ref.run W (C.but bc fe) Γ n h v t)
  | 0, _, _, _, _, _ => trivial
  | n + 1, h, v, t, hin, hg => Le.step hs (Le.run hd hs hbc hfe n) hd hbc hfe h hin v t hg

theorem Le.load (hd : C.Default) (hs : Straight W Γ G) (hbc : C.basiccast = true → bc = true) (hfe : fe = true → C.failonextra = true) (n : Nat) (v : Val) (t : Ty)
    (hg : G t) : Le (Ref.load W C Γ n v t) (Ref.load W (C.but bc fe) Γ n v t) :=
  Le.loadWith hs (Le.run hd hs hbc hfe n) v t none hg

end TL
