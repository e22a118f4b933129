import Verif.Lemmas.ThreadsSeq
import Verif.Lemmas.Threads
import Verif.Props.UnionFresh
/-!
# A thread using a shared loader computes the reference loader

`Obeys I m m'`: whatever the other threads do, as long as they keep `I` (and `m` does), the outcome of `m` is that of `m'`.
-/

namespace TL

set_option linter.unusedSectionVars false

variable {W : World} {C : Config} {Γ : Env} {G : Ty → Prop} {P : Val → Ty → Prop}

/-- Under every schedule the outcome of `m` is that of `m'`. -/
def Obeys {α : Type} (I : LState → Prop) (m : Prog α) (m' : R α) : Prop := Safely I (fun r => r = m' ()) m

section
variable {α β : Type} {I : LState → Prop}

theorem Obeys.pure (a : α) : Obeys I (Pure.pure a : Prog α) (Pure.pure a : R α) := fun _ => rfl
theorem Obeys.raise (e : Exc) : Obeys I (Prog.raise e : Prog α) (M.throw e : R α) := fun _ => rfl
theorem Obeys.handle {m : Prog α} {m' : R α} {f : α → Prog β} {f' : α → R β} {g : Exc → Prog β} {g' : Exc → R β} (hm : Obeys I m m')
    (hf : ∀ a, Obeys I (f a) (f' a)) (hg : ∀ e, Obeys I (g e) (g' e)) : Obeys I (m.handle f g) (M.handle m' f' g') := by
  intro s
  refine (hm s).handle ?_ ?_ ?_
  · intro a ha s'
    simp only [M.handle_apply, ← ha]; exact hf a s'
  · intro e he s'
    simp only [M.handle_apply, ← he]; exact hg e s'
  · intro hd
    simp only [M.handle_apply, ← hd]
theorem Obeys.bind {m : Prog α} {m' : R α} {f : α → Prog β} {f' : α → R β} (hm : Obeys I m m') (hf : ∀ a, Obeys I (f a) (f' a)) :
    Obeys I (m >>= f) (m' >>= f') := by
  intro s
  refine (hm s).bind ?_ ?_ ?_
  · intro a ha s'
    simp only [M.bind_apply, ← ha]; exact hf a s'
  · intro e he
    simp only [M.bind_apply, ← he]
  · intro hd
    simp only [M.bind_apply, ← hd]
theorem Obeys.rescue {m : Prog α} {m' : R α} {g : Exc → Prog α} {g' : Exc → R α} (hm : Obeys I m m') (hg : ∀ e, Obeys I (g e) (g' e)) :
    Obeys I (m.rescue g) (M.rescue m' g') := by
  intro s
  refine (hm s).rescue ?_ ?_ ?_
  · intro a ha
    simp only [M.catch_apply, ← ha]
  · intro e he s'
    simp only [M.catch_apply, ← he]; exact hg e s'
  · intro hd
    simp only [M.catch_apply, ← hd]
theorem Obeys.ite {c : Prop} [Decidable c] {a b : Prog α} {a' b' : R α} (h1 : c → Obeys I a a') (h2 : ¬ c → Obeys I b b') :
    Obeys I (if c then a else b) (if c then a' else b') := by
  by_cases h : c
  · simp only [if_pos h]; exact h1 h
  · simp only [if_neg h]; exact h2 h
theorem Obeys.read {f : LState → Prog α} {m' : R α} (h : ∀ s, I s → Obeys I (f s) m') : Obeys I (Prog.read >>= f) m' :=
  fun _ s _ hs => ⟨hs, RewGrows.refl s, h s hs _⟩
theorem Obeys.write {f : LState → LState} {m : Unit → Prog α} {m' : R α} (hf : ∀ s, I s → I (f s)) (hr : ∀ s, RewGrows s (f s)) (h : Obeys I (m ()) m') :
    Obeys I (Prog.write f >>= m) m' := fun _ s _ hs => ⟨hf s hs, hr s, h _⟩
theorem Obeys.ofLocal {m : L α} (x : Except Exc α) (hx : m = M.lift x) : Obeys I (Prog.local' m) (ofL m) := by
  subst hx
  intro s
  cases x <;> rfl
/-- A program followed by another, when the first has a single outcome. -/
theorem Obeys.after {m : Prog α} {a : α} {f : α → Prog β} {m' : R β} (hm : Obeys I m (Pure.pure a : R α)) (hf : Obeys I (f a) m') :
    Obeys I (m >>= f) m' := by
  intro s
  refine (hm s).bind ?_ ?_ ?_
  · intro b hb; cases hb; exact hf
  · intro e he; cases he
  · intro hd; cases hd
end

/-! ## What writing does to the invariant -/

theorem Knows.setIdx {s : LState} (h : Knows W C Γ G s) {t : Ty} {hd : Handler} (hp : pick W C t = .ok hd) :
    Knows W C Γ G { s with idx := aset s.idx t hd } := h.same (h.coh.setIdx hp) rfl

theorem Knows.setName (ht : Tame W C Γ G P) {t : Ty} (hg : G t) {n : String} (hn : W.tyName t = some n) {s0 : LState} (h0 : Knows W C Γ G s0)
    {fr0 : List (String × Ty)} (hf0 : s0.frefs = some fr0) (ha : aget fr0 n = none) {s : LState} (h : Knows W C Γ G s) :
    Knows W C Γ G { s with frefs := s.frefs.map (fun fr => aset fr n t) } := by
  refine ⟨h.coh.setFrefs _, fun e => ?_, fun f e => ?_⟩
  · show s.frefs.map _ = none
    rw [h.off e]; rfl
  · obtain ⟨fr, h1, h2⟩ := h.names f e
    obtain ⟨fr1, h3, h4⟩ := h0.names f e
    rw [hf0] at h3; cases h3
    refine ⟨aset fr n t, by show s.frefs.map _ = _; rw [h1]; rfl, fun m hm => ?_⟩
    rw [aget_aset]
    split
    · rename_i hmn; subst hmn
      exact absurd hn (ht.unnamed f _ e hm (by rw [← h4 _ hm]; exact ha) t hg)
    · exact h2 m hm

theorem TK.resolve (t : Ty) (e : Exc) : Obeys (Knows W C Γ G) (T.resolve W C t e) (Ref.resolve W C t e) := by
  unfold T.resolve Ref.resolve
  refine Obeys.read (fun s hs => ?_)
  cases hi : aget s.idx t with
  | some h => rw [hs.coh.idx t h hi]; exact Obeys.pure _
  | none =>
    cases hp : pick W C t with
    | ok h => exact Obeys.write (fun s hs => hs.setIdx hp) (fun _ => RewGrows.refl _) (Obeys.pure _)
    | error c =>
      unfold Ref.lookupError
      dsimp only
      split <;> exact Obeys.raise _

theorem Obeys.installed {α : Type} {I : LState → Prop} {t : Ty} {e : Exc} {m : Prog Handler} {f : Handler → Prog α} {f' : Handler → R α}
    (hm : Obeys I m (Ref.resolve W C t e)) (hf : ∀ h, pick W C t = .ok h → Obeys I (f h) (f' h)) :
    Obeys I (m >>= f) (Ref.resolve W C t e >>= f') := by
  cases hp : pick W C t with
  | ok h =>
    have : Ref.resolve W C t e = Pure.pure h := by unfold Ref.resolve; rw [hp]
    rw [this] at hm ⊢
    exact Obeys.after hm (hf h hp)
  | error c =>
    have : Ref.resolve W C t e = M.throw (Ref.lookupError e c) := by unfold Ref.resolve; rw [hp]
    rw [this] at hm ⊢
    intro s
    refine (hm s).bind ?_ ?_ ?_
    · intro b hb; cases hb
    · intro e he; cases he; rfl
    · intro hd; cases hd

/-- A handler that was found is installed. -/
theorem TK.resolveBind {α : Type} {t : Ty} {e : Exc} {f : Handler → Prog α} {f' : Handler → R α}
    (hf : ∀ h, Apt W C h t → Obeys (Knows W C Γ G) (f h) (f' h)) :
    Obeys (Knows W C Γ G) (T.resolve W C t e >>= f) (Ref.resolve W C t e >>= f') :=
  Obeys.installed (TK.resolve t e) (fun h hp => hf h (pick_apt hp))

theorem TK.register (ht : Tame W C Γ G P) {t : Ty} (hg : G t) : Obeys (Knows W C Γ G) (T.register W t) (Pure.pure () : R Unit) := by
  unfold T.register
  refine Obeys.read (fun s hs => ?_)
  cases hf : s.frefs with
  | none => exact Obeys.pure _
  | some fr0 =>
    cases hn : W.tyName t with
    | none => exact Obeys.pure _
    | some n =>
      intro _ s1 _ hs1
      refine ⟨hs1, RewGrows.refl s1, ?_⟩
      revert hs1
      show Knows W C Γ G s1 → Safe _ _ (match s1.frefs with
        | none => Prog.raise (.plain .type)
        | some fr => match aget fr n with
          | some _ => Pure.pure ()
          | none => Prog.write (fun s => { s with frefs := s.frefs.map (fun fr => aset fr n t) })) s1
      intro hs1
      cases hf1 : s1.frefs with
      | none =>
        exfalso
        cases hΓ : Γ with
        | none => rw [hs.off hΓ] at hf; cases hf
        | some f => obtain ⟨fr, h1, _⟩ := hs1.names f hΓ; rw [hf1] at h1; cases h1
      | some fr1 =>
        dsimp only
        cases ha : aget fr1 n with
        | some _ => exact rfl
        | none => exact fun s _ h => ⟨Knows.setName ht hg hn hs1 hf1 ha h, RewGrows.refl s, rfl⟩

theorem TK.loadResolve (ht : Tame W C Γ G P) {t : Ty} (hg : G t) (v : Val) :
    Obeys (Knows W C Γ G) (T.loadResolve W C v t) (Ref.resolve W C t (mkExc .tlType (.noHandler t) v t)) := by
  unfold T.loadResolve Ref.resolve
  refine Obeys.read (fun s hs => ?_)
  cases hi : aget s.idx t with
  | some h => rw [hs.coh.idx t h hi]; exact Obeys.pure _
  | none =>
    cases hp : pick W C t with
    | ok h =>
      exact Obeys.write (fun s hs => hs.setIdx hp) (fun _ => RewGrows.refl _) (Obeys.after (TK.register ht hg) (Obeys.pure _))
    | error c =>
      unfold Ref.lookupError
      dsimp only
      split <;> exact Obeys.raise _

theorem TK.dataclassCached (c : Nat) : Obeys (Knows W C Γ G) (T.dataclassCached W C c) (Pure.pure (dataclassInfo C (W.cls c)) : R ObjInfo) := by
  unfold T.dataclassCached
  refine Obeys.read (fun s hs => ?_)
  cases hn : aget s.objc c with
  | some i => rw [hs.coh.objc c i hn]; exact Obeys.pure _
  | none => exact Obeys.write (fun s hs => hs.same (hs.coh.setObjc c) rfl) (fun _ => RewGrows.refl _) (Obeys.pure _)

theorem TK.discCached (hw : W.SteadyTags) (ts : List Ty) : Obeys (Knows W C Γ G) (T.discCached W ts) (Pure.pure (mkDisc W [] ts) : R Disc) := by
  unfold T.discCached
  refine Obeys.read (fun s hs => ?_)
  cases hn : aget s.disc (.union (W.unionKey ts)) with
  | some d =>
    obtain ⟨ts', rew, h1, h2, _⟩ := hs.coh.disc _ d hn
    rw [h2, mkDisc_rew hw.noHidden rew [], ← mkDisc_spelling hw.oneSpelling (by injection h1)]
    exact Obeys.pure _
  | none =>
    intro _ s1 _ hs1
    refine ⟨hs1, RewGrows.refl s1, ?_⟩
    intro s2 hg hs2
    refine ⟨hs2.same (hs2.coh.setDisc ts hg) rfl, RewGrows.refl s2, ?_⟩
    show Res.ok (mkDisc W s1.tdRew ts) () = _
    rw [mkDisc_rew hw.noHidden s1.tdRew []]; rfl

theorem TK.tupHandler (t : Ty) : Obeys (Knows W C Γ G) (T.tupHandler W C t) (match pick W C t with
    | .error c => M.throw (.plain c)
    | .ok h => Pure.pure h) := by
  unfold T.tupHandler
  refine Obeys.read (fun s hs => ?_)
  cases hn : aget s.idx t with
  | some hd => rw [hs.coh.idx t hd hn]; exact Obeys.pure _
  | none => cases pick W C t <;> first | exact Obeys.pure _ | exact Obeys.raise _

theorem TK.unionOrder (hw : W.SteadyTags) (v : Val) (ts : List Ty) :
    Obeys (Knows W C Γ G) (T.unionOrder W C v ts) (Ref.unionOrder W C v ts) := by
  cases v
  case dict kvs =>
    refine Obeys.after (TK.discCached hw ts) ?_
    unfold T.orderBy
    show Obeys _ _ (match mkDisc W [] ts with
      | none => Pure.pure (sortArgs C ts)
      | some (key, table) =>
        if table.isEmpty then Pure.pure (sortArgs C ts)
        else if W.hash ((dget kvs (.str key)).getD .none) then
          match dget table ((dget kvs (.str key)).getD .none) with
          | some p => Pure.pure (bump (sortArgs C ts) p)
          | none => Pure.pure (sortArgs C ts)
        else M.throw (Exc.plain .type))
    cases mkDisc W [] ts with
    | none => exact Obeys.pure _
    | some q =>
      obtain ⟨key, table⟩ := q
      dsimp only
      cases table.isEmpty <;> cases W.hash ((dget kvs (.str key)).getD .none) <;> cases dget table ((dget kvs (.str key)).getD .none) <;>
        first | exact Obeys.pure _ | exact Obeys.raise _
  all_goals exact Obeys.pure _

/-- One step of the syntax-directed proof. -/
macro "tk1" : tactic => `(tactic| first
  | exact Obeys.pure _ | exact Obeys.raise _ | exact TK.resolve _ _
  | assumption
  | refine Obeys.bind ?_ (fun _ => ?_) | refine Obeys.rescue ?_ (fun _ => ?_)
  | refine Obeys.handle ?_ (fun _ => ?_) (fun _ => ?_) | refine Obeys.ite (fun _ => ?_) (fun _ => ?_))

section handlers
variable {rec : T.Rec} {rec' : Ref.Rec} (ht : Tame W C Γ G P)
  (hrec : ∀ h v t, Apt W C h t → P v t → Obeys (Knows W C Γ G) (rec h v t) (rec' h v t))
include ht hrec

theorem TK.loadWith (v : Val) (t : Ty) (a : Option Annotation) (hv : P v t) :
    Obeys (Knows W C Γ G) (T.loadWith W C rec v t a) (Ref.loadWith W C rec' v t a) := by
  unfold T.loadWith Ref.loadWith
  exact Obeys.installed (TK.loadResolve ht (ht.type _ _ hv) v) (fun h hp => Obeys.rescue (hrec h v t (pick_apt hp) hv)
    (fun e => Obeys.ite (fun _ => Obeys.raise _) (fun _ => Obeys.raise _)))

theorem TK.forwardrefload (v : Val) (t : Ty) (hv : P v t) :
    Obeys (Knows W C Γ G) (T.forwardrefload W C rec v t) (Ref.forwardrefload W C Γ rec' v t) := by
  cases t
  case fref n =>
    unfold T.forwardrefload Ref.forwardrefload
    dsimp only
    refine Obeys.read (fun s hs => ?_)
    cases hΓ : Γ with
    | none => rw [hs.off hΓ]; exact Obeys.raise _
    | some f =>
      obtain ⟨fr, h1, h2⟩ := hs.names f hΓ
      rw [h1]; dsimp only
      rw [← hΓ]
      refine Obeys.read (fun s hs => ?_)
      obtain ⟨fr, h1, h2⟩ := hs.names f hΓ
      rw [h1]; dsimp only
      rw [h2 n (ht.type _ _ hv)]
      cases hn : f n with
      | none => exact Obeys.raise _
      | some t' => exact TK.loadWith ht hrec v t' (some (.forwardref n)) (ht.fref v f n t' hΓ hv hn)
  all_goals exact Obeys.raise _

theorem TK.newtypeload (v : Val) (t : Ty) (hv : P v t) :
    Obeys (Knows W C Γ G) (T.newtypeload W C rec v t) (Ref.newtypeload W C rec' v t) := by
  cases t
  case newtype n t => exact TK.loadWith ht hrec _ _ _ (ht.newtype _ _ _ hv)
  all_goals exact Obeys.raise _

/-- Handlers of the user, which may call the loader back. -/
theorem TK.custom (p : Script) (hp : ∀ x u, p.Asks x u → P x u) :
    Obeys (Knows W C Γ G) (T.script (T.loadWith W C rec) p) (p.run (Ref.loadWith W C rec')) := by
  induction p with
  | ret v => exact Obeys.pure _
  | raise e => exact Obeys.raise _
  | call v t a next ih =>
    exact Obeys.handle (TK.loadWith ht hrec v t a (hp _ _ .here)) (fun r => ih _ (fun x u h => hp x u (.later h)))
      (fun e => ih _ (fun x u h => hp x u (.later h)))

theorem TK.iterElem (h : Handler) (et : Ty) (hin : Apt W C h et) (x : Val) (hv : P x et) :
    Obeys (Knows W C Γ G) (T.iterElem C rec h et x) (Ref.iterElem C rec' h et x) := by
  cases et <;> unfold T.iterElem Ref.iterElem <;> repeat' (first | exact hrec _ _ _ hin hv | tk1)

theorem TK.iterElems (h : Handler) (k : SeqKind) (et : Ty) (hin : Apt W C h et) (v : Val) (t : Ty) (xs : List Val) :
    ∀ i acc, (∀ x ∈ xs, P x et) → Obeys (Knows W C Γ G) (T.iterElems W C rec h k et v t xs i acc) (Ref.iterElems W C rec' h k et v t xs i acc) := by
  induction xs with
  | nil => intro i acc _; exact Obeys.pure _
  | cons x xs ih =>
    intro i acc hx; unfold T.iterElems Ref.iterElems
    refine Obeys.handle (TK.iterElem ht hrec _ _ hin _ (hx _ (by simp))) (fun y => ?_) (fun e => Obeys.ite (fun _ => Obeys.pure _) (fun _ => Obeys.raise _))
    cases collAdd W k acc y with
    | error c => exact Obeys.raise _
    | ok acc' => exact ih _ _ (fun y hy => hx y (by simp [hy]))

theorem TK.iterload (k : SeqKind) (v : Val) (t : Ty) (hv : P v t) :
    Obeys (Knows W C Γ G) (T.iterload W C rec k v t) (Ref.iterload W C rec' k v t) := by
  unfold T.iterload Ref.iterload
  refine Obeys.ite (fun _ => Obeys.raise _) (fun hnd => ?_)
  cases t
  case coll k' et =>
      refine TK.resolveBind (fun h hin => ?_)
      cases hp : pyIter v with
      | none => exact Obeys.raise _
      | some xs => exact Obeys.bind (TK.iterElems ht hrec _ _ _ hin _ _ _ _ _ (ht.coll v xs _ _ hv (by simpa using hnd) hp)) (fun _ => Obeys.pure _)
  all_goals exact Obeys.raise _

theorem TK.tupElems (v : Val) (t : Ty) (xs : List Val) :
    ∀ us i, (∀ x u, (x, u) ∈ xs.zip us → P x u) → Obeys (Knows W C Γ G) (T.tupElems W C rec v t xs us i) (Ref.tupElems W C rec' v t xs us i) := by
  induction xs with
  | nil => intro us i _; unfold T.tupElems Ref.tupElems; exact Obeys.pure _
  | cons x xs ih =>
    intro us i hx
    cases us with
    | nil => unfold T.tupElems Ref.tupElems; exact Obeys.pure _
    | cons u us =>
      unfold T.tupElems Ref.tupElems
      refine Obeys.bind (Obeys.rescue ?_ (fun _ => Obeys.raise _)) (fun _ => Obeys.bind (ih _ _ (fun y w hy => hx y w (by simp [hy])))
        (fun _ => Obeys.pure _))
      cases hp : pick W C u with
      | error c =>
        have := TK.tupHandler (Γ := Γ) (G := G) (W := W) (C := C) u
        rw [hp] at this
        intro s
        refine (this s).bind ?_ ?_ ?_
        · intro b hb; cases hb
        · intro e he; cases he; rfl
        · intro hd; cases hd
      | ok hd =>
        have := TK.tupHandler (Γ := Γ) (G := G) (W := W) (C := C) u
        rw [hp] at this
        exact Obeys.after this (Obeys.ite (fun _ => Obeys.pure _) (fun _ => hrec _ _ _ (pick_apt hp) (hx x u (by simp))))

theorem TK.tupleload (v : Val) (t : Ty) (hv : P v t) :
    Obeys (Knows W C Γ G) (T.tupleload W C rec v t) (Ref.tupleload W C rec' v t) := by
  cases t
  case coll k t =>
    cases k
    case tuple => exact TK.iterload ht hrec _ _ _ hv
    all_goals exact Obeys.raise _
  case tuple ts =>
    unfold T.tupleload Ref.tupleload
    refine Obeys.ite (fun _ => Obeys.raise _) (fun hnd => ?_)
    cases hp : pyIter v with
    | none => exact Obeys.raise _
    | some xs =>
      refine Obeys.ite (fun _ => Obeys.raise _) (fun _ => Obeys.ite (fun _ => Obeys.raise _) (fun _ => ?_))
      exact Obeys.bind (TK.tupElems ht hrec _ _ _ _ _ (ht.tuple v xs _ hv (by simpa using hnd) hp)) (fun _ => Obeys.pure _)
  all_goals exact Obeys.raise _

theorem TK.objFields (info : ObjInfo) (v : Val) (t : Ty) (kvs : List (Val × Val)) :
    ∀ acc, (∀ n x ft, (.str n, x) ∈ kvs → aget info.hints n = some ft → P x ft) → Obeys (Knows W C Γ G) (T.objFields W C rec info v t kvs acc) (Ref.objFields W C rec' info v t kvs acc) := by
  induction kvs with
  | nil => intro acc _; exact Obeys.pure _
  | cons p kvs ih =>
    intro acc hx; obtain ⟨k, x⟩ := p; unfold T.objFields Ref.objFields
    have hx' : ∀ n x ft, (.str n, x) ∈ kvs → aget info.hints n = some ft → P x ft := fun n y ft hy => hx n y ft (by simp [hy])
    cases k
    case str n =>
      refine Obeys.ite (fun _ => ?_) (fun _ => ih _ hx')
      cases hh : aget info.hints n with
      | none => exact Obeys.raise _
      | some ft =>
        exact TK.resolveBind (fun h hin => Obeys.bind (Obeys.rescue (hrec _ _ _ hin (hx n x ft (by simp) hh))
          (fun e => Obeys.ite (fun _ => Obeys.raise _) (fun _ => Obeys.raise _))) (fun y => ih _ hx'))
    all_goals exact ih _ hx'

theorem TK.objloader (info : ObjInfo) (v : Val) (c : Nat)
    (hv : ∀ v' kvs, objItems C v = some (v', kvs) → ∀ n x ft, (.str n, x) ∈ kvs → aget info.hints n = some ft → P x ft) :
    Obeys (Knows W C Γ G) (T.objloader W C rec info v c) (Ref.objloader W C rec' info v c) := by
  unfold T.objloader Ref.objloader
  cases ho : objItems C v with
  | none => exact Obeys.raise _
  | some q =>
    obtain ⟨v', kvs⟩ := q
    refine Obeys.ite (fun _ => Obeys.raise _) (fun _ => Obeys.ite (fun _ => Obeys.ite (fun _ => Obeys.raise _) (fun _ => Obeys.raise _)) (fun _ => ?_))
    refine Obeys.bind (TK.objFields ht hrec _ _ _ _ _ (hv v' kvs ho)) (fun ps => ?_)
    cases construct W c ps with
    | ok r => exact Obeys.pure _
    | error e => exact Obeys.ite (fun _ => Obeys.raise _) (fun _ => Obeys.ite (fun _ => Obeys.raise _) (fun _ => Obeys.raise _))

theorem TK.objMangled (info : ObjInfo) (v : Val) (c : Nat) (hi : InfoFor W C c info) (hv : P v (.obj c)) :
    Obeys (Knows W C Γ G) (T.objMangled W C rec info v c) (Ref.objMangled W C rec' info v c) := by
  unfold T.objMangled Ref.objMangled
  obtain ⟨x, hx, hok⟩ := mangleOrRaise_lift (C := C) ht info.transforms v (.obj c)
  rw [hx]
  cases x with
  | error e => exact Obeys.raise _
  | ok v' =>
    refine TK.objloader ht hrec info v' c ?_
    intro v'' kvs ho n x ft hp hh
    rcases mangle_names_ok (hok v' rfl) with ⟨_, rfl⟩ | ⟨k1, k2, rfl, rfl, _, hl⟩
    · exact ht.objItems hv hi ho n x ft hp hh
    · cases ho
      obtain ⟨f, hf, rfl, hty⟩ := hi.hints n ft hh
      rcases mangleLoop_mem _ _ _ _ _ hl _ hp with h0 | ⟨k, hk, hk2⟩
      · cases h0
      · rcases hk2 with (rfl | he) | ⟨m, p, rfl, ha, he⟩
        · exact ht.field _ k1 c hv (Or.inl rfl) f hf _ x .name hk ft hty
        · have := (pyEq_str_left _ _).1 he
          subst this
          exact ht.field _ k1 c hv (Or.inl rfl) f hf _ x .name hk ft hty
        · have hp : p = f.name := by
            rcases he with he | he
            · cases he; rfl
            · have := (pyEq_str_left _ _).1 he; cases this; rfl
          subst hp
          rw [hi.transforms] at ha
          rcases transformsOf_mem _ (aget_mem ha) with h0 | ⟨g, hg, h1, h2⟩
          · cases h0
          · exact ht.field _ k1 c hv (Or.inl rfl) f hf m x (.renamed g hg h2 h1) hk ft hty

theorem TK.namedtupleload (v : Val) (t : Ty) (hv : P v t) :
    Obeys (Knows W C Γ G) (T.namedtupleload W C rec v t) (Ref.namedtupleload W C rec' v t) := by
  cases t
  case obj c =>
    unfold T.namedtupleload Ref.namedtupleload
    refine Obeys.ite (fun hk => ?_) (fun _ => Obeys.raise _)
    · skip
      exact TK.objloader ht hrec _ _ _ (fun _ _ ho => ht.objItems hv (infoFor_namedtuple hk) ho)
  all_goals exact Obeys.raise _

theorem TK.dataclassload (v : Val) (t : Ty) (hv : P v t) :
    Obeys (Knows W C Γ G) (T.dataclassload W C rec v t) (Ref.dataclassload W C rec' v t) := by
  cases t
  case obj c =>
    unfold T.dataclassload Ref.dataclassload
    refine Obeys.ite (fun hk => ?_) (fun _ => Obeys.raise _)
    · skip
      exact Obeys.after (TK.dataclassCached c) (TK.objMangled ht hrec _ _ _ (infoFor_dataclass hk) hv)
  all_goals exact Obeys.raise _

theorem TK.attrload (v : Val) (t : Ty) (hv : P v t) :
    Obeys (Knows W C Γ G) (T.attrload W C rec v t) (Ref.attrload W C rec' v t) := by
  cases t
  case obj c =>
    unfold T.attrload Ref.attrload
    refine Obeys.ite (fun hk => ?_) (fun _ => Obeys.raise _)
    · skip
      cases hh : attrHints (W.cls c).fields with
      | error e => exact Obeys.raise _
      | ok hints =>
        exact TK.objMangled ht hrec _ _ _ (infoFor_attrs hk hh) hv
  all_goals exact Obeys.raise _

theorem TK.typeddictload (v : Val) (t : Ty) (hv : P v t) :
    Obeys (Knows W C Γ G) (T.typeddictload W C rec v t) (Ref.typeddictload W C rec' v t) := by
  cases t
  case obj c =>
    unfold T.typeddictload Ref.typeddictload
    refine Obeys.ite (fun hk => ?_) (fun _ => Obeys.raise _)
    · refine Obeys.read (fun s hs => Obeys.write (fun s hs => hs.same (hs.coh.rewrite c) ?_) (fun s => RewGrows.rewrite c s) ?_)
      · unfold rewriteAnnotations; split <;> rfl
      · rw [typeddictInfo_rew ht.notRequired c _ false]
        exact TK.objloader ht hrec _ _ _ (fun _ _ ho => ht.objItems hv (infoFor_typeddict hk false) ho)
  all_goals exact Obeys.raise _

theorem TK.unionTry (v : Val) (t : Ty) (us : List Ty) :
    ∀ c r es, (∀ u ∈ us, P v u) → Obeys (Knows W C Γ G) (T.unionTry W C rec v t us c r es) (Ref.unionTry W C rec' v t us c r es) := by
  induction us with
  | nil => intro c r es _; exact Obeys.pure _
  | cons u us ih =>
    intro c r es hg; unfold T.unionTry Ref.unionTry
    have hg' : ∀ u ∈ us, P v u := fun y hy => hg y (by simp [hy])
    repeat' (first | exact hrec _ _ _ ‹_› (hg _ (by simp)) | refine TK.resolveBind (fun _ _ => ?_) | exact ih _ _ _ hg' | tk1)

theorem TK.unionload (v : Val) (t : Ty) (hv : P v t) :
    Obeys (Knows W C Γ G) (T.unionload W C rec v t) (Ref.unionload W C rec' v t) := by
  cases t
  case union ts =>
    unfold T.unionload Ref.unionload
    refine Obeys.ite (fun _ => Obeys.pure _) (fun _ => ?_)
    · have h1 := TK.unionOrder (C := C) (Γ := Γ) (G := G) ht.steadyTags v ts
      cases hr : Ref.unionOrder W C v ts () with
      | div =>
        intro s
        refine (h1 s).bind ?_ ?_ ?_
        · intro b hb; rw [hr] at hb; cases hb
        · intro e he; rw [hr] at he; cases he
        · intro _; simp only [M.bind_apply, hr]
      | err e u =>
        intro s
        refine (h1 s).bind ?_ ?_ ?_
        · intro b hb; rw [hr] at hb; cases hb
        · intro e he; simp only [M.bind_apply, ← he]
        · intro hd; rw [hr] at hd; cases hd
      | ok order u =>
        intro s
        refine (h1 s).bind ?_ ?_ ?_
        · intro b hb; rw [hr] at hb; cases hb
          have : Obeys (Knows W C Γ G) (T.unionTry W C rec v (.union ts) order 0 .none [] >>= fun p =>
              if p.1 = 1 then Pure.pure p.2.1
              else if p.1 = 0 then Prog.raise (mkExcSubs .tlValue (.unionNone (.union ts)) v (.union ts) p.2.2)
              else Prog.raise (mkExcSubs .tlType (.unionMany (.union ts) p.1) v (.union ts) p.2.2))
            (Ref.unionTry W C rec' v (.union ts) order 0 .none [] >>= fun p =>
              if p.1 = 1 then Pure.pure p.2.1
              else if p.1 = 0 then M.throw (mkExcSubs .tlValue (.unionNone (.union ts)) v (.union ts) p.2.2)
              else M.throw (mkExcSubs .tlType (.unionMany (.union ts) p.1) v (.union ts) p.2.2)) := by
            refine Obeys.bind (TK.unionTry ht hrec v _ order 0 .none [] ?_) (fun p => ?_)
            · intro w hw; exact ht.union v ts hv w ((refOrder_mem hr w).1 hw)
            · repeat' tk1
          intro s'
          have h2 := this s'
          refine h2.weaken (fun r hr' => ?_)
          rw [hr']
          simp only [M.bind_apply, hr]
        · intro e he; rw [hr] at he; cases he
        · intro hd; rw [hr] at hd; cases hd
  all_goals exact Obeys.raise _

theorem TK.enumHints (v : Val) (e : Nat) (us : List Ty) :
    ∀ es, (∀ u ∈ us, P v u) → Obeys (Knows W C Γ G) (T.enumHints W C rec v e us es) (Ref.enumHints W C rec' v e us es) := by
  induction us with
  | nil => intro es _; exact Obeys.raise _
  | cons u us ih =>
    intro es hg; unfold T.enumHints Ref.enumHints
    have hg' : ∀ u ∈ us, P v u := fun y hy => hg y (by simp [hy])
    refine Obeys.rescue (Obeys.bind (TK.loadWith ht hrec _ _ _ (hg _ (by simp))) (fun x => ?_)) (fun _ => ih _ hg')
    cases enumCall W e x with
    | some m => exact Obeys.pure _
    | none => exact Obeys.raise _

theorem TK.enumload (v : Val) (t : Ty) (hv : P v t) :
    Obeys (Knows W C Γ G) (T.enumload W C rec v t) (Ref.enumload W C rec' v t) := by
  cases t
  case enum e =>
    unfold T.enumload Ref.enumload
    dsimp only
    cases enumCall W e v with
    | some m => exact Obeys.pure _
    | none => exact TK.enumHints ht hrec _ _ _ _ (ht.enum _ _ hv)
  all_goals exact Obeys.raise _
end handlers


/-! ## Dictionaries -/

/-- `m` is a first attempt at what `m'` does: it has the same outcome unless it raises, which it does only if `Q`. -/
def Drafts {α : Type} (I : LState → Prop) (Q : Prop) (m : Prog α) (m' : R α) : Prop :=
  Safely I (fun r => r = m' () ∨ (Q ∧ ∃ e, r = .err e ())) m

section
variable {α β : Type} {I : LState → Prop} {Q : Prop}
theorem Drafts.pure (a : α) : Drafts I Q (Pure.pure a : Prog α) (Pure.pure a : R α) := fun _ => Or.inl rfl
theorem Drafts.raise (hq : Q) (e : Exc) (m' : R α) : Drafts I Q (Prog.raise e : Prog α) m' := fun _ => Or.inr ⟨hq, e, rfl⟩
theorem Obeys.drafts {m : Prog α} {m' : R α} (h : Obeys I m m') : Drafts I Q m m' := fun s => (h s).weaken (fun _ hr => Or.inl hr)
theorem Drafts.bind {m : Prog α} {m' : R α} {f : α → Prog β} {f' : α → R β} (hm : Drafts I Q m m') (hf : ∀ a, Drafts I Q (f a) (f' a)) :
    Drafts I Q (m >>= f) (m' >>= f') := by
  intro s
  refine (hm s).bind ?_ ?_ ?_
  · rintro a (ha | ⟨_, e, he⟩)
    · intro s'
      simp only [M.bind_apply, ← ha]; exact hf a s'
    · cases he
  · rintro e (he | ⟨hq, _, _⟩)
    · simp only [M.bind_apply, ← he, true_or]
    · exact Or.inr ⟨hq, e, rfl⟩
  · rintro (hd | ⟨_, e, he⟩)
    · simp only [M.bind_apply, ← hd, true_or]
    · cases he
/-- A second attempt makes up for the first. -/
theorem Drafts.rescue {m : Prog α} {m' m'' : R α} {g : Exc → Prog α} {g' : Exc → R α} (hm : Drafts I Q m m') (hg : Q → ∀ e, Obeys I (g e) m'')
    (hmm : m'' = M.rescue m' g') (hno : Q ∨ ∀ e, m' () ≠ .err e ()) : Obeys I (m.rescue g) m'' := by
  intro s
  refine (hm s).rescue ?_ ?_ ?_
  · rintro a (ha | ⟨_, e, he⟩)
    · rw [hmm]; simp only [M.catch_apply, ← ha]
    · cases he
  · rintro e (he | ⟨hq, _, _⟩)
    · rcases hno with hq | hno
      · exact hg hq e
      · exact absurd he.symm (hno e)
    · exact hg hq e
  · rintro (hd | ⟨_, e, he⟩)
    · rw [hmm]; simp only [M.catch_apply, ← hd]
    · cases he
end

/-- A simple call returns or raises at once. -/
theorem T.idle {rec : T.Rec} {h : Handler} {t : Ty} (hi : Idle W h t) (v : Val) :
    (∃ r, T.step W C rec h v t = .ret r) ∨ ∃ e, T.step W C rec h v t = .raise e := by
  have leaf : ∀ {h : Handler}, h.isLeaf = true → (∃ r, Prog.local' (TL.step W C (fun _ _ _ => M.diverge) h v t) = .ret r) ∨
      ∃ e, Prog.local' (TL.step W C (fun _ _ _ => M.diverge) h v t) = .raise e := by
    intro h hl
    obtain ⟨o, ho⟩ := leaf_lift (W := W) (C := C) hl v t
    rw [ho]
    cases o with
    | ok r => exact Or.inl ⟨r, rfl⟩
    | error e => exact Or.inr ⟨e, rfl⟩
  by_cases hl : h.isLeaf = true
  · cases h <;> cases hl
    · exact leaf (h := .noneload) rfl
    · exact leaf (h := .basicload) rfl
    · exact leaf (h := .literalload) rfl
    · exact leaf (h := .datetimeload) rfl
    · exact leaf (h := .patternload) rfl
    · exact leaf (h := .timedeltaload) rfl
    · exact leaf (h := .strconstructload) rfl
    · exact leaf (h := .anyload) rfl
  · have hs : suits W h t = false := hi.resolve_left hl
    cases h <;> (try exact absurd rfl hl) <;> cases t <;> first | cases hs | skip
    all_goals first | exact Or.inr ⟨_, rfl⟩ | skip
    all_goals simp only [T.step, T.unionload, T.enumload, T.tupleload, T.iterload, T.dictload, T.namedtupleload, T.dataclassload,
      T.attrload, T.typeddictload, T.forwardrefload, T.newtypeload]
    all_goals first
      | (split <;> exact Or.inr ⟨_, rfl⟩)
      | (rename_i k _; cases k <;> first | exact Or.inr ⟨_, rfl⟩ | (cases hs; done))
      | (simp only [suits, beq_eq_false_iff_ne, ne_eq] at hs; rw [if_neg hs]; exact Or.inr ⟨_, rfl⟩)

/-- Either no call returns (the fuel is exhausted), or simple calls do. -/
def T.Live (W : World) (C : Config) (rec : T.Rec) (rec' : Ref.Rec) : Prop :=
  ((∀ h v t, rec h v t = .stuck) ∧ ∀ h v t u, rec' h v t u = .div) ∨
  ((∀ h v t, Idle W h t → (∃ r, rec h v t = .ret r) ∨ ∃ e, rec h v t = .raise e) ∧
    ∀ h x t, C.Usual W t → BasicInstance C t x → typeOf x = t → pick W C t = .ok h → rec h x t = Prog.ret x)

section dict
variable {rec : T.Rec} {rec' : Ref.Rec} (ht : Tame W C Γ G P) (hlive : T.Live W C rec rec')
  (hrec : ∀ h v t, Apt W C h t → P v t → Obeys (Knows W C Γ G) (rec h v t) (rec' h v t))
include ht hrec

theorem draft_part {t : Ty} {h : Handler} (hp : pick W C t = .ok h) {x : Val} (hx : P x t) (a : Annotation) :
    Drafts (Knows W C Γ G) True (if (C.isBasic t && isInstTy t x) = true then Pure.pure x else rec h x t) (Ref.part W C rec' x t a) := by
  unfold Ref.part
  rcases pass_or (C := C) (t := t) (x := x) with ⟨hb, _⟩ | ⟨hb, _⟩
  · rw [if_pos hb, if_pos hb]; exact Drafts.pure _
  · rw [hb]
    intro s
    refine (hrec h x t (pick_apt hp) hx s).weaken (fun r hr => ?_)
    show r = Ref.loadWith W C rec' x t (some a) () ∨ _
    rw [ref_loadWith_eq hp, ← hr]
    cases r with
    | ok r u => exact Or.inl rfl
    | err e u => exact Or.inr ⟨trivial, e, rfl⟩
    | div => exact Or.inl rfl

/-- The first pass with the right handlers. -/
theorem draft_fast {kt vt : Ty} {hk : Handler} {valF : Option Handler} (hpk : pick W C kt = .ok hk)
    (hpv : ∀ hv, valF = some hv → pick W C vt = .ok hv) (kvs : List (Val × Val)) : ∀ acc, (∀ p ∈ kvs, P p.1 kt ∧ P p.2 vt) →
    Drafts (Knows W C Γ G) True (T.dictFast W C rec kt vt hk valF kvs acc) (Ref.pairs W C rec' kt vt kvs acc) := by
  induction kvs with
  | nil => intro acc _; exact Drafts.pure _
  | cons p kvs ih =>
    obtain ⟨k, x⟩ := p
    intro acc hx
    have hx1 := hx (k, x) (by simp)
    rw [Keeps.dictFast_cons]
    show Drafts _ _ _ (Ref.part W C rec' k kt (.key k) >>= fun k' => Ref.part W C rec' x vt (.value x) >>= fun x' =>
      if W.hash k' then Ref.pairs W C rec' kt vt kvs (dset acc k' x') else M.throw (.plain .type))
    refine Drafts.bind (draft_part ht hrec hpk hx1.1 _) (fun k' => Drafts.bind ?_ (fun x' => ?_))
    · cases valF with
      | some hv => exact draft_part ht hrec (hpv hv rfl) hx1.2 _
      | none =>
        rcases pass_or (C := C) (t := vt) (x := x) with ⟨hb, _⟩ | ⟨hb, _⟩
        · unfold Ref.part; rw [if_pos hb, if_pos hb]; exact Drafts.pure _
        · rw [hb]; exact Drafts.raise trivial _ _
    · split
      · exact ih _ (fun q hq => hx q (by simp [hq]))
      · exact Drafts.raise trivial _ _

include hlive in
/-- The first pass with an unassigned value handler and values that are not of a basic type. -/
theorem draft_cold {kt vt : Ty} {hk hv : Handler} (hpk : pick W C kt = .ok hk) (hb : C.isBasic vt = false)
    (hi : Idle W hv kt ∨ hv = hk) (kvs acc : List (Val × Val)) (hx : ∀ p ∈ kvs, P p.1 kt ∧ P p.2 vt) :
    Drafts (Knows W C Γ G) True (T.dictFast W C rec kt vt hv none kvs acc) (Ref.pairs W C rec' kt vt kvs acc) := by
  cases kvs with
  | nil => exact Drafts.pure _
  | cons p kvs =>
    obtain ⟨k, x⟩ := p
    have hx1 := hx (k, x) (by simp)
    rw [Keeps.dictFast_cons]
    show Drafts _ _ _ (Ref.part W C rec' k kt (.key k) >>= fun k' => Ref.part W C rec' x vt (.value x) >>= fun x' =>
      if W.hash k' then Ref.pairs W C rec' kt vt kvs (dset acc k' x') else M.throw (.plain .type))
    have hend : ∀ k' (m' : R (List (Val × Val))), Drafts (Knows W C Γ G) True ((if (C.isBasic vt && isInstTy vt x) = true then Pure.pure x else Prog.raise (.plain .name) : Prog Val) >>= fun x' =>
        if W.hash k' then T.dictFast W C rec kt vt hv none kvs (dset acc k' x') else Prog.raise (.plain .type)) m' := by
      intro k' m'
      rw [hb]
      exact fun s => Or.inr ⟨trivial, _, rfl⟩
    rcases hi with hi | rfl
    · rcases pass_or (C := C) (t := kt) (x := k) with ⟨hbk, _⟩ | ⟨hbk, _⟩
      · rw [hbk]
        exact fun s => hend k _ s
      · rw [hbk]
        rcases hlive with ⟨hdead, hdead'⟩ | ⟨hl, _⟩
        · have hdiv : Ref.part W C rec' k kt (.key k) () = .div := by
            unfold Ref.part; rw [hbk]
            show Ref.loadWith W C rec' k kt _ () = _
            rw [ref_loadWith_eq hpk, hdead']
          intro s
          rw [hdead]
          refine Or.inl ?_
          simp only [M.bind_apply, hdiv]
        · rcases hl hv k kt hi with ⟨r, hr⟩ | ⟨e, he⟩
          · rw [hr]
            exact fun s => hend r _ s
          · rw [he]
            exact fun s => Or.inr ⟨trivial, e, rfl⟩
    · exact Drafts.bind (draft_part ht hrec hpk hx1.1 _) (fun k' => hend k' _)

/-- The second pass. -/
theorem obeys_slow {kt vt : Ty} {hk hv : Handler} (hpk : pick W C kt = .ok hk) (hpv : pick W C vt = .ok hv)
    (huk : C.Usual W kt) (huv : C.Usual W vt) (hl : ∀ h x t, C.Usual W t → BasicInstance C t x → typeOf x = t → pick W C t = .ok h → rec h x t = Prog.ret x) (kvs : List (Val × Val)) :
    ∀ acc, (∀ p ∈ kvs, P p.1 kt ∧ P p.2 vt) →
    (∀ p ∈ kvs, (BasicInstance C kt p.1 → typeOf p.1 = kt) ∧ (BasicInstance C vt p.2 → typeOf p.2 = vt)) →
    Obeys (Knows W C Γ G) (T.dictSlow W C rec kt vt kvs acc) (Ref.pairs W C rec' kt vt kvs acc) := by
  have part : ∀ {t : Ty} {h : Handler} {x : Val} {a : Annotation}, C.Usual W t → pick W C t = .ok h → P x t → (BasicInstance C t x → typeOf x = t) →
      Obeys (Knows W C Γ G) (T.loadWith W C rec x t (some a)) (Ref.part W C rec' x t a) := by
    intro t h x a hu hp hx hb
    unfold Ref.part
    rcases pass_or (C := C) (t := t) (x := x) with ⟨hbk, hbi⟩ | ⟨hbk, _⟩
    · rw [if_pos hbk]
      unfold T.loadWith
      have hres : Ref.resolve W C t (mkExc .tlType (.noHandler t) x t) = Pure.pure h := by unfold Ref.resolve; rw [hp]
      refine Obeys.after (a := h) (by rw [← hres]; exact TK.loadResolve ht (ht.type _ _ hx) x) ?_
      rw [hl h x t hu hbi (hb hbi) hp]
      exact Obeys.pure _
    · rw [hbk]; exact TK.loadWith ht hrec _ _ _ hx
  induction kvs with
  | nil => intro acc _ _; exact Obeys.pure _
  | cons p kvs ih =>
    obtain ⟨k, x⟩ := p
    intro acc hx hex
    have hx1 := hx (k, x) (by simp)
    rw [T.dictSlow]
    show Obeys _ _ (Ref.part W C rec' k kt (.key k) >>= fun k' => Ref.part W C rec' x vt (.value x) >>= fun x' =>
      if W.hash k' then Ref.pairs W C rec' kt vt kvs (dset acc k' x') else M.throw (.plain .type))
    refine Obeys.bind (part huk hpk hx1.1 (hex (k, x) (by simp)).1) (fun k' => Obeys.bind (part huv hpv hx1.2 (hex (k, x) (by simp)).2) (fun x' => ?_))
    exact Obeys.ite (fun _ => ih _ (fun q hq => hx q (by simp [hq])) (fun q hq => hex q (by simp [hq]))) (fun _ => Obeys.raise _)

omit hrec ht in
/-- Without fuel the first pass raises only if the single pass does not return. -/
theorem dead_fast (hdead : ∀ h v t, rec h v t = .stuck) (hdead' : ∀ h v t u, rec' h v t u = .div) {kt vt : Ty} {hk hv keyF : Handler}
    {valF : Option Handler} (hpk : pick W C kt = .ok hk) (hpv : pick W C vt = .ok hv) (kvs : List (Val × Val)) : ∀ acc,
    Drafts (Knows W C Γ G) (Ref.pairs W C rec' kt vt kvs acc () = .div) (T.dictFast W C rec kt vt keyF valF kvs acc)
      (Ref.pairs W C rec' kt vt kvs acc) ∧ ∀ e, Ref.pairs W C rec' kt vt kvs acc () ≠ .err e () := by
  induction kvs with
  | nil => intro acc; exact ⟨Drafts.pure _, fun e h => (by cases h)⟩
  | cons p kvs ih =>
    obtain ⟨k, x⟩ := p
    intro acc
    have hload : ∀ {t : Ty} {h : Handler} (x : Val) (a : Option Annotation), pick W C t = .ok h → Ref.loadWith W C rec' x t a () = .div := by
      intro t h x a hp
      rw [ref_loadWith_eq hp, hdead']
    have hunf : Ref.pairs W C rec' kt vt ((k, x) :: kvs) acc = (Ref.part W C rec' k kt (.key k) >>= fun k' => Ref.part W C rec' x vt (.value x) >>= fun x' =>
      if W.hash k' then Ref.pairs W C rec' kt vt kvs (dset acc k' x') else M.throw (.plain .type)) := rfl
    rw [Keeps.dictFast_cons, hunf]
    unfold Ref.part
    rcases pass_or (C := C) (t := kt) (x := k) with ⟨hbk, hbi⟩ | ⟨hbk, _⟩
    · rcases pass_or (C := C) (t := vt) (x := x) with ⟨hbx, _⟩ | ⟨hbx, _⟩
      · rw [hbk, hbx]
        have h1 : ∀ y : Val, (if W.hash k = true then Ref.pairs W C rec' kt vt kvs (dset acc k y) else M.throw (.plain .type)) =
            Ref.pairs W C rec' kt vt kvs (dset acc k y) := fun y => if_pos (basicInstance_hash hbi)
        have h2 : ∀ y : Val, (if W.hash k = true then T.dictFast W C rec kt vt keyF valF kvs (dset acc k y) else Prog.raise (.plain .type)) =
            T.dictFast W C rec kt vt keyF valF kvs (dset acc k y) := fun y => if_pos (basicInstance_hash hbi)
        have e1 : ((if true = true then (Pure.pure k : R Val) else Ref.loadWith W C rec' k kt (some (.key k))) >>= fun k' =>
            (if true = true then (Pure.pure x : R Val) else Ref.loadWith W C rec' x vt (some (.value x))) >>= fun x' =>
            if W.hash k' then Ref.pairs W C rec' kt vt kvs (dset acc k' x') else M.throw (.plain .type)) = Ref.pairs W C rec' kt vt kvs (dset acc k x) := h1 x
        rw [e1]
        have := ih (dset acc k x)
        rw [← h2 x] at this
        exact this
      · rw [hbk, hbx]
        have hdiv : ((if true = true then (Pure.pure k : R Val) else Ref.loadWith W C rec' k kt (some (.key k))) >>= fun k' =>
            (if false = true then (Pure.pure x : R Val) else Ref.loadWith W C rec' x vt (some (.value x))) >>= fun x' =>
            if W.hash k' then Ref.pairs W C rec' kt vt kvs (dset acc k' x') else M.throw (.plain .type)) () = .div := by
          simp only [M.bind_apply, if_true, M.pure_apply, Bool.false_eq_true, if_false, hload x _ hpv]
        refine ⟨fun s => ?_, fun e h => by rw [hdiv] at h; cases h⟩
        rw [hdiv]
        cases valF with
        | some h => simp only [Bool.false_eq_true, if_false, hdead]; exact Or.inl rfl
        | none => exact Or.inr ⟨rfl, _, rfl⟩
    · rw [hbk]
      have hdiv : ∀ f : Val → R (List (Val × Val)), ((if false = true then (Pure.pure k : R Val) else Ref.loadWith W C rec' k kt (some (.key k))) >>= f) () = .div := by
        intro f
        simp only [M.bind_apply, Bool.false_eq_true, if_false, hload k _ hpk]
      refine ⟨fun s => ?_, fun e h => by rw [hdiv] at h; cases h⟩
      rw [hdiv]
      simp only [Bool.false_eq_true, if_false, hdead]
      exact Or.inl rfl

omit hrec in
/-- Without fuel the second pass does not return. -/
theorem dead_slow (hdead : ∀ h v t, rec h v t = .stuck) {kt vt : Ty} {hk : Handler} (hpk : pick W C kt = .ok hk) {k x : Val} (hx : P k kt)
    (rest acc : List (Val × Val)) : Obeys (Knows W C Γ G) (T.dictSlow W C rec kt vt ((k, x) :: rest) acc) (fun _ => .div) := by
  have hres : Ref.resolve W C kt (mkExc .tlType (.noHandler kt) k kt) = Pure.pure hk := by unfold Ref.resolve; rw [hpk]
  have h1 : Obeys (Knows W C Γ G) (T.loadWith W C rec k kt (some (.key k))) (fun _ => .div) := by
    unfold T.loadWith
    refine Obeys.after (a := hk) (by rw [← hres]; exact TK.loadResolve ht (ht.type _ _ hx) k) ?_
    rw [hdead]
    exact fun _ => rfl
  rw [T.dictSlow]
  intro s
  refine (h1 s).bind ?_ ?_ ?_
  · intro a h; cases h
  · intro a h; cases h
  · intro _; rfl

include hlive
theorem TK.dictload (v : Val) (t : Ty) (hv : P v t) :
    Obeys (Knows W C Γ G) (T.dictload W C rec v t) (Ref.dictload W C rec' v t) := by
  cases t
  case dict kt vt =>
    have hg := ht.type _ _ hv
    have hus := ht.dictUsual _ _ hg
    unfold T.dictload Ref.dictload
    refine Obeys.installed (TK.resolve _ _) (fun hk hpk => ?_)
    -- the handler of the values
    have main : ∀ keyF valF hvh, pick W C vt = .ok hvh → (keyF = hk ∧ valF = some hvh ∨ keyF = hvh ∧ valF = none) →
        Obeys (Knows W C Γ G) (T.dictPasses W C rec v (.dict kt vt) kt vt (keyF, valF))
          (M.rescue
            (match items (dictequivalence C v) with
              | none => M.throw (.plain .attr)
              | some kvs => Ref.pairs W C rec' kt vt kvs [] >>= fun r => Pure.pure (.dict r))
            (fun e => if e.cls.isAttr then M.throw (mkExc .tlAttr .wrapped (dictequivalence C v) (.dict kt vt)) else M.throw e)) := by
      intro keyF valF hvh hpv hcase
      unfold T.dictPasses
      cases hit : items (dictequivalence C v) with
      | none => exact fun _ => rfl
      | some kvs =>
        have hdd := (items_dictequivalence v kvs).1 hit
        have hx := ht.dict v kvs _ _ hv hdd
        have hex := ht.dictExact v _ _ kvs hv hdd
        rcases hlive with ⟨hdead, hdead'⟩ | hlive'
        · obtain ⟨h1, h2⟩ := dead_fast (Γ := Γ) (G := G) hdead hdead' (keyF := keyF) (valF := valF) hpk hpv kvs []
          refine Drafts.rescue (Q := Ref.pairs W C rec' kt vt kvs [] () = .div)
            (m' := Ref.pairs W C rec' kt vt kvs [] >>= fun r => Pure.pure (.dict r))
            (g' := fun e => if e.cls.isAttr then M.throw (mkExc .tlAttr .wrapped (dictequivalence C v) (.dict kt vt)) else M.throw e)
            (Drafts.bind h1 (fun r => Drafts.pure _)) ?_ rfl ?_
          · intro hdiv e
            cases kvs with
            | nil => cases hdiv
            | cons p rest =>
              obtain ⟨k, x⟩ := p
              have h3 := dead_slow (vt := vt) (x := x) ht hdead hpk (hx (k, x) (by simp)).1 rest []
              have h4 : Obeys (Knows W C Γ G) (T.dictSlow W C rec kt vt ((k, x) :: rest) [] >>= fun r => (Pure.pure (.dict r) : Prog Val)) (fun _ => .div) := by
                intro s
                refine (h3 s).bind ?_ ?_ ?_
                · intro a h; cases h
                · intro a h; cases h
                · intro _; rfl
              intro s
              refine (h4 s).rescue ?_ ?_ ?_
              · intro a h; cases h
              · intro a h; cases h
              · intro _
                simp only [M.catch_apply, M.bind_apply, hdiv]
          · right
            intro e h
            simp only [M.bind_apply] at h
            cases hp : Ref.pairs W C rec' kt vt kvs [] () with
            | ok r u => rw [hp] at h; cases h
            | err e' u => exact h2 e' hp
            | div => rw [hp] at h; cases h
        · have hdraft : Drafts (Knows W C Γ G) True (T.dictFast W C rec kt vt keyF valF kvs []) (Ref.pairs W C rec' kt vt kvs []) := by
            rcases hcase with ⟨rfl, rfl⟩ | ⟨rfl, rfl⟩
            · exact draft_fast ht hrec hpk (fun _ h => by cases h; exact hpv) kvs [] hx
            · rcases ht.dictColl _ _ hg with hkv | hcoll
              · subst hkv; rw [hpk] at hpv; cases hpv
                exact draft_fast ht hrec hpk (fun _ h => by cases h) kvs [] hx
              · rcases ht.dictSafe _ _ hg with hb | hkv | ⟨h1, h2, h3, h4⟩
                · exact draft_cold ht (Or.inr hlive') hrec hpk hb (suits_same (hus.1.picked hpk) (hus.2.picked hpv) hcoll) kvs [] hx
                · subst hkv; rw [hpk] at hpv; cases hpv
                  exact draft_fast ht hrec hpk (fun _ h => by cases h) kvs [] hx
                · have e1 : hk = .basicload := by
                    have := hus.1.picked hpk
                    cases this <;> simp [Config.isBasic] at h1 h3 <;> rfl
                  have e2 : keyF = .basicload := by
                    have := hus.2.picked hpv
                    cases this <;> simp [Config.isBasic] at h2 h4 <;> rfl
                  subst e1 e2
                  exact draft_fast ht hrec hpk (fun _ h => by cases h) kvs [] hx
          refine Drafts.rescue (Q := True)
            (m' := Ref.pairs W C rec' kt vt kvs [] >>= fun r => Pure.pure (.dict r))
            (g' := fun e => if e.cls.isAttr then M.throw (mkExc .tlAttr .wrapped (dictequivalence C v) (.dict kt vt)) else M.throw e)
            (Drafts.bind hdraft (fun r => Drafts.pure _)) ?_ rfl (Or.inl trivial)
          intro _ e
          exact Obeys.rescue (Obeys.bind (obeys_slow ht hrec hpk hpv hus.1 hus.2 hlive'.2 kvs [] hx hex) (fun r => Obeys.pure _))
            (fun e => Obeys.ite (fun _ => Obeys.raise _) (fun _ => Obeys.raise _))
    unfold T.dictValueHandler
    show Obeys _ ((Prog.read >>= fun s => _) >>= _) _
    have assoc : ∀ {α β γ : Type} (m : Prog α) (f : α → Prog β) (g : β → Prog γ), (m >>= f) >>= g = m >>= fun a => f a >>= g := by
      intro α β γ m f g
      show (m.bind f).bind g = m.bind (fun a => (f a).bind g)
      induction m with
      | ret a => rfl
      | raise e => rfl
      | stuck => rfl
      | act h k ih => simp only [Prog.bind, ih]
    rw [assoc]
    refine Obeys.read (fun s hs => ?_)
    cases hi : aget s.idx vt with
    | some hvh =>
      have hpv := hs.coh.idx vt hvh hi
      have : Ref.resolve W C vt (mkExc .tlValue (.noHandlerIn vt (.dict kt vt)) v vt) = Pure.pure hvh := by unfold Ref.resolve; rw [hpv]
      rw [this]
      exact main hk (some hvh) hvh hpv (Or.inl ⟨rfl, rfl⟩)
    | none =>
      cases hpv : pick W C vt with
      | ok hvh =>
        have : Ref.resolve W C vt (mkExc .tlValue (.noHandlerIn vt (.dict kt vt)) v vt) = Pure.pure hvh := by unfold Ref.resolve; rw [hpv]
        rw [this]
        dsimp only
        rw [assoc]
        exact Obeys.write (fun s hs => hs.setIdx hpv) (fun _ => RewGrows.refl _) (main hvh none hvh hpv (Or.inr ⟨rfl, rfl⟩))
      | error c =>
        have : Ref.resolve W C vt (mkExc .tlValue (.noHandlerIn vt (.dict kt vt)) v vt) =
            M.throw (Ref.lookupError (mkExc .tlValue (.noHandlerIn vt (.dict kt vt)) v vt) c) := by unfold Ref.resolve; rw [hpv]
        rw [this]
        unfold Ref.lookupError
        dsimp only
        split <;> exact fun _ => rfl
  all_goals exact Obeys.raise _

theorem TK.step (h : Handler) (v : Val) (t : Ty) (hin : Apt W C h t) (hv : P v t) :
    Obeys (Knows W C Γ G) (T.step W C rec h v t) (Ref.step W C Γ rec' h v t) := by
  have leaf : ∀ {h : Handler}, h.isLeaf = true → Obeys (Knows W C Γ G) (Prog.local' (TL.step W C (fun _ _ _ => M.diverge) h v t))
      (ofL (TL.step W C (fun _ _ _ => M.diverge) h v t)) := by
    intro h hl
    obtain ⟨o, ho⟩ := leaf_lift (W := W) (C := C) hl v t
    exact Obeys.ofLocal o (ho _)
  cases h
  case unionload => exact TK.unionload ht hrec v t hv
  case enumload => exact TK.enumload ht hrec v t hv
  case tupleload => exact TK.tupleload ht hrec v t hv
  case listload => exact TK.iterload ht hrec _ v t hv
  case setload => exact TK.iterload ht hrec _ v t hv
  case frozensetload => exact TK.iterload ht hrec _ v t hv
  case dictload => exact TK.dictload ht hlive hrec v t hv
  case namedtupleload => exact TK.namedtupleload ht hrec v t hv
  case dataclassload => exact TK.dataclassload ht hrec v t hv
  case attrload => exact TK.attrload ht hrec v t hv
  case typeddictload => exact TK.typeddictload ht hrec v t hv
  case forwardrefload => exact TK.forwardrefload ht hrec v t hv
  case newtypeload => exact TK.newtypeload ht hrec v t hv
  case custom i => exact TK.custom ht hrec _ (fun x u hx => ht.asks i v t x u hv (hin.2 i rfl) hx)
  all_goals
    first
    | exact leaf (h := .noneload) rfl | exact leaf (h := .basicload) rfl | exact leaf (h := .literalload) rfl
    | exact leaf (h := .datetimeload) rfl | exact leaf (h := .patternload) rfl | exact leaf (h := .timedeltaload) rfl
    | exact leaf (h := .strconstructload) rfl | exact leaf (h := .anyload) rfl
end dict

/-- A basic value loads to itself. -/
theorem T.step_basic (rec : T.Rec) {h : Handler} {x : Val} {t : Ty} (hu : C.Usual W t) (hb : BasicInstance C t x) (he : typeOf x = t)
    (hp : pick W C t = .ok h) : T.step W C rec h x t = Prog.ret x := by
  obtain ⟨p, rfl, h1, h2⟩ := hb
  have := hu.picked hp
  cases this with
  | none => cases x <;> simp [isInst] at h2; rfl
  | basic =>
    show Prog.local' (TL.basicload W C x (.prim p)) = _
    unfold basicload
    rw [if_neg (by simpa using he)]
    rfl

theorem TK.run (ht : Tame W C Γ G P) (n : Nat) : ∀ h v t, Apt W C h t → P v t →
    Obeys (Knows W C Γ G) (T.run W C n h v t) (Ref.run W C Γ n h v t) := by
  induction n with
  | zero => intro h v t _ _ s; rfl
  | succ n ih =>
    intro h v t hin hv
    refine TK.step ht ?_ ih h v t hin hv
    cases n with
    | zero => exact Or.inl ⟨fun _ _ _ => rfl, fun _ _ _ _ => rfl⟩
    | succ n => exact Or.inr ⟨fun h v t hi => T.idle hi v, fun h x t hu hb he hp => T.step_basic _ hu hb he hp⟩

/-- A thread that shares a loader computes the reference loader. -/
theorem TK.load (ht : Tame W C Γ G P) (n : Nat) (v : Val) (t : Ty) (hv : P v t) :
    Obeys (Knows W C Γ G) (T.load W C n v t) (Ref.load W C Γ n v t) := TK.loadWith ht (TK.run ht n) v t none hv

end TL
