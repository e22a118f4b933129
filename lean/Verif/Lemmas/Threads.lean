import Verif.Model.Threads
import Verif.Lemmas.State
/-!
# Programs that share a loader with others

`Safe I Q m s`: when `m` last saw the state `s` and, from then on, the others keep the invariant `I` and only add to the rewritten
annotations, then so does `m`, and its outcome satisfies `Q`, whatever the others do.
-/

namespace TL

set_option linter.unusedSectionVars false

/-- Annotations are only ever rewritten once. -/
def RewGrows (s s' : LState) : Prop := ∀ c ∈ s.tdRew, c ∈ s'.tdRew

theorem RewGrows.refl (s : LState) : RewGrows s s := fun _ h => h
theorem RewGrows.trans {a b c : LState} (h : RewGrows a b) (h' : RewGrows b c) : RewGrows a c := fun x hx => h' x (h x hx)

/-- `m` keeps the invariant, relying on the others to do so, and has an outcome in `Q`. -/
def Safe {α : Type} (I : LState → Prop) (Q : Res Unit Exc α → Prop) : Prog α → LState → Prop
  | .ret a, _ => Q (.ok a ())
  | .raise e, _ => Q (.err e ())
  | .stuck, _ => Q .div
  | .act f k, s0 => ∀ s, RewGrows s0 s → I s → I (f s) ∧ RewGrows s (f s) ∧ Safe I Q (k s) (f s)

/-- The same whatever was last seen. -/
def Safely {α : Type} (I : LState → Prop) (Q : Res Unit Exc α → Prop) (m : Prog α) : Prop := ∀ s, Safe I Q m s

section
variable {α β : Type} {I : LState → Prop}

theorem Safe.weaken {Q Q' : Res Unit Exc α → Prop} (hq : ∀ r, Q r → Q' r) : ∀ {m : Prog α} {s : LState}, Safe I Q m s → Safe I Q' m s := by
  intro m
  induction m with
  | ret a => intro s h; exact hq _ h
  | raise e => intro s h; exact hq _ h
  | stuck => intro s h; exact hq _ h
  | act f k ih => intro s h s1 h1 h2; exact ⟨(h s1 h1 h2).1, (h s1 h1 h2).2.1, ih s1 (h s1 h1 h2).2.2⟩

theorem Safe.handle {Q : Res Unit Exc α → Prop} {Q' : Res Unit Exc β → Prop} {f : α → Prog β} {g : Exc → Prog β}
    (hf : ∀ a, Q (.ok a ()) → Safely I Q' (f a)) (hg : ∀ e, Q (.err e ()) → Safely I Q' (g e)) (hd : Q .div → Q' .div) :
    ∀ {m : Prog α} {s : LState}, Safe I Q m s → Safe I Q' (m.handle f g) s := by
  intro m
  induction m with
  | ret a => intro s h; exact hf a h s
  | raise e => intro s h; exact hg e h s
  | stuck => intro s h; exact hd h
  | act h k ih => intro s hs s1 h1 h2; exact ⟨(hs s1 h1 h2).1, (hs s1 h1 h2).2.1, ih s1 (hs s1 h1 h2).2.2⟩

theorem Prog.bind_handle (m : Prog α) (f : α → Prog β) : m >>= f = m.handle f Prog.raise := by
  show m.bind f = _
  induction m with
  | ret a => rfl
  | raise e => rfl
  | stuck => rfl
  | act h k ih => simp only [Prog.bind, Prog.handle, ih]

theorem Prog.rescue_handle (m : Prog α) (g : Exc → Prog α) : m.rescue g = m.handle Prog.ret g := by
  induction m with
  | ret a => rfl
  | raise e => rfl
  | stuck => rfl
  | act h k ih => simp only [Prog.rescue, Prog.handle, ih]

theorem Safe.bind {Q : Res Unit Exc α → Prop} {Q' : Res Unit Exc β → Prop} {m : Prog α} {f : α → Prog β} {s : LState} (hm : Safe I Q m s)
    (hf : ∀ a, Q (.ok a ()) → Safely I Q' (f a)) (hg : ∀ e, Q (.err e ()) → Q' (.err e ())) (hd : Q .div → Q' .div) :
    Safe I Q' (m >>= f) s := by
  rw [Prog.bind_handle]
  exact hm.handle (g := Prog.raise) hf (fun e h _ => (hg e h : Q' (.err e ()))) hd

theorem Safe.rescue {Q Q' : Res Unit Exc α → Prop} {m : Prog α} {g : Exc → Prog α} {s : LState} (hm : Safe I Q m s)
    (hf : ∀ a, Q (.ok a ()) → Q' (.ok a ())) (hg : ∀ e, Q (.err e ()) → Safely I Q' (g e)) (hd : Q .div → Q' .div) :
    Safe I Q' (m.rescue g) s := by
  rw [Prog.rescue_handle]
  exact hm.handle (f := Prog.ret) (fun a h _ => (hf a h : Q' (.ok a ()))) hg hd
end

/-! ## The caches are right under every schedule -/

/-- The caches hold what would be computed anew. -/
structure Coh (W : World) (C : Config) (s : LState) : Prop where
  idx : ∀ t h, aget s.idx t = some h → pick W C t = .ok h
  objc : ∀ c i, aget s.objc c = some i → i = dataclassInfo C (W.cls c)
  disc : ∀ t d, aget s.disc t = some d → ∃ ts rew, t = .union (W.unionKey ts) ∧ d = mkDisc W rew ts ∧ ∀ c ∈ rew, c ∈ s.tdRew

variable {W : World} {C : Config}

theorem Coh.setIdx {s : LState} (h : Coh W C s) {t : Ty} {hd : Handler} (hp : pick W C t = .ok hd) : Coh W C { s with idx := aset s.idx t hd } :=
  ⟨fun t' h' e => (aget_aset_new t' h' e).elim (h.idx t' h') (fun ⟨a, b⟩ => by subst a b; exact hp), h.objc, h.disc⟩

theorem Coh.setFrefs {s : LState} (h : Coh W C s) (f : Option (List (String × Ty))) : Coh W C { s with frefs := f } := ⟨h.idx, h.objc, h.disc⟩

theorem Coh.setObjc {s : LState} (h : Coh W C s) (c : Nat) : Coh W C { s with objc := aset s.objc c (dataclassInfo C (W.cls c)) } :=
  ⟨h.idx, fun t' h' e => (aget_aset_new t' h' e).elim (h.objc t' h') (fun ⟨a, b⟩ => by subst a b; rfl), h.disc⟩

theorem Coh.setDisc {s : LState} (h : Coh W C s) (ts : List Ty) {rew : List Nat} (hr : ∀ c ∈ rew, c ∈ s.tdRew) :
    Coh W C { s with disc := aset s.disc (.union (W.unionKey ts)) (mkDisc W rew ts) } :=
  ⟨h.idx, h.objc, fun t' h' e => (aget_aset_new t' h' e).elim (h.disc t' h') (fun ⟨a, b⟩ => by subst a b; exact ⟨ts, rew, rfl, rfl, hr⟩)⟩

theorem Coh.rewrite {s : LState} (h : Coh W C s) (c : Nat) : Coh W C (rewriteAnnotations W c s) := by
  unfold rewriteAnnotations
  split
  · exact ⟨h.idx, h.objc, fun t d e =>
      let ⟨ts, rew, a, b, d⟩ := h.disc t d e; ⟨ts, rew, a, b, fun x hx => List.mem_cons_of_mem _ (d x hx)⟩⟩
  · exact h

theorem RewGrows.rewrite (c : Nat) (s : LState) : RewGrows s (rewriteAnnotations W c s) := by
  unfold rewriteAnnotations
  split
  · exact fun x hx => List.mem_cons_of_mem _ hx
  · exact RewGrows.refl s

/-- `m` keeps the caches right, and what it returns satisfies `Q`. -/
abbrev Keeps (W : World) (C : Config) {α : Type} (m : Prog α) : Prop := Safely (Coh W C) (fun _ => True) m

namespace Keeps
variable {α β : Type}
theorem pure (a : α) : Keeps W C (Pure.pure a : Prog α) := fun _ => trivial
theorem raise (e : Exc) : Keeps W C (Prog.raise e : Prog α) := fun _ => trivial
theorem bind {m : Prog α} {f : α → Prog β} (hm : Keeps W C m) (hf : ∀ a, Keeps W C (f a)) : Keeps W C (m >>= f) :=
  fun s => (hm s).bind (fun a _ => hf a) (fun _ _ => trivial) (fun _ => trivial)
theorem rescue {m : Prog α} {g : Exc → Prog α} (hm : Keeps W C m) (hg : ∀ e, Keeps W C (g e)) : Keeps W C (m.rescue g) :=
  fun s => (hm s).rescue (fun _ _ => trivial) (fun e _ => hg e) (fun _ => trivial)
theorem handle {m : Prog α} {f : α → Prog β} {g : Exc → Prog β} (hm : Keeps W C m) (hf : ∀ a, Keeps W C (f a)) (hg : ∀ e, Keeps W C (g e)) :
    Keeps W C (m.handle f g) :=
  fun s => (hm s).handle (fun a _ => hf a) (fun e _ => hg e) (fun _ => trivial)
theorem ite {c : Prop} [Decidable c] {a b : Prog α} (h1 : Keeps W C a) (h2 : Keeps W C b) : Keeps W C (if c then a else b) := by
  split <;> assumption
theorem read {f : LState → Prog α} (h : ∀ s, Coh W C s → Keeps W C (f s)) : Keeps W C (Prog.read >>= f) :=
  fun _ s _ hs => ⟨hs, RewGrows.refl s, h s hs _⟩
theorem write {f : LState → LState} {m : Unit → Prog α} (hf : ∀ s, Coh W C s → Coh W C (f s)) (hr : ∀ s, RewGrows s (f s)) (h : Keeps W C (m ())) :
    Keeps W C (Prog.write f >>= m) := fun _ s _ hs => ⟨hf s hs, hr s, h _⟩
theorem local' (m : L α) : Keeps W C (Prog.local' m) := by
  intro s
  unfold Prog.local'
  split <;> exact trivial

theorem resolve (t : Ty) (e : Exc) : Keeps W C (T.resolve W C t e) := by
  unfold T.resolve
  refine read (fun s hs => ?_)
  cases aget s.idx t with
  | some h => exact pure _
  | none =>
    cases hp : pick W C t with
    | ok h => exact write (fun s hs => hs.setIdx hp) (fun _ => RewGrows.refl _) (pure _)
    | error c => exact ite (raise _) (raise _)

theorem register (t : Ty) : Keeps W C (T.register W t) := by
  unfold T.register
  refine read (fun s hs => ?_)
  cases s.frefs with
  | none => exact pure _
  | some _ =>
    cases W.tyName t with
    | none => exact pure _
    | some n =>
      refine read (fun s hs => ?_)
      cases s.frefs with
      | none => exact raise _
      | some fr =>
        dsimp only
        cases aget fr n with
        | some _ => exact pure _
        | none => exact fun _ s _ hs => ⟨hs.setFrefs _, RewGrows.refl s, trivial⟩

theorem loadResolve (v : Val) (t : Ty) : Keeps W C (T.loadResolve W C v t) := by
  unfold T.loadResolve
  refine read (fun s hs => ?_)
  cases aget s.idx t with
  | some h => exact pure _
  | none =>
    cases hp : pick W C t with
    | ok h => exact write (fun s hs => hs.setIdx hp) (fun _ => RewGrows.refl _) (bind (register t) (fun _ => pure _))
    | error c => exact ite (raise _) (raise _)

theorem tupHandler (t : Ty) : Keeps W C (T.tupHandler W C t) := by
  unfold T.tupHandler
  refine read (fun s hs => ?_)
  cases aget s.idx t with
  | some h => exact pure _
  | none => cases pick W C t <;> first | exact pure _ | exact raise _

theorem dictValueHandler (v : Val) (t vt : Ty) (keyF : Handler) : Keeps W C (T.dictValueHandler W C v t vt keyF) := by
  unfold T.dictValueHandler
  refine read (fun s hs => ?_)
  cases aget s.idx vt with
  | some h => exact pure _
  | none =>
    cases hp : pick W C vt with
    | ok h => exact write (fun s hs => hs.setIdx hp) (fun _ => RewGrows.refl _) (pure _)
    | error c => exact ite (raise _) (raise _)

theorem dataclassCached (c : Nat) : Keeps W C (T.dataclassCached W C c) := by
  unfold T.dataclassCached
  refine read (fun s hs => ?_)
  cases aget s.objc c with
  | some i => exact pure _
  | none => exact write (fun s hs => hs.setObjc c) (fun _ => RewGrows.refl _) (pure _)

theorem discCached (ts : List Ty) : Keeps W C (T.discCached W ts) := by
  unfold T.discCached
  refine read (fun s hs => ?_)
  cases aget s.disc (.union (W.unionKey ts)) with
  | some d => exact pure _
  | none =>
    intro _ s _ hs
    refine ⟨hs, RewGrows.refl s, ?_⟩
    intro s' hg hs'
    exact ⟨hs'.setDisc ts hg, RewGrows.refl s', trivial⟩

section
variable {rec : T.Rec} (hrec : ∀ h v t, Keeps W C (rec h v t))
include hrec

/-- One step of the syntax-directed proof. -/
macro "kp1" : tactic => `(tactic| first
  | exact Keeps.pure _ | exact Keeps.raise _ | exact Keeps.resolve _ _ | exact Keeps.tupHandler _ | exact Keeps.loadResolve _ _
  | exact Keeps.local' _ | exact Keeps.dataclassCached _ | exact Keeps.discCached _ | exact Keeps.dictValueHandler _ _ _ _
  | assumption | (solve_by_elim (maxDepth := 2)) | exact ‹∀ h v t, Keeps _ _ (_ : Prog Val)› _ _ _
  | refine Keeps.bind ?_ (fun _ => ?_) | refine Keeps.rescue ?_ (fun _ => ?_)
  | refine Keeps.handle ?_ (fun _ => ?_) (fun _ => ?_) | refine Keeps.ite ?_ ?_)

theorem loadWith (v : Val) (t : Ty) (a : Option Annotation) : Keeps W C (T.loadWith W C rec v t a) := by
  unfold T.loadWith
  repeat' kp1

theorem forwardrefload (v : Val) (t : Ty) : Keeps W C (T.forwardrefload W C rec v t) := by
  unfold T.forwardrefload
  cases t
  case fref n =>
    refine read (fun s hs => ?_)
    cases s.frefs with
    | none => exact raise _
    | some _ =>
      refine read (fun s hs => ?_)
      cases s.frefs with
      | none => exact raise _
      | some fr =>
        cases h : aget fr n with
        | none => simp only [h]; exact raise _
        | some t' => simp only [h]; exact loadWith hrec _ _ _
  all_goals exact raise _

theorem newtypeload (v : Val) (t : Ty) : Keeps W C (T.newtypeload W C rec v t) := by
  cases t
  case newtype n t => exact loadWith hrec _ _ _
  all_goals exact raise _

theorem iterElem (h : Handler) (et : Ty) (x : Val) : Keeps W C (T.iterElem C rec h et x) := by
  cases et <;> unfold T.iterElem <;> repeat' kp1

theorem iterElems (h : Handler) (k : SeqKind) (et : Ty) (v : Val) (t : Ty) (xs : List Val) :
    ∀ i acc, Keeps W C (T.iterElems W C rec h k et v t xs i acc) := by
  induction xs with
  | nil => intro i acc; exact pure _
  | cons x xs ih =>
    intro i acc
    unfold T.iterElems
    refine handle (iterElem hrec _ _ _) (fun y => ?_) (fun e => ite (pure _) (raise _))
    cases collAdd W k acc y with
    | error c => exact raise _
    | ok acc' => exact ih _ _

theorem iterload (k : SeqKind) (v : Val) (t : Ty) : Keeps W C (T.iterload W C rec k v t) := by
  unfold T.iterload
  refine ite (raise _) ?_
  cases t
  case coll k' et =>
    refine bind (resolve _ _) (fun h => ?_)
    cases pyIter v with
    | none => exact raise _
    | some xs => exact bind (iterElems hrec _ _ _ _ _ _ _ _) (fun _ => pure _)
  all_goals exact raise _

theorem tupElems (v : Val) (t : Ty) (xs : List Val) : ∀ us i, Keeps W C (T.tupElems W C rec v t xs us i) := by
  induction xs with
  | nil => intro us i; unfold T.tupElems; exact pure _
  | cons x xs ih =>
    intro us i
    cases us with
    | nil => unfold T.tupElems; exact pure _
    | cons u us =>
      unfold T.tupElems
      exact bind (rescue (bind (tupHandler _) (fun h => ite (pure _) (hrec _ _ _))) (fun e => raise _))
        (fun y => bind (ih _ _) (fun _ => pure _))

theorem tupleload (v : Val) (t : Ty) : Keeps W C (T.tupleload W C rec v t) := by
  cases t
  case coll k t =>
    cases k
    case tuple => exact iterload hrec _ _ _
    all_goals exact raise _
  case tuple ts =>
    unfold T.tupleload
    refine ite (raise _) ?_
    cases pyIter v with
    | none => exact raise _
    | some xs => exact ite (raise _) (ite (raise _) (bind (tupElems hrec _ _ _ _ _) (fun _ => pure _)))
  all_goals exact raise _

omit hrec in
theorem dictFast_cons (kt vt : Ty) (keyF : Handler) (valF : Option Handler) (k x : Val) (rest acc : List (Val × Val)) :
    T.dictFast W C rec kt vt keyF valF ((k, x) :: rest) acc =
      ((if (C.isBasic kt && isInstTy kt k) = true then Pure.pure k else rec keyF k kt : Prog Val) >>= fun k' =>
        (if (C.isBasic vt && isInstTy vt x) = true then Pure.pure x else
          match valF with
          | some h => rec h x vt
          | none => Prog.raise (.plain .name) : Prog Val) >>= fun x' =>
        if W.hash k' then T.dictFast W C rec kt vt keyF valF rest (dset acc k' x') else Prog.raise (.plain .type)) := by
  rw [T.dictFast]
  cases C.isBasic kt && isInstTy kt k <;> cases C.isBasic vt && isInstTy vt x <;> cases valF <;> rfl

theorem dictFast (kt vt : Ty) (keyF : Handler) (valF : Option Handler) (kvs : List (Val × Val)) :
    ∀ acc, Keeps W C (T.dictFast W C rec kt vt keyF valF kvs acc) := by
  induction kvs with
  | nil => intro acc; exact pure _
  | cons p kvs ih =>
    intro acc
    obtain ⟨k, x⟩ := p
    rw [dictFast_cons]
    refine bind (ite (pure _) (hrec _ _ _)) (fun k' => bind ?_ (fun x' => ?_))
    · refine ite (pure _) ?_
      cases valF with
      | some h => exact hrec _ _ _
      | none => exact raise _
    · exact ite (ih _) (raise _)

theorem dictSlow (kt vt : Ty) (kvs : List (Val × Val)) : ∀ acc, Keeps W C (T.dictSlow W C rec kt vt kvs acc) := by
  induction kvs with
  | nil => intro acc; exact pure _
  | cons p kvs ih =>
    intro acc
    obtain ⟨k, x⟩ := p
    unfold T.dictSlow
    refine bind (loadWith hrec _ _ _) (fun k' => bind (loadWith hrec _ _ _) (fun x' => ?_))
    exact ite (ih _) (raise _)

theorem dictload (v : Val) (t : Ty) : Keeps W C (T.dictload W C rec v t) := by
  cases t
  case dict kt vt =>
    unfold T.dictload
    refine bind (resolve _ _) (fun h => bind (dictValueHandler _ _ _ _) (fun p => ?_))
    unfold T.dictPasses
    cases items (dictequivalence C v) with
    | none => exact rescue (raise _) (fun e => rescue (raise _) (fun e => ite (raise _) (raise _)))
    | some kvs =>
      exact rescue (bind (dictFast hrec _ _ _ _ _ _) (fun r => pure _)) (fun e =>
        rescue (bind (dictSlow hrec _ _ _ _) (fun r => pure _)) (fun e => ite (raise _) (raise _)))
  all_goals exact raise _

theorem objFields (info : ObjInfo) (v : Val) (t : Ty) (kvs : List (Val × Val)) :
    ∀ acc, Keeps W C (T.objFields W C rec info v t kvs acc) := by
  induction kvs with
  | nil => intro acc; exact pure _
  | cons p kvs ih =>
    intro acc
    obtain ⟨k, x⟩ := p
    unfold T.objFields
    cases k
    case str n =>
      refine ite ?_ (ih _)
      cases aget info.hints n with
      | none => exact raise _
      | some ft => exact bind (resolve _ _) (fun h => bind (rescue (hrec _ _ _) (fun e => ite (raise _) (raise _))) (fun y => ih _))
    all_goals exact ih _

theorem objloader (info : ObjInfo) (v : Val) (c : Nat) : Keeps W C (T.objloader W C rec info v c) := by
  unfold T.objloader
  cases objItems C v with
  | none => exact raise _
  | some q =>
    obtain ⟨v', kvs⟩ := q
    refine ite (raise _) (ite (ite (raise _) (raise _)) (bind (objFields hrec _ _ _ _ _) (fun ps => ?_)))
    cases construct W c ps with
    | ok r => exact pure _
    | error e => exact ite (raise _) (ite (raise _) (raise _))

theorem objMangled (info : ObjInfo) (v : Val) (c : Nat) : Keeps W C (T.objMangled W C rec info v c) :=
  bind (local' _) (fun _ => objloader hrec _ _ _)

theorem unionTry (v : Val) (t : Ty) (us : List Ty) : ∀ c r es, Keeps W C (T.unionTry W C rec v t us c r es) := by
  induction us with
  | nil => intro c r es; exact pure _
  | cons u us ih =>
    intro c r es
    unfold T.unionTry
    exact handle (bind (resolve _ _) (fun h => hrec _ _ _)) (fun x => ite (ih _ _ _) (pure _)) (fun e => ite (ih _ _ _) (raise _))

omit hrec in
theorem unionOrder (v : Val) (ts : List Ty) : Keeps W C (T.unionOrder W C v ts) := by
  cases v
  case dict kvs =>
    refine bind (discCached ts) (fun d => ?_)
    unfold T.orderBy
    cases d with
    | none => exact pure _
    | some q =>
      obtain ⟨key, table⟩ := q
      refine ite (pure _) (ite ?_ (raise _))
      cases dget table ((dget kvs (.str key)).getD .none) <;> exact pure _
  all_goals exact pure _

theorem unionload (v : Val) (t : Ty) : Keeps W C (T.unionload W C rec v t) := by
  cases t
  case union ts =>
    unfold T.unionload
    exact ite (pure _) (bind (unionOrder _ _) (fun o => bind (unionTry hrec _ _ _ _ _ _) (fun p => ite (pure _) (ite (raise _) (raise _)))))
  all_goals exact raise _

theorem enumHints (v : Val) (e : Nat) (us : List Ty) : ∀ es, Keeps W C (T.enumHints W C rec v e us es) := by
  induction us with
  | nil => intro es; exact raise _
  | cons u us ih =>
    intro es
    unfold T.enumHints
    refine rescue (bind (loadWith hrec _ _ _) (fun x => ?_)) (fun _ => ih _)
    cases enumCall W e x with
    | some m => exact pure _
    | none => exact raise _

omit hrec in
theorem script {call : Val → Ty → Option Annotation → Prog Val} (hc : ∀ v t a, Keeps W C (call v t a)) (p : Script) : Keeps W C (T.script call p) := by
  induction p with
  | ret v => exact pure _
  | raise e => exact raise _
  | call v t ann next ih => exact handle (hc _ _ _) (fun r => ih _) (fun e => ih _)

theorem step (h : Handler) (v : Val) (t : Ty) : Keeps W C (T.step W C rec h v t) := by
  cases h
  case unionload => exact unionload hrec v t
  case enumload =>
    cases t
    case enum e =>
      show Keeps W C (match enumCall W e v with
        | some m => Pure.pure m
        | none => T.enumHints W C rec v e (W.enm e).hints [])
      cases enumCall W e v with
      | some m => exact pure _
      | none => exact enumHints hrec _ _ _ _
    all_goals exact raise _
  case tupleload => exact tupleload hrec v t
  case listload => exact iterload hrec _ v t
  case setload => exact iterload hrec _ v t
  case frozensetload => exact iterload hrec _ v t
  case dictload => exact dictload hrec v t
  case namedtupleload =>
    cases t
    case obj c => exact ite (objloader hrec _ _ _) (raise _)
    all_goals exact raise _
  case dataclassload =>
    cases t
    case obj c => exact ite (bind (dataclassCached c) (fun i => objMangled hrec _ _ _)) (raise _)
    all_goals exact raise _
  case attrload =>
    cases t
    case obj c =>
      show Keeps W C (if (W.cls c).kind = .attrs then
        match attrHints (W.cls c).fields with
        | .error e => Prog.raise (.plain e)
        | .ok hints => T.objMangled W C rec (attrInfo W C (W.cls c).fields hints) v c
        else Prog.raise (.plain .attr))
      refine ite ?_ (raise _)
      cases attrHints (W.cls c).fields with
      | error e => exact raise _
      | ok hints => exact objMangled hrec _ _ _
    all_goals exact raise _
  case typeddictload =>
    cases t
    case obj c =>
      refine ite (read (fun s _ => write (fun s hs => hs.rewrite c) (fun s => RewGrows.rewrite c s) (objloader hrec _ _ _))) (raise _)
    all_goals exact raise _
  case forwardrefload => exact forwardrefload hrec v t
  case newtypeload => exact newtypeload hrec v t
  case custom i => exact script (loadWith hrec) _
  case anyload => exact pure _
  all_goals exact local' _
end

theorem run (n : Nat) : ∀ h v t, Keeps W C (T.run W C n h v t) := by
  induction n with
  | zero => intro h v t s; trivial
  | succ n ih => exact step ih

theorem load (n : Nat) (v : Val) (t : Ty) : Keeps W C (T.load W C n v t) := loadWith (run n) v t none
end Keeps

/-! ## Any number of threads -/

/-- The shared state satisfies the invariant, and each thread is safe from then on, its outcome being in `Q i`. -/
structure AllSafe (I : LState → Prop) (Q : Nat → Res Unit Exc Val → Prop) (c : Conf) : Prop where
  inv : I c.state
  safe : ∀ (i : Nat) m, c.threads[i]? = some m → ∃ s0, RewGrows s0 c.state ∧ Safe I (Q i) m s0

theorem AllSafe.step {I : LState → Prop} {Q : Nat → Res Unit Exc Val → Prop} {c c' : Conf} (h : AllSafe I Q c) (hs : c.Step c') : AllSafe I Q c' := by
  cases hs with
  | mk before f k after =>
    rename_i s
    obtain ⟨s0, h0, h1⟩ := h.safe before.length (.act f k) (by simp)
    have hi : I s := h.inv
    obtain ⟨h2, h3, h4⟩ := h1 s h0 hi
    refine ⟨h2, fun i m hm => ?_⟩
    by_cases he : i = before.length
    · subst he
      simp only [List.getElem?_append_right (Nat.le_refl _), Nat.sub_self, List.getElem?_cons_zero] at hm
      cases hm
      exact ⟨f s, RewGrows.refl _, h4⟩
    · have hm' : (before ++ Prog.act f k :: after)[i]? = some m := by
        rw [List.getElem?_append] at hm ⊢
        split at hm
        · rename_i hl; rw [if_pos hl]; exact hm
        · rename_i hl
          rw [if_neg hl]
          have : i - before.length = (i - before.length - 1) + 1 := by omega
          rw [this, List.getElem?_cons_succ] at hm ⊢
          exact hm
      obtain ⟨s1, h5, h6⟩ := h.safe i m hm'
      exact ⟨s1, h5.trans h3, h6⟩

theorem AllSafe.steps {I : LState → Prop} {Q : Nat → Res Unit Exc Val → Prop} {c c' : Conf} (h : AllSafe I Q c) (hs : c.Steps c') : AllSafe I Q c' := by
  induction hs with
  | refl => exact h
  | next _ h1 ih => exact ih.step h1

/-- Threads that share a loader keep its caches right. -/
theorem Coh.shared {s : LState} (h : Coh W C s) {jobs : List Job} {c : Conf} (hs : (Conf.start W C s jobs).Steps c) : Coh W C c.state := by
  refine (AllSafe.steps (Q := fun _ _ => True) ⟨h, fun i m hm => ⟨s, RewGrows.refl _, ?_⟩⟩ hs).inv
  simp only [Conf.start, List.getElem?_map, Option.map_eq_some_iff] at hm
  obtain ⟨j, _, rfl⟩ := hm
  exact Keeps.load _ _ _ s

end TL
