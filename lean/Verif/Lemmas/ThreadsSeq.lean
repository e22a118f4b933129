import Verif.Model.Threads
import Verif.Lemmas.Step
/-!
# A thread running alone is the sequential loader
-/

namespace TL

set_option linter.unusedSectionVars false

namespace Prog
variable {α β : Type}

theorem exec_ret (a : α) : (Prog.ret a).exec = (Pure.pure a : L α) := rfl
theorem exec_pure (a : α) : (Pure.pure a : Prog α).exec = (Pure.pure a : L α) := rfl
theorem exec_raise (e : Exc) : (Prog.raise e : Prog α).exec = (M.throw e : L α) := rfl

theorem exec_bind (m : Prog α) (f : α → Prog β) : (m >>= f).exec = m.exec >>= fun a => (f a).exec := by
  funext s
  show (m.bind f).exec s = _
  induction m generalizing s with
  | ret a => rfl
  | raise e => rfl
  | stuck => rfl
  | act g k ih => exact ih s (g s)

theorem exec_rescue (m : Prog α) (g : Exc → Prog α) : (m.rescue g).exec = M.rescue m.exec (fun e => (g e).exec) := by
  funext s
  induction m generalizing s with
  | ret a => rfl
  | raise e => rfl
  | stuck => rfl
  | act f k ih => exact ih s (f s)

theorem exec_handle (m : Prog α) (f : α → Prog β) (g : Exc → Prog β) :
    (m.handle f g).exec = M.handle m.exec (fun a => (f a).exec) (fun e => (g e).exec) := by
  funext s
  induction m generalizing s with
  | ret a => rfl
  | raise e => rfl
  | stuck => rfl
  | act h k ih => exact ih s (h s)

theorem exec_read : Prog.read.exec = (M.get : L LState) := rfl
theorem exec_write (f : LState → LState) : (Prog.write f).exec = (M.modify f : L Unit) := rfl

theorem exec_ite {c : Prop} [Decidable c] (a b : Prog α) : (if c then a else b).exec = if c then a.exec else b.exec := by
  split <;> rfl

theorem exec_local {m : L α} (x : Except Exc α) (hx : m = M.lift x) : (Prog.local' m).exec = m := by
  subst hx
  cases x <;> rfl
end Prog

open Prog

variable {W : World} {C : Config}

namespace T

theorem exec_resolve (t : Ty) (e : Exc) : (resolve W C t e).exec = TL.resolve W C t e := by
  funext s
  unfold T.resolve TL.resolve
  rw [exec_bind, exec_read]
  simp only [M.bind_apply, M.get_apply]
  cases aget s.idx t with
  | some h => rfl
  | none =>
    cases pick W C t with
    | ok h => rfl
    | error c => dsimp only; split <;> rfl

theorem exec_register (t : Ty) (s : LState) : (register W t).exec s = .ok () (registerName W t s) := by
  unfold register registerName
  rw [exec_bind, exec_read]
  simp only [M.bind_apply, M.get_apply]
  cases hf : s.frefs with
  | none => rfl
  | some fr =>
    dsimp only
    cases W.tyName t with
    | none => rfl
    | some n =>
      dsimp only
      rw [exec_bind, exec_read]
      simp only [M.bind_apply, M.get_apply, hf]
      cases aget fr n with
      | some u => rfl
      | none => show Res.ok () { s with frefs := s.frefs.map (fun fr => aset fr n t) } = _; rw [hf]; rfl

theorem exec_loadResolve (v : Val) (t : Ty) : (loadResolve W C v t).exec = TL.loadResolve W C v t := by
  funext s
  unfold T.loadResolve TL.loadResolve
  rw [exec_bind, exec_read]
  simp only [M.bind_apply, M.get_apply]
  cases aget s.idx t with
  | some h => rfl
  | none =>
    cases pick W C t with
    | ok h => simp only [exec_bind, exec_write, M.bind_apply, M.modify_apply, exec_register, exec_pure, M.pure_apply]
    | error c => dsimp only; split <;> rfl

/-- Distributes `exec`. -/
macro "ex1" : tactic => `(tactic| first
  | rfl
  | simp only [exec_bind, exec_rescue, exec_handle, exec_ite, exec_pure, exec_raise, exec_resolve, exec_ret])

section
variable {rec : T.Rec} {rec' : TL.Rec} (hrec : ∀ h v t, (rec h v t).exec = rec' h v t)
include hrec

theorem exec_loadWith (v : Val) (t : Ty) (a : Option Annotation) : (loadWith W C rec v t a).exec = TL.loadWith W C rec' v t a := by
  unfold T.loadWith TL.loadWith
  simp only [exec_bind, exec_rescue, exec_ite, exec_raise, exec_loadResolve, hrec]

theorem exec_forwardrefload (v : Val) (t : Ty) : (forwardrefload W C rec v t).exec = TL.forwardrefload W C rec' v t := by
  cases t
  case fref n =>
    funext s
    unfold T.forwardrefload TL.forwardrefload
    dsimp only
    rw [exec_bind, exec_read]
    simp only [M.bind_apply, M.get_apply]
    cases hf : s.frefs with
    | none => rfl
    | some fr =>
      dsimp only
      rw [exec_bind, exec_read]
      simp only [M.bind_apply, M.get_apply, hf]
      cases aget fr n with
      | none => rfl
      | some t' => exact congrFun (exec_loadWith hrec _ _ _) s
  all_goals rfl

theorem exec_newtypeload (v : Val) (t : Ty) : (newtypeload W C rec v t).exec = TL.newtypeload W C rec' v t := by
  cases t
  case newtype n t => exact exec_loadWith hrec _ _ _
  all_goals rfl

theorem exec_iterElem (h : Handler) (et : Ty) (x : Val) : (iterElem C rec h et x).exec = TL.iterElem C rec' h et x := by
  cases et <;> simp only [T.iterElem, TL.iterElem, exec_ite, exec_pure, hrec]

theorem exec_iterElems (h : Handler) (k : SeqKind) (et : Ty) (v : Val) (t : Ty) (xs : List Val) :
    ∀ i acc, (iterElems W C rec h k et v t xs i acc).exec = TL.iterElems W C rec' h k et v t xs i acc := by
  induction xs with
  | nil => intro i acc; rfl
  | cons x xs ih =>
    intro i acc
    simp only [T.iterElems, TL.iterElems, exec_handle, exec_iterElem hrec, exec_ite, exec_pure, exec_raise]
    congr 1
    funext y
    cases collAdd W k acc y with
    | error c => rfl
    | ok acc' => exact ih _ _

theorem exec_iterload (k : SeqKind) (v : Val) (t : Ty) : (iterload W C rec k v t).exec = TL.iterload W C rec' k v t := by
  unfold T.iterload TL.iterload
  rw [exec_ite]
  congr 1
  cases t
  case coll k' et =>
    simp only [exec_bind, exec_resolve]
    congr 1
    funext h
    cases pyIter v with
    | none => rfl
    | some xs => simp only [exec_bind, exec_iterElems hrec, exec_pure]
  all_goals rfl

omit hrec in
theorem exec_tupHandler (t : Ty) : (tupHandler W C t).exec = TL.tupHandler W C t := by
  funext s
  unfold T.tupHandler TL.tupHandler
  rw [exec_bind, exec_read]
  simp only [M.bind_apply, M.get_apply]
  cases aget s.idx t with
  | some h => rfl
  | none => cases pick W C t <;> rfl

theorem exec_tupElems (v : Val) (t : Ty) (xs : List Val) :
    ∀ us i, (tupElems W C rec v t xs us i).exec = TL.tupElems W C rec' v t xs us i := by
  induction xs with
  | nil => intro us i; unfold T.tupElems TL.tupElems; rfl
  | cons x xs ih =>
    intro us i
    cases us with
    | nil => unfold T.tupElems TL.tupElems; rfl
    | cons u us =>
      unfold T.tupElems TL.tupElems
      simp only [exec_bind, exec_rescue, exec_tupHandler, exec_ite, exec_pure, exec_raise, hrec, ih]

theorem exec_tupleload (v : Val) (t : Ty) : (tupleload W C rec v t).exec = TL.tupleload W C rec' v t := by
  cases t
  case coll k t =>
    cases k
    case tuple => exact exec_iterload hrec _ _ _
    all_goals rfl
  case tuple ts =>
    unfold T.tupleload TL.tupleload
    dsimp only
    rw [exec_ite]
    congr 1
    cases pyIter v with
    | none => rfl
    | some xs => simp only [exec_ite, exec_raise, exec_bind, exec_tupElems hrec, exec_pure]
  all_goals rfl

theorem exec_dictFast (kt vt : Ty) (keyF : Handler) (valF : Option Handler) (kvs : List (Val × Val)) :
    ∀ acc, (dictFast W C rec kt vt keyF valF kvs acc).exec = TL.dictFast W C rec' kt vt keyF valF kvs acc := by
  induction kvs with
  | nil => intro acc; rfl
  | cons p kvs ih =>
    intro acc
    obtain ⟨k, x⟩ := p
    unfold T.dictFast TL.dictFast
    cases valF <;> simp only [exec_bind, exec_ite, exec_pure, exec_raise, hrec, ih]

theorem exec_dictSlow (kt vt : Ty) (kvs : List (Val × Val)) :
    ∀ acc, (dictSlow W C rec kt vt kvs acc).exec = TL.dictSlow W C rec' kt vt kvs acc := by
  induction kvs with
  | nil => intro acc; rfl
  | cons p kvs ih =>
    intro acc
    obtain ⟨k, x⟩ := p
    unfold T.dictSlow TL.dictSlow
    simp only [exec_bind, exec_ite, exec_raise, exec_loadWith hrec, ih]

omit hrec in
theorem exec_dictValueHandler (v : Val) (t vt : Ty) (keyF : Handler) :
    (dictValueHandler W C v t vt keyF).exec = TL.dictValueHandler W C v t vt keyF := by
  funext s
  unfold T.dictValueHandler TL.dictValueHandler TL.resolve
  rw [exec_bind, exec_read]
  simp only [M.bind_apply, M.get_apply]
  cases hs : aget s.idx vt with
  | some h => rfl
  | none =>
    simp only [M.bind_apply, M.get_apply, hs]
    cases pick W C vt with
    | ok h => rfl
    | error c => dsimp only; split <;> rfl

theorem exec_dictload (v : Val) (t : Ty) : (dictload W C rec v t).exec = TL.dictload W C rec' v t := by
  cases t
  case dict kt vt =>
    unfold T.dictload TL.dictload
    dsimp only
    simp only [exec_bind, exec_resolve, exec_dictValueHandler]
    congr 1
    funext h
    congr 1
    funext p
    obtain ⟨keyF, valF⟩ := p
    unfold dictPasses
    cases items (dictequivalence C v) <;>
      simp only [exec_rescue, exec_bind, exec_ite, exec_raise, exec_pure, exec_dictFast hrec, exec_dictSlow hrec]
  all_goals rfl

theorem exec_objFields (info : ObjInfo) (v : Val) (t : Ty) (kvs : List (Val × Val)) :
    ∀ acc, (objFields W C rec info v t kvs acc).exec = TL.objFields W C rec' info v t kvs acc := by
  induction kvs with
  | nil => intro acc; rfl
  | cons p kvs ih =>
    intro acc
    obtain ⟨k, x⟩ := p
    unfold T.objFields TL.objFields
    cases k
    case str n =>
      dsimp only
      rw [exec_ite]
      cases aget info.hints n with
      | none => simp only [exec_raise, ih]
      | some ft => simp only [exec_bind, exec_resolve, exec_rescue, exec_ite, exec_raise, hrec, ih]
    all_goals exact ih _

theorem exec_objloader (info : ObjInfo) (v : Val) (c : Nat) : (objloader W C rec info v c).exec = TL.objloader W C rec' info v c := by
  unfold T.objloader TL.objloader
  cases objItems C v with
  | none => rfl
  | some q =>
    obtain ⟨v', kvs⟩ := q
    simp only [exec_ite, exec_raise, exec_bind, exec_objFields hrec]
    congr 1
    congr 1
    congr 1
    funext ps
    cases construct W c ps with
    | ok r => rfl
    | error e => simp only [exec_ite, exec_raise]

theorem exec_objMangled (info : ObjInfo) (v : Val) (c : Nat) : (objMangled W C rec info v c).exec =
    mangleOrRaise C info.transforms v (.obj c) >>= fun v' => TL.objloader W C rec' info v' c := by
  have : ∃ x, (mangleOrRaise C info.transforms v (.obj c) : L Val) = M.lift x := by
    unfold mangleOrRaise
    cases mangle_names info.transforms v C.failonextra with
    | ok v' => exact ⟨.ok v', rfl⟩
    | error e => dsimp only; repeat' split
                 all_goals exact ⟨.error _, rfl⟩
  obtain ⟨x, hx⟩ := this
  unfold objMangled
  simp only [exec_bind, exec_local x hx, exec_objloader hrec]

theorem exec_namedtupleload (v : Val) (t : Ty) : (namedtupleload W C rec v t).exec = TL.namedtupleload W C rec' v t := by
  cases t
  case obj c => unfold T.namedtupleload TL.namedtupleload; simp only [exec_ite, exec_raise, exec_objloader hrec]
  all_goals rfl

omit hrec in
theorem exec_dataclassCached (c : Nat) : (dataclassCached W C c).exec = TL.dataclassCached W C c := by
  funext s
  unfold T.dataclassCached TL.dataclassCached
  rw [exec_bind, exec_read]
  simp only [M.bind_apply, M.get_apply]
  cases aget s.objc c <;> rfl

theorem exec_dataclassload (v : Val) (t : Ty) : (dataclassload W C rec v t).exec = TL.dataclassload W C rec' v t := by
  cases t
  case obj c =>
    unfold T.dataclassload TL.dataclassload
    simp only [exec_ite, exec_raise, exec_bind, exec_dataclassCached, exec_objMangled hrec]
  all_goals rfl

theorem exec_attrload (v : Val) (t : Ty) : (attrload W C rec v t).exec = TL.attrload W C rec' v t := by
  cases t
  case obj c =>
    unfold T.attrload TL.attrload
    dsimp only
    rw [exec_ite]
    cases attrHints (W.cls c).fields with
    | error e => rfl
    | ok hints => simp only [exec_raise, exec_objMangled hrec]
  all_goals rfl

theorem exec_typeddictload (v : Val) (t : Ty) : (typeddictload W C rec v t).exec = TL.typeddictload W C rec' v t := by
  cases t
  case obj c =>
    unfold T.typeddictload TL.typeddictload
    simp only [exec_ite, exec_raise, exec_bind, exec_read, exec_write, exec_objloader hrec]
  all_goals rfl

omit hrec in
theorem exec_discCached (ts : List Ty) : (discCached W ts).exec = TL.discCached W ts := by
  funext s
  unfold T.discCached TL.discCached
  rw [exec_bind, exec_read]
  simp only [M.bind_apply, M.get_apply]
  cases aget s.disc (.union (W.unionKey ts)) <;> rfl

omit hrec in
theorem exec_unionOrder (v : Val) (ts : List Ty) : (unionOrder W C v ts).exec = TL.unionOrder W C v ts := by
  cases v
  case dict kvs =>
    unfold T.unionOrder TL.unionOrder
    dsimp only
    rw [exec_bind, exec_discCached]
    congr 1
    funext d
    unfold orderBy
    cases d with
    | none => rfl
    | some q =>
      obtain ⟨key, table⟩ := q
      dsimp only
      rw [exec_ite, exec_ite]
      cases dget table ((dget kvs (.str key)).getD .none) <;> rfl
  all_goals rfl

theorem exec_unionTry (v : Val) (t : Ty) (us : List Ty) :
    ∀ c r es, (unionTry W C rec v t us c r es).exec = TL.unionTry W C rec' v t us c r es := by
  induction us with
  | nil => intro c r es; rfl
  | cons u us ih =>
    intro c r es
    unfold T.unionTry TL.unionTry
    simp only [exec_handle, exec_bind, exec_resolve, exec_ite, exec_pure, exec_raise, hrec, ih]

theorem exec_unionload (v : Val) (t : Ty) : (unionload W C rec v t).exec = TL.unionload W C rec' v t := by
  cases t
  case union ts =>
    unfold T.unionload TL.unionload
    simp only [exec_ite, exec_pure, exec_raise, exec_bind, exec_unionOrder, exec_unionTry hrec]
  all_goals rfl

theorem exec_enumHints (v : Val) (e : Nat) (us : List Ty) :
    ∀ es, (enumHints W C rec v e us es).exec = TL.enumHints W C rec' v e us es := by
  induction us with
  | nil => intro es; rfl
  | cons u us ih =>
    intro es
    unfold T.enumHints TL.enumHints
    simp only [exec_rescue, exec_bind, exec_loadWith hrec, ih]
    congr 1
    congr 1
    funext x
    cases enumCall W e x <;> rfl

theorem exec_enumload (v : Val) (t : Ty) : (enumload W C rec v t).exec = TL.enumload W C rec' v t := by
  cases t
  case enum e =>
    unfold T.enumload TL.enumload
    dsimp only
    cases enumCall W e v with
    | some m => rfl
    | none => exact exec_enumHints hrec _ _ _ _
  all_goals rfl

omit hrec in
theorem exec_script {call : Val → Ty → Option Annotation → Prog Val} {call' : Val → Ty → Option Annotation → L Val}
    (hc : ∀ v t a, (call v t a).exec = call' v t a) (p : Script) : (script call p).exec = p.run call' := by
  induction p with
  | ret v => rfl
  | raise e => rfl
  | call v t ann next ih =>
    unfold script Script.run
    simp only [exec_handle, hc, ih]

theorem exec_step (h : Handler) (v : Val) (t : Ty) : (step W C rec h v t).exec = TL.step W C rec' h v t := by
  have leaf : ∀ {h : Handler}, h.isLeaf = true → (local' (TL.step W C rec' h v t)).exec = TL.step W C rec' h v t := by
    intro h hl
    obtain ⟨o, ho⟩ := leaf_lift (W := W) (C := C) hl v t
    exact exec_local o (ho rec')
  cases h
  case unionload => exact exec_unionload hrec v t
  case enumload => exact exec_enumload hrec v t
  case tupleload => exact exec_tupleload hrec v t
  case listload => exact exec_iterload hrec _ v t
  case setload => exact exec_iterload hrec _ v t
  case frozensetload => exact exec_iterload hrec _ v t
  case dictload => exact exec_dictload hrec v t
  case namedtupleload => exact exec_namedtupleload hrec v t
  case dataclassload => exact exec_dataclassload hrec v t
  case attrload => exact exec_attrload hrec v t
  case typeddictload => exact exec_typeddictload hrec v t
  case forwardrefload => exact exec_forwardrefload hrec v t
  case newtypeload => exact exec_newtypeload hrec v t
  case custom i => exact exec_script (exec_loadWith hrec) _
  all_goals
    first
    | exact leaf (h := .noneload) rfl | exact leaf (h := .basicload) rfl | exact leaf (h := .literalload) rfl
    | exact leaf (h := .datetimeload) rfl | exact leaf (h := .patternload) rfl | exact leaf (h := .timedeltaload) rfl
    | exact leaf (h := .strconstructload) rfl | exact leaf (h := .anyload) rfl
end

theorem exec_run (n : Nat) : ∀ h v t, (run W C n h v t).exec = TL.run W C n h v t := by
  induction n with
  | zero => intro h v t; rfl
  | succ n ih => exact exec_step ih

/-- A thread that runs alone does what the sequential loader does, with the same effect on the state of the loader. -/
theorem exec_load (n : Nat) (v : Val) (t : Ty) : (load W C n v t).exec = TL.load W C n v t := exec_loadWith (exec_run n) v t none

end T
end TL
