import Verif.Model.Loader
/-!
# A Loader shared by threads

The handlers of `Model/Loader.lean` once more, as programs that access the state of the loader in single steps, so that the steps of
several threads can be interleaved.  A step reads or writes one of the dictionaries of the loader (`_indexcache`, `frefs`,
`_objfieldscache`, `_unionload_discriminatorcache`) or the annotations of a TypedDict class; in CPython such an access is atomic.
`Lemmas/ThreadsSeq.lean` proves that a program running alone is the function of `Model/Loader.lean`.

Simplifications: reading (rewriting) all the annotations of the classes in question is one step; user-supplied handlers, constructors
and hooks do not access the loader other than by calling `load`; the options and the handler list are not changed meanwhile.
-/

namespace TL

/-- A program using a shared loader. `act f k`: one atomic access, that turns the state `s` into `f s` and goes on with `k s`;
`stuck`: the program does not return (fuel exhausted). -/
inductive Prog (α : Type) : Type
  | ret (a : α)
  | raise (e : Exc)
  | stuck
  | act (f : LState → LState) (k : LState → Prog α)

namespace Prog
variable {α β : Type}

/-- Sequence. -/
protected def bind : Prog α → (α → Prog β) → Prog β
  | ret a, f => f a
  | raise e, _ => raise e
  | stuck, _ => stuck
  | act g k, f => act g (fun s => (k s).bind f)

instance : Monad Prog where
  pure := ret
  bind := Prog.bind

/-- `try: m except Exception as e: g(e)` -/
def rescue : Prog α → (Exc → Prog α) → Prog α
  | ret a, _ => ret a
  | raise e, g => g e
  | stuck, _ => stuck
  | act f k, g => act f (fun s => (k s).rescue g)

/-- `try: a = m except Exception as e: g(e) else: f(a)` -/
def handle : Prog α → (α → Prog β) → (Exc → Prog β) → Prog β
  | ret a, f, _ => f a
  | raise e, _, g => g e
  | stuck, _, _ => stuck
  | act h k, f, g => act h (fun s => (k s).handle f g)

/-- One access that reads. -/
def read : Prog LState := act id ret
/-- One access that writes. -/
def write (f : LState → LState) : Prog Unit := act f (fun _ => ret ())
/-- A call that does not use the loader. -/
def local' (m : L α) : Prog α :=
  match m {} with
  | .ok a _ => ret a
  | .err e _ => raise e
  | .div => stuck

/-- The program running alone. -/
def exec : Prog α → L α
  | ret a => fun s => .ok a s
  | raise e => fun s => .err e s
  | stuck => fun _ => .div
  | act f k => fun s => (k s).exec (f s)
end Prog

namespace T
open Prog (raise rescue handle read write local')

/-- A way to call a handler function. -/
abbrev Rec := Handler → Val → Ty → Prog Val

section
variable (W : World) (C : Config) (rec : Rec)

/-- `l._indexcache.get(t)`, else `l._indexcache[t] = l.handlers[l.index(t)][1]`: dataloader.py:375-386, 575-587, 708-720, 913-926. -/
def resolve (t : Ty) (missing : Exc) : Prog Handler := do
  let s ← read
  match aget s.idx t with
  | some h => pure h
  | none => match pick W C t with
    | .ok h => do write (fun s => { s with idx := aset s.idx t h }); pure h
    | .error e => if e.isValue then raise missing else raise (.plain e)

/-- dataloader.py:291-295: `frefs` is not None (an access), does not have the name (an access), is given the name (an access). -/
def register (t : Ty) : Prog Unit := do
  let s ← read
  match s.frefs with
  | none => pure ()
  | some _ => match W.tyName t with
    | none => pure ()
    | some n => do
      let s ← read
      match s.frefs with
      | none => raise (.plain .type)
      | some fr => match aget fr n with
        | some _ => pure ()
        | none => write (fun s => { s with frefs := s.frefs.map (fun fr => aset fr n t) })

/-- dataloader.py:276-295: the handler is stored first, the name of the type is registered afterwards. -/
def loadResolve (v : Val) (t : Ty) : Prog Handler := do
  let s ← read
  match aget s.idx t with
  | some h => pure h
  | none => match pick W C t with
    | .ok h => do
      write (fun s => { s with idx := aset s.idx t h })
      register W t
      pure h
    | .error e => if e.isValue then raise (mkExc .tlType (.noHandler t) v t) else raise (.plain e)

/-- dataloader.py:263-303 `Loader.load`. -/
def loadWith (v : Val) (t : Ty) (ann : Option Annotation) : Prog Val := do
  let h ← loadResolve W C v t
  rescue (rec h v t) (fun e =>
    if e.isTL then raise (e.push ⟨v, t, ann⟩) else raise (.plain .assertion))

/-- dataloader.py:306-324 `_forwardrefload` -/
def forwardrefload (v : Val) (t : Ty) : Prog Val :=
  match t with
  | .fref n => do
    let s ← read
    match s.frefs with
    | none => raise (mkExc .tlBase .frefDisabled v t)
    | some _ => do
      let s ← read
      match s.frefs with
      | none => raise (.plain .attr)
      | some fr => match aget fr n with
        | none => raise (mkExc .tlValue (.frefUnknown n) v t)
        | some t' => loadWith W C rec v t' (some (.forwardref n))
  | _ => raise (.plain .attr)

/-- dataloader.py:897 `_newtypeload` -/
def newtypeload (v : Val) (t : Ty) : Prog Val :=
  match t with
  | .newtype _ t' => loadWith W C rec v t' none
  | _ => raise (.plain .attr)

/-- dataloader.py:929-935: one element of `_iterload`. -/
def iterElem (h : Handler) (et : Ty) (x : Val) : Prog Val :=
  match et with
  | .prim p =>
    if C.isBasic et then (if isInst p x then pure x else rec h x et) else rec h x et
  | .union ts =>
    if ts.all C.isBasic then (if typeOf x ∈ ts then pure x else rec h x et) else rec h x et
  | _ => rec h x et

/-- dataloader.py:927-944: the element loop of `_iterload`. -/
def iterElems (h : Handler) (k : SeqKind) (et : Ty) (v : Val) (t : Ty) : List Val → Nat → List Val → Prog (List Val)
  | [], _, acc => pure acc
  | x :: xs, i, acc =>
    handle (iterElem C rec h et x)
      (fun y => match collAdd W k acc y with
        | .error c => raise (elemError v t i (.plain c))
        | .ok acc' => iterElems h k et v t xs (i + 1) acc')
      (fun e =>
        if usesMap C et && e.cls == .stopIteration then pure acc
        else raise (elemError v t i e))

/-- dataloader.py:901-944 `_iterload` -/
def iterload (k : SeqKind) (v : Val) (t : Ty) : Prog Val :=
  if v.isDict then raise (mkExc .tlType .dictAsIter v t) else
  match t with
  | .coll _ et => do
    let h ← resolve W C et (mkExc .tlType (.noHandler et) v et)
    match pyIter v with
    | none => raise (mkExc .tlType (.py .type) v t)
    | some xs => do
      let ys ← iterElems W C rec h k et v t xs 0 []
      pure (.seq k ys)
  | _ => raise (.plain .attr)

/-- dataloader.py:443-451: handler of a tuple position (read, not stored). -/
def tupHandler (t : Ty) : Prog Handler := do
  let s ← read
  match aget s.idx t with
  | some h => pure h
  | none => match pick W C t with
    | .ok h => pure h
    | .error e => raise (.plain e)

/-- dataloader.py:443-460: the element loop of `_tupleload`. -/
def tupElems (v : Val) (t : Ty) : List Val → List Ty → Nat → Prog (List Val)
  | x :: xs, u :: us, i => do
    let y ← rescue
      (do let h ← tupHandler W C u
          if C.isBasic u && typeOf x == u then pure x else rec h x u)
      (fun e => raise (elemError v t i e))
    let ys ← tupElems v t xs us (i + 1)
    pure (y :: ys)
  | _, _, _ => pure []

/-- dataloader.py:425-460 `_tupleload` -/
def tupleload (v : Val) (t : Ty) : Prog Val :=
  match t with
  | .coll .tuple _ => iterload W C rec .tuple v t
  | .tuple ts =>
    if v.isDict then raise (mkExc .tlType .dictAsTuple v t) else
    match pyIter v with
    | none => raise (.plain .type)
    | some xs =>
      if C.failonextra && xs.length > ts.length then raise (mkExc .tlValue (.tooLong t) v t)
      else if xs.length < ts.length then raise (mkExc .tlValue (.tooShort t) v t)
      else do
        let ys ← tupElems W C rec v t xs ts 0
        pure (.seq .tuple ys)
  | _ => raise (.plain .attr)

/-- dataloader.py:405-411: the fast comprehension of `_dictload`. -/
def dictFast (kt vt : Ty) (keyF : Handler) (valF : Option Handler) : List (Val × Val) → List (Val × Val) → Prog (List (Val × Val))
  | [], acc => pure acc
  | (k, x) :: rest, acc => do
    let k' ← if C.isBasic kt && isInstTy kt k then pure k else rec keyF k kt
    let x' ← if C.isBasic vt && isInstTy vt x then pure x else
      match valF with
      | some h => rec h x vt
      | none => raise (.plain .name)
    if W.hash k' then dictFast kt vt keyF valF rest (dset acc k' x') else raise (.plain .type)

/-- dataloader.py:416-420: the slow comprehension of `_dictload`. -/
def dictSlow (kt vt : Ty) : List (Val × Val) → List (Val × Val) → Prog (List (Val × Val))
  | [], acc => pure acc
  | (k, x) :: rest, acc => do
    let k' ← loadWith W C rec k kt (some (.key k))
    let x' ← loadWith W C rec x vt (some (.value x))
    if W.hash k' then dictSlow kt vt rest (dset acc k' x') else raise (.plain .type)

/-- dataloader.py:388-400: the handler of the values; see `TL.dictValueHandler`. -/
def dictValueHandler (v : Val) (t vt : Ty) (keyF : Handler) : Prog (Handler × Option Handler) := do
  let s ← read
  match aget s.idx vt with
  | some h => pure (keyF, some h)
  | none => match pick W C vt with
    | .ok h => do write (fun s => { s with idx := aset s.idx vt h }); pure (h, none)
    | .error e => if e.isValue then raise (mkExc .tlValue (.noHandlerIn vt t) v vt) else raise (.plain e)

/-- dataloader.py:405-423: the two comprehensions of `_dictload`. -/
def dictPasses (v : Val) (t kt vt : Ty) (p : Handler × Option Handler) : Prog Val :=
  rescue
    (match items (dictequivalence C v) with
      | none => raise (.plain .attr)
      | some kvs => do
        let r ← dictFast W C rec kt vt p.1 p.2 kvs []
        pure (.dict r))
    (fun _ => rescue
      (match items (dictequivalence C v) with
        | none => raise (.plain .attr)
        | some kvs => do
          let r ← dictSlow W C rec kt vt kvs []
          pure (.dict r))
      (fun e => if e.cls.isAttr then raise (mkExc .tlAttr .wrapped (dictequivalence C v) t) else raise e))

/-- dataloader.py:365-423 `_dictload` -/
def dictload (v : Val) (t : Ty) : Prog Val :=
  match t with
  | .dict kt vt => do
    let keyF0 ← resolve W C kt (mkExc .tlValue (.noHandlerIn kt t) v kt)
    let p ← dictValueHandler W C v t vt keyF0
    dictPasses W C rec v t kt vt p
  | _ => raise (.plain .attr)

/-- dataloader.py:577-603: the loop over the data in `_objloader`. -/
def objFields (info : ObjInfo) (v : Val) (t : Ty) : List (Val × Val) → List (String × Val) → Prog (List (String × Val))
  | [], acc => pure acc
  | (k, x) :: rest, acc =>
    match k with
    | .str n =>
      if info.fields.contains n then
        match aget info.hints n with
        | none => raise (.plain (.other 1))
        | some ft => do
          let h ← resolve W C ft (mkExc .tlType (.noHandler ft) v ft)
          let y ← rescue (rec h x ft) (fun e =>
            if e.isTL then raise (e.push ⟨v, t, some (.field n)⟩) else raise e)
          objFields info v t rest (aset acc n y)
      else objFields info v t rest acc
    | _ => objFields info v t rest acc

/-- dataloader.py:545-610 `_objloader` -/
def objloader (info : ObjInfo) (v : Val) (cid : Nat) : Prog Val :=
  match objItems C v with
  | none => raise (mkExc .tlAttr (.py .attr) v (.obj cid))
  | some (v, kvs) =>
    if !info.necessary.all (fun n => dhas kvs (.str n)) then
      raise (mkExc .tlValue (.missing (info.necessary.filter (fun n => !dhas kvs (.str n)))) v (.obj cid))
    else if C.failonextra && !(extraKeys info kvs).isEmpty then
      if (extraKeys info kvs).all (fun k => typeOf k == .prim .str) then
        raise (mkExc .tlValue (.extra (extraKeys info kvs)) v (.obj cid))
      else raise (.plain .type)
    else do
      let params ← objFields W C rec info v (.obj cid) kvs []
      match construct W cid params with
      | .ok r => pure r
      | .error e =>
        if e.isType then raise (mkExc0 .tlType (.py e))
        else if e.isValue then raise (mkExc0 .tlValue (.py e))
        else raise (.plain e)

/-- dataloader.py:521-527, 873-881: renaming, then `_objloader`. -/
def objMangled (info : ObjInfo) (v : Val) (c : Nat) : Prog Val := do
  let v' ← local' (mangleOrRaise C info.transforms v (.obj c))
  objloader W C rec info v' c

/-- dataloader.py:612-625 `_namedtupleload` -/
def namedtupleload (v : Val) (t : Ty) : Prog Val :=
  match t with
  | .obj c =>
    if (W.cls c).kind = .namedtuple then objloader W C rec (namedtupleInfo (W.cls c)) v c
    else raise (.plain .attr)
  | _ => raise (.plain .attr)

/-- dataloader.py:494-519: cached class description. -/
def dataclassCached (c : Nat) : Prog ObjInfo := do
  let s ← read
  match aget s.objc c with
  | some i => pure i
  | none => do
    write (fun s => { s with objc := aset s.objc c (dataclassInfo C (W.cls c)) })
    pure (dataclassInfo C (W.cls c))

/-- dataloader.py:490-527 `_dataclassload` -/
def dataclassload (v : Val) (t : Ty) : Prog Val :=
  match t with
  | .obj c =>
    if (W.cls c).kind = .dataclass then do
      let info ← dataclassCached W C c
      objMangled W C rec info v c
    else raise (.plain .attr)
  | _ => raise (.plain .attr)

/-- dataloader.py:857-881 `_attrload` -/
def attrload (v : Val) (t : Ty) : Prog Val :=
  match t with
  | .obj c =>
    if (W.cls c).kind = .attrs then
      match attrHints (W.cls c).fields with
      | .error e => raise (.plain e)
      | .ok hints => objMangled W C rec (attrInfo W C (W.cls c).fields hints) v c
    else raise (.plain .attr)
  | _ => raise (.plain .attr)

/-- dataloader.py:627-652 `_typeddictload`: the annotations are read (an access) and rewritten (an access). -/
def typeddictload (v : Val) (t : Ty) : Prog Val :=
  match t with
  | .obj c =>
    if (W.cls c).kind = .typeddict then do
      let s ← read
      write (rewriteAnnotations W c)
      objloader W C rec (typeddictInfo (W.cls c) (s.tdRew.contains c)) v c
    else raise (.plain .attr)
  | _ => raise (.plain .attr)

/-- dataloader.py:676-695: the cached discriminator; the annotations of the members are read between the two accesses to the cache. -/
def discCached (ts : List Ty) : Prog Disc := do
  let s ← read
  match aget s.disc (.union (W.unionKey ts)) with
  | some d => pure d
  | none => do
    let s ← read
    write (fun s' => { s' with disc := aset s'.disc (.union (W.unionKey ts)) (mkDisc W s.tdRew ts) })
    pure (mkDisc W s.tdRew ts)

/-- dataloader.py:697-704: the order of the members, given the discriminator. -/
def orderBy (kvs : List (Val × Val)) (ts : List Ty) (d : Disc) : Prog (List Ty) :=
  match d with
  | none => pure (sortArgs C ts)
  | some (key, table) =>
    if table.isEmpty then pure (sortArgs C ts)
    else if W.hash ((dget kvs (.str key)).getD .none) then
      match dget table ((dget kvs (.str key)).getD .none) with
      | some p => pure (bump (sortArgs C ts) p)
      | none => pure (sortArgs C ts)
    else raise (.plain .type)

/-- dataloader.py:673-704: the order in which members are tried. -/
def unionOrder (v : Val) (ts : List Ty) : Prog (List Ty) :=
  match v with
  | .dict kvs => do
    let d ← discCached W ts
    orderBy W C kvs ts d
  | _ => pure (sortArgs C ts)

/-- dataloader.py:706-739: the loop over the members. -/
def unionTry (v : Val) (t : Ty) : List Ty → Nat → Val → List Exc → Prog (Nat × Val × List Exc)
  | [], c, r, es => pure (c, r, es)
  | u :: us, c, r, es =>
    handle
      (do let h ← resolve W C u (mkExc .tlValue (.noHandlerIn u t) v u)
          rec h v u)
      (fun x =>
        if C.uniondebugconflict then unionTry v t us (c + 1) x es
        else pure (c + 1, x, es))
      (fun e =>
        if e.isTL then unionTry v t us c r (es ++ [e.push ⟨v, t, some (.union u)⟩])
        else raise e)

/-- dataloader.py:654-759 `_unionload` -/
def unionload (v : Val) (t : Ty) : Prog Val :=
  match t with
  | .union ts =>
    if C.isBasic (typeOf v) && ts.contains (typeOf v) then pure v else do
    let order ← unionOrder W C v ts
    let p ← unionTry W C rec v t order 0 .none []
    if p.1 = 1 then pure p.2.1
    else if p.1 = 0 then raise (mkExcSubs .tlValue (.unionNone t) v t p.2.2)
    else raise (mkExcSubs .tlType (.unionMany t p.1) v t p.2.2)
  | _ => raise (.plain .attr)

/-- dataloader.py:778-784: trying the type hints of the Enum. -/
def enumHints (v : Val) (e : Nat) : List Ty → List Exc → Prog Val
  | [], es => raise (mkExcSubs .tlValue (.enumNone (.enum e)) v (.enum e) es)
  | u :: us, es =>
    rescue
      (do let x ← loadWith W C rec v u (some (.union u))
          match enumCall W e x with
          | some m => pure m
          | none => raise (.plain .value))
      (fun ex => enumHints v e us (es ++ [ex]))

/-- dataloader.py:761-797 `_enumload` -/
def enumload (v : Val) (t : Ty) : Prog Val :=
  match t with
  | .enum e => match enumCall W e v with
    | some m => pure m
    | none => enumHints W C rec v e (W.enm e).hints []
  | _ => raise (.plain .attr)
end

/-- Running a user-supplied handler. -/
def script (call : Val → Ty → Option Annotation → Prog Val) : Script → Prog Val
  | .ret v => pure v
  | .raise e => raise e
  | .call v t ann next => handle (call v t ann) (fun r => script call (next (.ok r))) (fun e => script call (next (.error e)))

/-- Calling a handler function `f(l, value, type_)`. -/
def step (W : World) (C : Config) (rec : Rec) : Rec := fun h v t =>
  match h with
  | .noneload => local' (TL.noneload v t)
  | .unionload => unionload W C rec v t
  | .basicload => local' (TL.basicload W C v t)
  | .enumload => enumload W C rec v t
  | .tupleload => tupleload W C rec v t
  | .listload => iterload W C rec .list v t
  | .dictload => dictload W C rec v t
  | .setload => iterload W C rec .set v t
  | .frozensetload => iterload W C rec .frozenset v t
  | .namedtupleload => namedtupleload W C rec v t
  | .dataclassload => dataclassload W C rec v t
  | .forwardrefload => forwardrefload W C rec v t
  | .literalload => local' (TL.literalload v t)
  | .typeddictload => typeddictload W C rec v t
  | .datetimeload => local' (TL.datetimeload W v t)
  | .patternload => local' (TL.patternload W v t)
  | .timedeltaload => local' (TL.timedeltaload W v t)
  | .strconstructload => local' (TL.strconstructload W v t)
  | .attrload => attrload W C rec v t
  | .anyload => local' (TL.anyload v)
  | .newtypeload => newtypeload W C rec v t
  | .custom i => script (loadWith W C rec) (W.customLoad i v t)

/-- Handler calls with at most `n` nested handler calls. -/
def run (W : World) (C : Config) : Nat → Rec
  | 0 => fun _ _ _ => .stuck
  | n + 1 => step W C (run W C n)

/-- The call `loader.load(value, type_)` made by a thread, with fuel `n`. -/
def load (W : World) (C : Config) (n : Nat) (v : Val) (t : Ty) : Prog Val := loadWith W C (run W C n) v t none
end T

/-! ## Interleaving -/

/-- A loader and the threads using it. -/
structure Conf where
  state : LState
  threads : List (Prog Val)

/-- One thread makes one access. -/
inductive Conf.Step : Conf → Conf → Prop
  | mk {s : LState} (before : List (Prog Val)) (f : LState → LState) (k : LState → Prog Val) (after : List (Prog Val)) :
      Conf.Step ⟨s, before ++ .act f k :: after⟩ ⟨f s, before ++ k s :: after⟩

/-- Any number of accesses of any of the threads, in any order. -/
inductive Conf.Steps : Conf → Conf → Prop
  | refl {c} : Conf.Steps c c
  | next {c c' c''} : Conf.Steps c c' → Conf.Step c' c'' → Conf.Steps c c''

/-- A call made by a thread: `load(value, type)`. -/
structure Job where
  value : Val
  type : Ty
  fuel : Nat

/-- The threads about to make their calls. -/
def Conf.start (W : World) (C : Config) (s : LState) (jobs : List Job) : Conf :=
  ⟨s, jobs.map (fun j => T.load W C j.fuel j.value j.type)⟩

end TL
