import Verif.Model.TypeChecks
import Verif.Model.DateTime
/-!
# dataloader.py

Each handler is a function of `rec`, the way to call another handler (`f(l, value, t)`); `Loader.run` ties the knot with
fuel.  All functions take the world `W` and the configuration `C` of the loader.
-/

namespace TL

/-- A way to call a handler function: `f(l, value, type_)`. -/
abbrev Rec := Handler → Val → Ty → L Val

/-! ## Raising -/

/-- `raise TypedloadXError(msg, value=v, type_=t)` -/
def mkExc (c : ExcClass) (m : Msg) (v : Val) (t : Ty) : Exc := .mk c m [] v (some t) []
/-- the same with `exceptions=es` -/
def mkExcSubs (c : ExcClass) (m : Msg) (v : Val) (t : Ty) (es : List Exc) : Exc := .mk c m [] v (some t) es
/-- raised without value and type -/
def mkExc0 (c : ExcClass) (m : Msg) : Exc := .mk c m [] .none none []

/-! ## Dispatch -/

/-- dataloader.py:252-261, the loop of `Loader.index` from position `i` on. -/
def indexFrom (W : World) (C : Config) (t : Ty) : List (Cond × Handler) → Nat → Except ExcClass Nat
  | [], _ => .error .value
  | (c, _) :: rest, i =>
    match evalCond W C c t with
    | .error e => if C.raiseconditionerrors then .error e else indexFrom W C t rest (i + 1)
    | .ok true => .ok i
    | .ok false => indexFrom W C t rest (i + 1)

/-- dataloader.py:245 `Loader.index` -/
def index (W : World) (C : Config) (t : Ty) : Except ExcClass Nat := indexFrom W C t C.handlers 0

/-- `l.handlers[l.index(t)][1]` -/
def pick (W : World) (C : Config) (t : Ty) : Except ExcClass Handler :=
  match index W C t with
  | .error e => .error e
  | .ok i => match C.handlers[i]? with
    | some p => .ok p.2
    | none => .error (.other 0)

/-- The idiom `l._indexcache.get(t)` or else `l._indexcache[t] = l.handlers[l.index(t)][1]`, raising `missing` when
`index` raises ValueError (dataloader.py:375-386, 391-400, 575-587, 708-720, 913-926). -/
def resolve (W : World) (C : Config) (t : Ty) (missing : Exc) : L Handler := do
  let s ← M.get
  match aget s.idx t with
  | some h => pure h
  | none => match pick W C t with
    | .ok h => do M.modify (fun s => { s with idx := aset s.idx t h }); pure h
    | .error e => if e.isValue then M.throw missing else M.throw (.plain e)

/-- dataloader.py:290-295: add the type to the known types, to resolve ForwardRefs later on. -/
def registerName (W : World) (t : Ty) (s : LState) : LState :=
  match s.frefs with
  | none => s
  | some fr => match W.tyName t with
    | none => s
    | some n => match aget fr n with
      | some _ => s
      | none => { s with frefs := some (aset fr n t) }

/-- dataloader.py:276-295: the handler lookup in `load`, with registration of the type name. -/
def loadResolve (W : World) (C : Config) (v : Val) (t : Ty) : L Handler := do
  let s ← M.get
  match aget s.idx t with
  | some h => pure h
  | none => match pick W C t with
    | .ok h => do M.modify (fun s => registerName W t { s with idx := aset s.idx t h }); pure h
    | .error e => if e.isValue then M.throw (mkExc .tlType (.noHandler t) v t) else M.throw (.plain e)

/-- dataloader.py:263-303 `Loader.load`. -/
def loadWith (W : World) (C : Config) (rec : Rec) (v : Val) (t : Ty) (ann : Option Annotation) : L Val := do
  let h ← loadResolve W C v t
  M.rescue (rec h v t) (fun e =>
    if e.isTL then M.throw (e.push ⟨v, t, ann⟩) else M.throw (.plain .assertion))

/-! ## Simple handlers -/

/-- dataloader.py:306-324 `_forwardrefload` -/
def forwardrefload (W : World) (C : Config) (rec : Rec) (v : Val) (t : Ty) : L Val :=
  match t with
  | .fref n => do
    let s ← M.get
    match s.frefs with
    | none => M.throw (mkExc .tlBase .frefDisabled v t)
    | some fr => match aget fr n with
      | none => M.throw (mkExc .tlValue (.frefUnknown n) v t)
      | some t' => loadWith W C rec v t' (some (.forwardref n))
  | _ => M.throw (.plain .attr)

/-- dataloader.py:326 `_anyload` -/
def anyload (v : Val) : L Val := pure v

/-- dataloader.py:330-338 `_literalload` -/
def literalload (v : Val) (t : Ty) : L Val :=
  match t with
  | .lit vs => if pyIn v vs then pure v else M.throw (mkExc .tlValue (.notLiteral t) v t)
  | _ => M.throw (.plain .attr)

/-- The call `type_(value)` of an Enum class: a member of the class itself, or the first member with an equal value, or what `_missing_` returns.
Simplification: what `_missing_` raises is taken to be a ValueError (`_enumload` catches it, so that its class is only seen among the sub-exceptions). -/
def enumCall (W : World) (e : Nat) (v : Val) : Option Val :=
  if v ∈ (W.enm e).members.map (fun m => Val.enumv e m.1) then some v
  else match (W.enm e).members.find? (fun m => pyEq m.2 v) with
    | some m => some (.enumv e m.1)
    | none => ((W.missing e v).filter (fun n => ((W.enm e).members.map (·.1)).contains n)).map (fun n => .enumv e n)

/-- The call `type_(value)` with a single positional argument.  `NewType` objects return their argument;
Enum classes look the value up; `timedelta(v)` counts days; everything else is `World.call`. -/
def pyCall (W : World) (t : Ty) (v : Val) : Except ExcClass Val :=
  match t with
  | .newtype _ _ => .ok v
  | .enum e => match enumCall W e v with
    | some m => .ok m
    | none => .error .value
  | .timedelta => tdDays W v
  | t => W.call t v

/-- dataloader.py:340-363 `_basicload` -/
def basicload (W : World) (C : Config) (v : Val) (t : Ty) : L Val :=
  if typeOf v ≠ t then
    if C.basiccast then
      match pyCall W t v with
      | .ok r => pure r
      | .error e =>
        if e.isValue then M.throw (mkExc .tlValue (.py e) v t)
        else if e.isType then M.throw (mkExc .tlType (.py e) v t)
        else M.throw (mkExc .tlBase (.py e) v t)
    else M.throw (mkExc .tlValue (.wrongType v t) v t)
  else pure v

/-- dataloader.py:799-807 `_noneload` -/
def noneload (v : Val) (t : Ty) : L Val :=
  if v = .none then pure .none else M.throw (mkExc .tlValue .notNone v t)

/-- dataloader.py:811-815: parsing of a date -/
def dtParse (W : World) (k : DtKind) (v : Val) : Except ExcClass Val :=
  match v with
  | .str s => W.fromIso k s
  | v => match pyIter v with
    | some xs => dtCall k xs
    | none => .error .type

/-- dataloader.py:809-820 `_datetimeload`; a value that is neither a str nor iterable makes `type_(*value)` raise TypeError.
OverflowError is not caught. -/
def datetimeload (W : World) (v : Val) (t : Ty) : L Val :=
  match t with
  | .dt k =>
    match dtParse W k v with
    | .ok x => pure x
    | .error e =>
      if e.isType then M.throw (mkExc .tlType (.py e) v t)
      else if e.isValue then M.throw (mkExc .tlValue (.py e) v t)
      else M.throw (.plain e)
  | _ => M.throw (.plain .attr)

/-- `re.compile(v)`: a compiled pattern is returned as it is; anything but str and bytes raises TypeError. -/
def patCompile (W : World) (v : Val) : Except ExcClass Val :=
  match v with
  | .pattern _ => .ok v
  | .str _ => (W.reCompile v).map (fun _ => .pattern v)
  | .bytes _ => (W.reCompile v).map (fun _ => .pattern v)
  | _ => .error .type

/-- dataloader.py:822-833 `_patternload`.  The check of the pattern parameter is guarded by `hasattr(type, "__args__")`,
which looks at the builtin `type` and is always false, so it never runs. -/
def patternload (W : World) (v : Val) (t : Ty) : L Val :=
  match patCompile W v with
  | .ok x => pure x
  | .error e =>
    if e = .reError then M.throw (mkExc .tlBase (.py e) v t)
    else if e.isType then M.throw (mkExc .tlType (.py e) v t)
    else M.throw (.plain e)

/-- dataloader.py:835-839 `_timedeltaload`; only TypeError is caught. -/
def timedeltaload (W : World) (v : Val) (t : Ty) : L Val :=
  match tdSeconds W v with
  | .ok x => pure x
  | .error e => if e.isType then M.throw (mkExc .tlType (.py e) v t) else M.throw (.plain e)

/-- dataloader.py:883-895 `_strconstructload` -/
def strconstructload (W : World) (v : Val) (t : Ty) : L Val :=
  match pyCall W t v with
  | .ok x => pure x
  | .error e =>
    if e.isValue then M.throw (mkExc .tlValue (.py e) v t)
    else if e.isType then M.throw (mkExc .tlType (.py e) v t)
    else M.throw (mkExc .tlBase (.py e) v t)

/-- dataloader.py:897 `_newtypeload` -/
def newtypeload (W : World) (C : Config) (rec : Rec) (v : Val) (t : Ty) : L Val :=
  match t with
  | .newtype _ t' => loadWith W C rec v t' none
  | _ => M.throw (.plain .attr)

/-! ## Iterables -/

/-- The conversion of exceptions around the element loop of `_iterload` and `_tupleload`
(dataloader.py:936-944, 452-460). -/
def elemError (v : Val) (t : Ty) (i : Nat) (e : Exc) : Exc :=
  if e.isTL then e.push ⟨v, t, some (.index i)⟩
  else if e.cls.isType then mkExc .tlType (.py e.cls) v t
  else mkExc0 .tlType .notTypedload

/-- Loading one element in `_iterload` (dataloader.py:929-935): basic types are passed through on `isinstance`, unions of
basic types on exact type; otherwise the handler of the element type is called. -/
def iterElem (C : Config) (rec : Rec) (h : Handler) (et : Ty) (x : Val) : L Val :=
  match et with
  | .prim p =>
    if C.isBasic et then (if isInst p x then pure x else rec h x et) else rec h x et
  | .union ts =>
    if ts.all C.isBasic then (if typeOf x ∈ ts then pure x else rec h x et) else rec h x et
  | _ => rec h x et

/-- The elements are loaded by `map(f, ...)` (third branch), in which a StopIteration raised by the handler ends the iteration
silently; in the two generator-expression branches it becomes a RuntimeError. -/
def usesMap (C : Config) (et : Ty) : Bool :=
  match et with
  | .prim _ => !C.isBasic et
  | .union ts => !ts.all C.isBasic
  | _ => true

/-- Adding one element to the collection under construction: sets require hashable elements. -/
def collAdd (W : World) (k : SeqKind) (acc : List Val) (x : Val) : Except ExcClass (List Val) :=
  if k.isSet then (if W.hash x then .ok (setAdd acc x) else .error .type) else .ok (acc ++ [x])

/-- dataloader.py:927-944: the element loop of `_iterload`; `i` is the index of the next element. -/
def iterElems (W : World) (C : Config) (rec : Rec) (h : Handler) (k : SeqKind) (et : Ty) (v : Val) (t : Ty) :
    List Val → Nat → List Val → L (List Val)
  | [], _, acc => pure acc
  | x :: xs, i, acc =>
    M.handle (iterElem C rec h et x)
      (fun y => match collAdd W k acc y with
        | .error c => M.throw (elemError v t i (.plain c))
        | .ok acc' => iterElems W C rec h k et v t xs (i + 1) acc')
      (fun e =>
        if usesMap C et && e.cls == .stopIteration then pure acc
        else M.throw (elemError v t i e))

/-- dataloader.py:901-944 `_iterload` -/
def iterload (W : World) (C : Config) (rec : Rec) (k : SeqKind) (v : Val) (t : Ty) : L Val :=
  if v.isDict then M.throw (mkExc .tlType .dictAsIter v t) else
  match t with
  | .coll _ et => do
    let h ← resolve W C et (mkExc .tlType (.noHandler et) v et)
    match pyIter v with
    | none => M.throw (mkExc .tlType (.py .type) v t)
    | some xs => do
      let ys ← iterElems W C rec h k et v t xs 0 []
      pure (.seq k ys)
  | _ => M.throw (.plain .attr)

/-- dataloader.py:443-451: handler of the i-th tuple position (not stored into the cache). -/
def tupHandler (W : World) (C : Config) (t : Ty) : L Handler := do
  let s ← M.get
  match aget s.idx t with
  | some h => pure h
  | none => match pick W C t with
    | .ok h => pure h
    | .error e => M.throw (.plain e)

/-- dataloader.py:443-460: the element loop of `_tupleload`. -/
def tupElems (W : World) (C : Config) (rec : Rec) (v : Val) (t : Ty) :
    List Val → List Ty → Nat → L (List Val)
  | x :: xs, u :: us, i => do
    let y ← M.rescue
      (do let h ← tupHandler W C u
          if C.isBasic u && typeOf x == u then pure x else rec h x u)
      (fun e => M.throw (elemError v t i e))
    let ys ← tupElems W C rec v t xs us (i + 1)
    pure (y :: ys)
  | _, _, _ => pure []

/-- dataloader.py:425-460 `_tupleload`.  `len(value)` is evaluated outside of the `try`, so its TypeError escapes. -/
def tupleload (W : World) (C : Config) (rec : Rec) (v : Val) (t : Ty) : L Val :=
  match t with
  | .coll .tuple _ => iterload W C rec .tuple v t
  | .tuple ts =>
    if v.isDict then M.throw (mkExc .tlType .dictAsTuple v t) else
    match pyIter v with
    | none => M.throw (.plain .type)
    | some xs =>
      if C.failonextra && xs.length > ts.length then M.throw (mkExc .tlValue (.tooLong t) v t)
      else if xs.length < ts.length then M.throw (mkExc .tlValue (.tooShort t) v t)
      else do
        let ys ← tupElems W C rec v t xs ts 0
        pure (.seq .tuple ys)
  | _ => M.throw (.plain .attr)

/-! ## Dictionaries -/

/-- dataloader.py:529-543 `_dictequivalence` -/
def dictequivalence (C : Config) (v : Val) : Val :=
  match v with
  | .ns kvs => if C.dictequivalence then .dict (kvs.map (fun p => (.str p.1, p.2))) else v
  | v => v

/-- `isinstance(x, t)` for a basic type `t`. -/
def isInstTy (t : Ty) (x : Val) : Bool :=
  match t with
  | .prim p => isInst p x
  | _ => false

/-- dataloader.py:405-411: the fast comprehension.  `valF = none` when `value_f` was never assigned (NameError). -/
def dictFast (W : World) (C : Config) (rec : Rec) (kt vt : Ty) (keyF : Handler) (valF : Option Handler) :
    List (Val × Val) → List (Val × Val) → L (List (Val × Val))
  | [], acc => pure acc
  | (k, x) :: rest, acc => do
    let k' ← if C.isBasic kt && isInstTy kt k then pure k else rec keyF k kt
    let x' ← if C.isBasic vt && isInstTy vt x then pure x else
      match valF with
      | some h => rec h x vt
      | none => M.throw (.plain .name)
    if W.hash k' then dictFast W C rec kt vt keyF valF rest (dset acc k' x') else M.throw (.plain .type)

/-- dataloader.py:416-420: the slow comprehension, with exception tracking. -/
def dictSlow (W : World) (C : Config) (rec : Rec) (kt vt : Ty) :
    List (Val × Val) → List (Val × Val) → L (List (Val × Val))
  | [], acc => pure acc
  | (k, x) :: rest, acc => do
    let k' ← loadWith W C rec k kt (some (.key k))
    let x' ← loadWith W C rec x vt (some (.value x))
    if W.hash k' then dictSlow W C rec kt vt rest (dset acc k' x') else M.throw (.plain .type)

/-- `value.items()`, `none` for AttributeError -/
def items : Val → Option (List (Val × Val))
  | .dict kvs => some kvs
  | _ => none

/-- dataloader.py:388-400: the handler of the values.  When it is not cached the code assigns the new handler to
`key_f` instead of `value_f`.  Returns (key_f, value_f). -/
def dictValueHandler (W : World) (C : Config) (v : Val) (t vt : Ty) (keyF : Handler) : L (Handler × Option Handler) := do
  let s ← M.get
  match aget s.idx vt with
  | some h => pure (keyF, some h)
  | none => do
    let h ← resolve W C vt (mkExc .tlValue (.noHandlerIn vt t) v vt)
    pure (h, none)

/-- dataloader.py:365-423 `_dictload` -/
def dictload (W : World) (C : Config) (rec : Rec) (v : Val) (t : Ty) : L Val :=
  match t with
  | .dict kt vt => do
    let keyF0 ← resolve W C kt (mkExc .tlValue (.noHandlerIn kt t) v kt)
    let (keyF, valF) ← dictValueHandler W C v t vt keyF0
    let v' := dictequivalence C v
    M.rescue
      (match items v' with
        | none => M.throw (.plain .attr)
        | some kvs => do
          let r ← dictFast W C rec kt vt keyF valF kvs []
          pure (.dict r))
      (fun _ => M.rescue
        (match items v' with
          | none => M.throw (.plain .attr)
          | some kvs => do
            let r ← dictSlow W C rec kt vt kvs []
            pure (.dict r))
        (fun e => if e.cls.isAttr then M.throw (mkExc .tlAttr .wrapped v' t) else M.throw e))
  | _ => M.throw (.plain .attr)

/-! ## Objects -/

/-- dataloader.py:478-487: the loop of `_mangle_names`; a disallowed key with `failonextra` raises ValueError. -/
def mangleLoop (namesmap : List (String × String)) (failonextra : Bool) :
    List (Val × Val) → List (Val × Val) → Except ExcClass (List (Val × Val))
  | [], r => .ok r
  | (k, x) :: rest, r =>
    match k with
    | .str n =>
      if (namesmap.map (·.2)).contains n && (aget namesmap n).isNone then
        if failonextra then .error .value else mangleLoop namesmap failonextra rest r
      else match aget namesmap n with
        | some n' => mangleLoop namesmap failonextra rest (dset r (.str n') x)
        | none => mangleLoop namesmap failonextra rest (dset r k x)
    | k => mangleLoop namesmap failonextra rest (dset r k x)

/-- dataloader.py:463-488 `_mangle_names` -/
def mangle_names (namesmap : List (String × String)) (v : Val) (failonextra : Bool) : Except ExcClass Val :=
  if namesmap.isEmpty then .ok v else
  match items v with
  | none => .error .attr
  | some kvs => (mangleLoop namesmap failonextra kvs []).map .dict

/-- Value of a field of a new instance: the argument, else the default. -/
def fillField (params : List (String × Val)) (f : Field) : Except ExcClass (List (String × Val)) :=
  match aget params f.name with
  | some x => .ok [(f.name, x)]
  | none => match f.default with
    | some d => .ok [(f.name, d)]
    | none => if f.init then .error .type else .ok []

/-- All fields of a new instance; a missing argument without default raises TypeError. -/
def fillFields (params : List (String × Val)) : List Field → Except ExcClass (List (String × Val))
  | [] => .ok []
  | f :: fs => match fillField params f with
    | .error e => .error e
    | .ok p => match fillFields params fs with
      | .error e => .error e
      | .ok ps => .ok (p ++ ps)

/-- Names accepted as keyword arguments by the generated `__init__`: `init` fields; attrs strips leading underscores from
argument names, so private attributes cannot be passed under their own name. -/
def isInitArg (c : ClassDef) (n : String) : Bool :=
  c.fields.any (fun f => f.name == n && f.init && !(c.kind == .attrs && n.toList.head? == some '_'))

/-- `type_(**params)` (dataloader.py:605). -/
def construct (W : World) (cid : Nat) (params : List (String × Val)) : Except ExcClass Val :=
  let c := W.cls cid
  match c.kind with
  | .typeddict => .ok (.dict (params.map (fun p => (.str p.1, p.2))))
  | .namedtuple => (fillFields params c.fields).map (.nt cid)
  | .dataclass | .attrs =>
    if params.all (fun p => isInitArg c p.1) then
      match fillFields params c.fields with
      | .error e => .error e
      | .ok fs => (W.initHook cid fs).map (.inst cid)
    else .error .type

/-- `k` is the string naming a field. -/
def isFieldKey (fields : List String) (k : Val) : Bool :=
  match k with
  | .str n => fields.contains n
  | _ => false

/-- dataloader.py:577-603: the loop over the data in `_objloader`. -/
def objFields (W : World) (C : Config) (rec : Rec) (info : ObjInfo) (v : Val) (t : Ty) :
    List (Val × Val) → List (String × Val) → L (List (String × Val))
  | [], acc => pure acc
  | (k, x) :: rest, acc =>
    match k with
    | .str n =>
      if info.fields.contains n then
        match aget info.hints n with
        | none => M.throw (.plain (.other 1))
        | some ft => do
          let h ← resolve W C ft (mkExc .tlType (.noHandler ft) v ft)
          let y ← M.rescue (rec h x ft) (fun e =>
            if e.isTL then M.throw (e.push ⟨v, t, some (.field n)⟩) else M.throw e)
          objFields W C rec info v t rest (aset acc n y)
      else objFields W C rec info v t rest acc
    | _ => objFields W C rec info v t rest acc

/-- dataloader.py:549-558: the dictionary behind the value given to `_objloader`. -/
def objItems (C : Config) (v : Val) : Option (Val × List (Val × Val)) :=
  match v with
  | .dict kvs => some (v, kvs)
  | .ns kvs =>
    if C.dictequivalence then
      some (.dict (kvs.map (fun p => (.str p.1, p.2))), kvs.map (fun p => (.str p.1, p.2)))
    else none
  | _ => none

/-- dataloader.py:570: `vfields.difference(fields)` -/
def extraKeys (info : ObjInfo) (kvs : List (Val × Val)) : List Val :=
  (kvs.map (·.1)).filter (fun k => !isFieldKey info.fields k)

/-- dataloader.py:545-610 `_objloader` -/
def objloader (W : World) (C : Config) (rec : Rec) (info : ObjInfo) (v : Val) (cid : Nat) : L Val :=
  match objItems C v with
  | none => M.throw (mkExc .tlAttr (.py .attr) v (.obj cid))
  | some (v, kvs) =>
    if !info.necessary.all (fun n => dhas kvs (.str n)) then
      M.throw (mkExc .tlValue (.missing (info.necessary.filter (fun n => !dhas kvs (.str n)))) v (.obj cid))
    else if C.failonextra && !(extraKeys info kvs).isEmpty then
      -- ', '.join(extra_fields) raises TypeError if a key is not a string
      if (extraKeys info kvs).all (fun k => typeOf k == .prim .str) then
        M.throw (mkExc .tlValue (.extra (extraKeys info kvs)) v (.obj cid))
      else M.throw (.plain .type)
    else do
      let params ← objFields W C rec info v (.obj cid) kvs []
      match construct W cid params with
      | .ok r => pure r
      | .error e =>
        if e.isType then M.throw (mkExc0 .tlType (.py e))
        else if e.isValue then M.throw (mkExc0 .tlValue (.py e))
        else M.throw (.plain e)

/-- dataloader.py:612-625: class description computed by `_namedtupleload` -/
def namedtupleInfo (c : ClassDef) : ObjInfo where
  fields := c.fields.map (·.name)
  necessary := (c.fields.filter (fun f => f.default.isNone)).map (·.name)
  hints := c.fields.map (fun f => (f.name, f.ty))
  transforms := []

/-- dataloader.py:612-625 `_namedtupleload`.  Simplification: the class handlers are only called on a class of another kind by the
first pass of `_dictload`, with a dictionary key as value; a key is hashable, so it is neither a dict nor a Namespace, and the
call raises, if not here then in `_objloader`; that pass discards the exception, whatever it is.  The model raises at once. -/
def namedtupleload (W : World) (C : Config) (rec : Rec) (v : Val) (t : Ty) : L Val :=
  match t with
  | .obj c =>
    if (W.cls c).kind = .namedtuple then objloader W C rec (namedtupleInfo (W.cls c)) v c
    else M.throw (.plain .attr)
  | _ => M.throw (.plain .attr)

/-- dataloader.py:498-519: class description computed by `_dataclassload`.  Simplification: `fields` is a set in
Python; when two fields declare the same external name the later field of the class wins here. -/
def dataclassInfo (C : Config) (c : ClassDef) : ObjInfo where
  fields := c.fields.map (·.name)
  necessary := (c.fields.filter (fun f => f.init && f.default.isNone)).map (·.name)
  hints := c.fields.map (fun f => (f.name, f.ty))
  transforms := c.fields.foldl (fun acc f =>
    match aget f.metadata C.mangleKey with
    | some n => if n = "" then acc else aset acc n f.name
    | none => acc) []

/-- dataloader.py:494-519: cached class description -/
def dataclassCached (W : World) (C : Config) (c : Nat) : L ObjInfo := do
  let s ← M.get
  match aget s.objc c with
  | some i => pure i
  | none => do
    M.modify (fun s => { s with objc := aset s.objc c (dataclassInfo C (W.cls c)) })
    pure (dataclassInfo C (W.cls c))

/-- dataloader.py:521-526, 873-879: name mangling with the conversion of its exceptions -/
def mangleOrRaise (C : Config) (tr : List (String × String)) (v : Val) (t : Ty) : L Val :=
  match mangle_names tr v C.failonextra with
  | .ok v' => pure v'
  | .error e =>
    if e.isValue then M.throw (mkExc .tlValue (.py e) v t)
    else if e.isAttr then M.throw (mkExc .tlAttr (.py e) v t)
    else M.throw (.plain e)

/-- dataloader.py:490-527 `_dataclassload`.  On a class of another kind there is no `__dataclass_fields__` (see also `namedtupleload`). -/
def dataclassload (W : World) (C : Config) (rec : Rec) (v : Val) (t : Ty) : L Val :=
  match t with
  | .obj c =>
    if (W.cls c).kind = .dataclass then do
      let info ← dataclassCached W C c
      let v' ← mangleOrRaise C info.transforms v t
      objloader W C rec info v' c
    else M.throw (.plain .attr)
  | _ => M.throw (.plain .attr)

/-- dataloader.py:841-855 `_get_attr_converter_type`: with only a return annotation, `next(iter(...))` raises StopIteration. -/
def convType (cv : Conv) : Except ExcClass Ty :=
  if 0 < cv.params.length + (if cv.ret then 1 else 0) ∧ cv.params.length + (if cv.ret then 1 else 0) ≤ 2 then
    match cv.params with
    | t :: _ => .ok t
    | [] => .error .stopIteration
  else .ok .any

/-- dataloader.py:862: the types of the attributes -/
def attrHints : List Field → Except ExcClass (List (String × Ty))
  | [] => .ok []
  | f :: fs =>
    match (match f.conv with
      | some cv => convType cv
      | none => .ok f.ty) with
    | .error e => .error e
    | .ok t => match attrHints fs with
      | .error e => .error e
      | .ok r => .ok ((f.name, t) :: r)

/-- dataloader.py:860-871: class description computed by `_attrload` -/
def attrInfo (W : World) (C : Config) (fs : List Field) (hints : List (String × Ty)) : ObjInfo where
  fields := fs.map (·.name)
  necessary := (fs.filter (fun f => W.attrsSentinel && f.default.isNone && f.init)).map (·.name)
  hints := hints
  transforms := fs.foldl (fun acc f =>
    match aget f.metadata C.mangleKey with
    | some n => aset acc n f.name
    | none => acc) []

/-- dataloader.py:857-881 `_attrload`.  On a class of another kind there is no `__attrs_attrs__` (see also `namedtupleload`). -/
def attrload (W : World) (C : Config) (rec : Rec) (v : Val) (t : Ty) : L Val :=
  match t with
  | .obj c =>
    if (W.cls c).kind = .attrs then
      match attrHints (W.cls c).fields with
      | .error e => M.throw (.plain e)
      | .ok hints => do
        let v' ← mangleOrRaise C (attrInfo W C (W.cls c).fields hints).transforms v t
        objloader W C rec (attrInfo W C (W.cls c).fields hints) v' c
    else M.throw (.plain .attr)
  | _ => M.throw (.plain .attr)

/-- dataloader.py:631-650: class description computed by `_typeddictload`; `rew` says whether the annotations of the class have
already been rewritten, so that `NotRequired` is no longer visible. -/
def typeddictInfo (c : ClassDef) (rew : Bool) : ObjInfo where
  fields := c.fields.map (·.name)
  necessary := (c.fields.filter (fun f => f.required && !(f.notRequired && !rew))).map (·.name)
  hints := c.fields.map (fun f => (f.name, f.ty))
  transforms := []

/-- dataloader.py:646-649: `type_hints[k] = notrequiredtype(v)` modifies the annotations of the class. -/
def rewriteAnnotations (W : World) (c : Nat) (s : LState) : LState :=
  if (W.cls c).fields.any (·.notRequired) && !s.tdRew.contains c then { s with tdRew := c :: s.tdRew } else s

/-- dataloader.py:627-652 `_typeddictload` (Python 3.9+).  Fields annotated `NotRequired[...]` are discarded from the
necessary fields and their annotation is replaced in the class itself, which the next load observes.  On a class of another
kind, see `namedtupleload`. -/
def typeddictload (W : World) (C : Config) (rec : Rec) (v : Val) (t : Ty) : L Val :=
  match t with
  | .obj c =>
    if (W.cls c).kind = .typeddict then do
      let s ← M.get
      M.modify (rewriteAnnotations W c)
      objloader W C rec (typeddictInfo (W.cls c) (s.tdRew.contains c)) v c
    else M.throw (.plain .attr)
  | _ => M.throw (.plain .attr)

/-! ## Unions -/

/-- dataloader.py:682-683: keys that have literals in every member -/
def commonKeys : List (List (String × List Val)) → List String
  | [] => []
  | d :: ds => (d.map (·.1)).filter (fun k => ds.all (fun d' => (d'.map (·.1)).contains k))

/-- dataloader.py:685-692: the table literal → member for the chosen key -/
def literalTable (key : String) (data : List (Ty × List (String × List Val))) : List (Val × Ty) :=
  data.foldl (fun acc p => ((aget p.2 key).getD []).foldl (fun acc l => dset acc l p.1) acc) []

/-- dataloader.py:679-695: discriminator of a union, freshly computed; `keys.pop()` is `World.popChoice`. -/
def mkDisc (W : World) (rew : List Nat) (ts : List Ty) : Disc :=
  let data := ts.map (fun t => (t, discriminatorliterals W rew t))
  match commonKeys (data.map (·.2)) with
  | [] => none
  | k :: ks =>
    let keys := k :: ks
    let key := keys.getD (W.popChoice keys % keys.length) k
    some (key, literalTable key data)

/-- dataloader.py:669-671: the members, basic types last (stable sort) -/
def sortArgs (C : Config) (ts : List Ty) : List Ty :=
  ts.filter (fun t => !C.isBasic t) ++ ts.filter (fun t => C.isBasic t)

/-- dataloader.py:700-704: move the preferred member to the front -/
def bump (ts : List Ty) (t : Ty) : List Ty := t :: ts.erase t

/-- dataloader.py:676-695: the cached discriminator of a union.  The cache is a dictionary keyed by the type, so that two unions that are equal
to Python share an entry, the one computed for the first of the two that was loaded. -/
def discCached (W : World) (ts : List Ty) : L Disc := do
  let s ← M.get
  match aget s.disc (.union (W.unionKey ts)) with
  | some d => pure d
  | none => do
    M.modify (fun s => { s with disc := aset s.disc (.union (W.unionKey ts)) (mkDisc W s.tdRew ts) })
    pure (mkDisc W s.tdRew ts)

/-- dataloader.py:673-704: the order in which members are tried.  Looking up an unhashable discriminator value raises
TypeError. -/
def unionOrder (W : World) (C : Config) (v : Val) (ts : List Ty) : L (List Ty) :=
  match v with
  | .dict kvs => do
    let d ← discCached W ts
    match d with
    | none => pure (sortArgs C ts)
    | some (key, table) =>
      if table.isEmpty then pure (sortArgs C ts)
      else if W.hash ((dget kvs (.str key)).getD .none) then
        match dget table ((dget kvs (.str key)).getD .none) with
        | some p => pure (bump (sortArgs C ts) p)
        | none => pure (sortArgs C ts)
      else M.throw (.plain .type)
  | _ => pure (sortArgs C ts)

/-- dataloader.py:706-739: the loop over the members; returns how many loaded, the last result, and the exceptions. -/
def unionTry (W : World) (C : Config) (rec : Rec) (v : Val) (t : Ty) :
    List Ty → Nat → Val → List Exc → L (Nat × Val × List Exc)
  | [], c, r, es => pure (c, r, es)
  | u :: us, c, r, es =>
    M.handle
      (do let h ← resolve W C u (mkExc .tlValue (.noHandlerIn u t) v u)
          rec h v u)
      (fun x =>
        if C.uniondebugconflict then unionTry W C rec v t us (c + 1) x es
        else pure (c + 1, x, es))
      (fun e =>
        if e.isTL then unionTry W C rec v t us c r (es ++ [e.push ⟨v, t, some (.union u)⟩])
        else M.throw e)

/-- dataloader.py:654-759 `_unionload` -/
def unionload (W : World) (C : Config) (rec : Rec) (v : Val) (t : Ty) : L Val :=
  match t with
  | .union ts =>
    if C.isBasic (typeOf v) && ts.contains (typeOf v) then pure v else do
    let order ← unionOrder W C v ts
    let (c, r, es) ← unionTry W C rec v t order 0 .none []
    if c = 1 then pure r
    else if c = 0 then M.throw (mkExcSubs .tlValue (.unionNone t) v t es)
    else M.throw (mkExcSubs .tlType (.unionMany t c) v t es)
  | _ => M.throw (.plain .attr)

/-! ## Enums -/

/-- dataloader.py:778-784: trying the type hints of the Enum -/
def enumHints (W : World) (C : Config) (rec : Rec) (v : Val) (e : Nat) : List Ty → List Exc → L Val
  | [], es => M.throw (mkExcSubs .tlValue (.enumNone (.enum e)) v (.enum e) es)
  | u :: us, es =>
    M.rescue
      (do let x ← loadWith W C rec v u (some (.union u))
          match enumCall W e x with
          | some m => pure m
          | none => M.throw (.plain .value))
      (fun ex => enumHints W C rec v e us (es ++ [ex]))

/-- dataloader.py:761-797 `_enumload` -/
def enumload (W : World) (C : Config) (rec : Rec) (v : Val) (t : Ty) : L Val :=
  match t with
  | .enum e => match enumCall W e v with
    | some m => pure m
    | none => enumHints W C rec v e (W.enm e).hints []
  | _ => M.throw (.plain .attr)

/-! ## Tying the knot -/

/-- Calling a handler function `f(l, value, type_)`, where `rec` is used for the calls it makes in turn. -/
def step (W : World) (C : Config) (rec : Rec) : Rec := fun h v t =>
  match h with
  | .noneload => noneload v t
  | .unionload => unionload W C rec v t
  | .basicload => basicload W C v t
  | .enumload => enumload W C rec v t
  | .tupleload => tupleload W C rec v t
  | .listload => iterload W C rec .list v t
  | .dictload => dictload W C rec v t
  | .setload => iterload W C rec .set v t
  | .frozensetload => iterload W C rec .frozenset v t
  | .namedtupleload => namedtupleload W C rec v t
  | .dataclassload => dataclassload W C rec v t
  | .forwardrefload => forwardrefload W C rec v t
  | .literalload => literalload v t
  | .typeddictload => typeddictload W C rec v t
  | .datetimeload => datetimeload W v t
  | .patternload => patternload W v t
  | .timedeltaload => timedeltaload W v t
  | .strconstructload => strconstructload W v t
  | .attrload => attrload W C rec v t
  | .anyload => anyload v
  | .newtypeload => newtypeload W C rec v t
  | .custom i => (W.customLoad i v t).run (loadWith W C rec)

/-- Handler calls with at most `n` nested handler calls. -/
def run (W : World) (C : Config) : Nat → Rec
  | 0 => fun _ _ _ _ => .div
  | n + 1 => step W C (run W C n)

/-- `Loader.load(value, type_)` on a loader in state `s`, with fuel `n`. -/
def load (W : World) (C : Config) (n : Nat) (v : Val) (t : Ty) : L Val := loadWith W C (run W C n) v t none

/-- A fresh loader (dataloader.py:166-248), in a program where the TypedDict annotations `rew` are already rewritten. -/
def fresh (rew : List Nat := []) : LState := { tdRew := rew }

/-- `typedload.load(value, type_, **kwargs)` (__init__.py:192-205): a new loader for each call. -/
def apiLoad (W : World) (C : Config) (n : Nat) (v : Val) (t : Ty) (rew : List Nat) : Res LState Exc Val :=
  load W C n v t (fresh rew)

end TL
