import Verif.Model.TypeChecks
/-!
# datadumper.py

Same structure as the loader: handlers are functions of `rec`, the way to call `d.dump`; `drun` ties the knot with fuel.
-/

namespace TL

/-- Conditions of the dump handlers (datadumper.py:142-154).  They look at the value. -/
inductive DCond
  | isBasic | isNamedtuple | isDataclass | isIter | isEnum | isDict | isAttrs | isDate | isTimedelta | isPattern
  | isStrconstructed
  | custom (i : Nat)
  deriving DecidableEq, Repr

/-- The dump handlers (datadumper.py:142-154). -/
inductive DHandler
  | identity | namedtuple | dataclass | iterator | enum | dict | attrs | date | timedelta | pattern | str
  | custom (i : Nat)
  deriving DecidableEq, Repr

/-- datadumper.py:142-154: the default handler list. -/
def defaultDHandlers : List (DCond × DHandler) :=
  [ (.isBasic, .identity),
    (.isNamedtuple, .namedtuple),
    (.isDataclass, .dataclass),
    (.isIter, .iterator),
    (.isEnum, .enum),
    (.isDict, .dict),
    (.isAttrs, .attrs),
    (.isDate, .date),
    (.isTimedelta, .timedelta),
    (.isPattern, .pattern),
    (.isStrconstructed, .str) ]

/-- Attributes of a Dumper that do not change after construction (datadumper.py:112-160). -/
structure DConfig where
  basictypes : List Prim := [.int, .bool, .float, .str, .none]
  hidedefault : Bool := true
  isodates : Bool := false
  mangleKey : String := "name"
  raiseconditionerrors : Bool := true
  strconstructed : List String :=
    ["Path", "PosixPath", "WindowsPath", "IPv4Address", "IPv6Address", "IPv4Network", "IPv6Network", "IPv4Interface",
     "IPv6Interface", "UUID"]
  handlers : List (DCond × DHandler) := defaultDHandlers
  deriving DecidableEq, Repr

/-- `t in d.basictypes` -/
def DConfig.isBasic (C : DConfig) : Ty → Bool
  | .prim p => C.basictypes.contains p
  | _ => false

/-- The entry of `_dataclasscache` (datadumper.py:272): fields, defaults, type hints. -/
structure DataDesc where
  fields : List String
  defaults : List (String × Val)
  hints : List (String × Ty)
  deriving DecidableEq, Repr

/-- The mutable part of a Dumper (datadumper.py:156-157). -/
structure DState where
  hc : List (Ty × DHandler) := []
  dc : List (Nat × DataDesc) := []
  deriving DecidableEq, Repr

/-- Dumper computations. -/
abbrev D := M DState Exc

/-- A way to call `d.dump(value, annotated_type)`.  (The handlers are generic in the state `σ` of the dumper, so that the same
handlers serve a dumper without caches.) -/
abbrev DRec (σ : Type) := Val → Ty → M σ Exc Val

/-- The conditions of the default dump handlers, datadumper.py:142-154.  A NamedTuple is a tuple with `_fields`; the
attributes `__dataclass_fields__` and `__attrs_attrs__` are found on instances of such classes; `datetime` is a subclass of
`date`.  Simplification: TypedDict classes have no instances of their own (they are dicts). -/
def dEvalCond (W : World) (C : DConfig) : DCond → Val → Except ExcClass Bool
  | .isBasic, v => .ok (C.isBasic (typeOf v))
  | .isNamedtuple, v => .ok (match v with
      | .nt _ _ => true
      | _ => false)
  | .isDataclass, v => .ok (match v with
      | .inst c _ => (W.cls c).kind == .dataclass
      | _ => false)
  | .isIter, v => .ok (match v with
      | .seq _ _ => true
      | .nt _ _ => true
      | _ => false)
  | .isEnum, v => .ok (match v with
      | .enumv _ _ => true
      | _ => false)
  | .isDict, v => .ok v.isDict
  | .isAttrs, v => .ok (match v with
      | .inst c _ => (W.cls c).kind == .attrs
      | _ => false)
  | .isDate, v => .ok (match v with
      | .date .. => true
      | .time .. => true
      | .datetime .. => true
      | _ => false)
  | .isTimedelta, v => .ok (match v with
      | .timedelta _ => true
      | _ => false)
  | .isPattern, v => .ok (match v with
      | .pattern _ => true
      | _ => false)
  | .isStrconstructed, v => .ok (match typeOf v with
      | .strcons c => C.strconstructed.contains c
      | _ => false)
  | .custom i, v => W.dumpCond i v

/-- The exception raised when no handler matches (datadumper.py:178).  `'...%s' % value` itself raises TypeError when the value
is a tuple of length other than one. -/
def unableToDump (v : Val) : Exc :=
  match v with
  | .seq .tuple xs => if xs.length = 1 then .mk .tlValue (.unableToDump v) [] v (some (typeOf v)) [] else .plain .type
  | .nt _ fs => if fs.length = 1 then .mk .tlValue (.unableToDump v) [] v (some (typeOf v)) [] else .plain .type
  | v => .mk .tlValue (.unableToDump v) [] v (some (typeOf v)) []

/-- datadumper.py:162-178 `Dumper.index`, from position `i` on. -/
def dIndexFrom (W : World) (C : DConfig) (v : Val) : List (DCond × DHandler) → Nat → Except Exc Nat
  | [], _ => .error (unableToDump v)
  | (c, _) :: rest, i =>
    match dEvalCond W C c v with
    | .error e => if C.raiseconditionerrors then .error (.plain e) else dIndexFrom W C v rest (i + 1)
    | .ok true => .ok i
    | .ok false => dIndexFrom W C v rest (i + 1)

/-- datadumper.py:162 `Dumper.index` -/
def dIndex (W : World) (C : DConfig) (v : Val) : Except Exc Nat := dIndexFrom W C v C.handlers 0

/-- `self.handlers[self.index(value)][1]` -/
def dPick (W : World) (C : DConfig) (v : Val) : Except Exc DHandler :=
  match dIndex W C v with
  | .error e => .error e
  | .ok i => match C.handlers[i]? with
    | some p => .ok p.2
    | none => .error (.plain (.other 0))

/-- datadumper.py:188-205: the handler of a value, cached by `type(value)`.  Simplification: handlers with the deprecated
two-parameter signature are not distinguished. -/
def dResolve (W : World) (C : DConfig) (v : Val) : D DHandler := do
  let s ← M.get
  match aget s.hc (typeOf v) with
  | some h => pure h
  | none => match dPick W C v with
    | .ok h => do M.modify (fun s => { s with hc := aset s.hc (typeOf v) h }); pure h
    | .error e => M.throw e

/-- Dump every element (datadumper.py:300). -/
def dumpList {σ : Type} (rec : DRec σ) : List Val → M σ Exc (List Val)
  | [] => pure []
  | x :: xs => do
    let y ← rec x .any
    let ys ← dumpList rec xs
    pure (y :: ys)

/-- Dump keys and values of a dictionary (datadumper.py:148); an unhashable dumped key raises TypeError. -/
def dumpDict (W : World) {σ : Type} (rec : DRec σ) : List (Val × Val) → List (Val × Val) → M σ Exc (List (Val × Val))
  | [], acc => pure acc
  | (k, x) :: rest, acc => do
    let k' ← rec k .any
    let x' ← rec x .any
    if W.hash k' then dumpDict W rec rest (dset acc k' x') else M.throw (.plain .type)

/-- datadumper.py:283-289: the element type given by the annotation: the only type argument, or that of `Tuple[t, ...]`;
`Any` otherwise.  The arguments of `re.Pattern[str]` count too. -/
def iterItemTy : Ty → Ty
  | .coll _ t => t
  | .tuple [t] => t
  | .pattern (some p) => .prim p
  | _ => .any

/-- `isinstance(value, tuple)`-like contents for `_iteratordump` -/
def iterContents : Val → List Val
  | .seq _ xs => xs
  | .nt _ fs => fs.map (·.2)
  | _ => []

/-- datadumper.py:282-300 `_iteratordump` -/
def iteratordump (C : DConfig) {σ : Type} (rec : DRec σ) (v : Val) (t : Ty) : M σ Exc Val :=
  if C.isBasic (iterItemTy t) && (C.handlers.head?.map (·.2) == some .identity) then pure (.list (iterContents v))
  else do
    let ys ← dumpList rec (iterContents v)
    pure (.list ys)

/-- `k in defaults and defaults[k] == v` for a field hidden by hidedefault -/
def isDefault (defaults : List (String × Val)) (n : String) (x : Val) : Bool :=
  match aget defaults n with
  | some d => pyEq d x
  | none => false

/-- datadumper.py:253-259 `_namedtupledump`: the loop over the fields -/
def dumpNt (C : DConfig) {σ : Type} (rec : DRec σ) (defaults : List (String × Val)) :
    List (String × Val) → M σ Exc (List (Val × Val))
  | [] => pure []
  | (k, x) :: rest =>
    if C.hidedefault && isDefault defaults k x then dumpNt C rec defaults rest
    else do
      let y ← rec x .any
      let r ← dumpNt C rec defaults rest
      pure ((.str k, y) :: r)

/-- The declared defaults of a class (values of factories included). -/
def classDefaults (c : ClassDef) : List (String × Val) :=
  c.fields.filterMap (fun f => f.default.map (fun d => (f.name, d)))

/-- datadumper.py:262-280: the loop over the fields of a dataclass. -/
def dumpFields (W : World) (C : DConfig) {σ : Type} (rec : DRec σ) (cd : ClassDef) (defaults : List (String × Val))
    (hints : List (String × Ty)) (vals : List (String × Val)) :
    List String → List (Val × Val) → M σ Exc (List (Val × Val))
  | [], acc => pure acc
  | f :: fs, acc =>
    match aget vals f with
    | none => M.throw (.plain .attr)
    | some x =>
      if C.hidedefault && isDefault defaults f x then dumpFields W C rec cd defaults hints vals fs acc
      else do
        let y ← rec x ((aget hints f).getD .any)
        let name := match cd.fields.find? (fun g => g.name == f) with
          | some g => (aget g.metadata C.mangleKey).getD f
          | none => f
        dumpFields W C rec cd defaults hints vals fs (dset acc (.str name) y)

/-- datadumper.py:266-271: description of a dataclass; the names of the fields are kept in a set -/
def mkDataDesc (W : World) (cd : ClassDef) : DataDesc where
  fields := W.setOrder (cd.fields.map (·.name))
  defaults := classDefaults cd
  hints := cd.fields.map (fun f => (f.name, f.ty))

/-- datadumper.py:263-274: description of a dataclass, cached -/
def dataclassDesc (W : World) (c : Nat) : D DataDesc := do
  let s ← M.get
  match aget s.dc c with
  | some d => pure d
  | none => do
    M.modify (fun s => { s with dc := aset s.dc c (mkDataDesc W (W.cls c)) })
    pure (mkDataDesc W (W.cls c))

/-- datadumper.py:208-221 `_attrdump`: the loop over the attributes -/
def dumpAttrs (C : DConfig) {σ : Type} (rec : DRec σ) (vals : List (String × Val)) :
    List Field → List (Val × Val) → M σ Exc (List (Val × Val))
  | [], acc => pure acc
  | f :: fs, acc =>
    match aget vals f.name with
    | none => M.throw (.plain .attr)
    | some x =>
      if !f.repr then dumpAttrs C rec vals fs acc
      else if C.hidedefault && (match f.default with
          | some d => pyEq x d
          | none => false) then dumpAttrs C rec vals fs acc
      else do
        let y ← rec x .any
        dumpAttrs C rec vals fs (dset acc (.str ((aget f.metadata C.mangleKey).getD f.name)) y)

/-- datadumper.py:224-242 `_datetimedump` -/
def datetimedump {σ : Type} (W : World) (C : DConfig) (v : Val) : M σ Exc Val :=
  if C.isodates then pure (.str (W.isoformat v)) else
  match v with
  | .date y m d => pure (.list [.int y, .int m, .int d])
  | .time h mi s us tz =>
    if tz.isSome then M.throw (.plain .notImplemented) else pure (.list [.int h, .int mi, .int s, .int us])
  | .datetime y m d h mi s us tz =>
    if tz.isSome then M.throw (.plain .notImplemented)
    else pure (.list [.int y, .int m, .int d, .int h, .int mi, .int s, .int us])
  | _ => M.throw (.plain .attr)

/-- Calling a dump handler `f(d, value, annotated_type)`; `desc` is the access to the descriptions of dataclasses. -/
def dstep (W : World) (C : DConfig) {σ : Type} (desc : Nat → M σ Exc DataDesc) (rec : DRec σ) (h : DHandler) (v : Val) (t : Ty) :
    M σ Exc Val :=
  match h with
  | .identity => pure v
  | .namedtuple => match v with
    | .nt c fs => do
      let r ← dumpNt C rec (classDefaults (W.cls c)) fs
      pure (.dict r)
    | _ => M.throw (.plain .attr)
  | .dataclass => match v with
    | .inst c vals => do
      let d ← desc c
      let r ← dumpFields W C rec (W.cls c) d.defaults d.hints vals d.fields []
      pure (.dict r)
    | _ => M.throw (.plain .attr)
  | .iterator => iteratordump C rec v t
  | .enum => match v with
    | .enumv e n => match aget (W.enm e).members n with
      | some x => rec x .any
      | none => M.throw (.plain .attr)
    | _ => M.throw (.plain .attr)
  | .dict => match v with
    | .dict kvs => do
      let r ← dumpDict W rec kvs []
      pure (.dict r)
    | _ => M.throw (.plain .attr)
  | .attrs => match v with
    | .inst c vals => do
      let r ← dumpAttrs C rec vals (W.cls c).fields []
      pure (.dict r)
    | _ => M.throw (.plain .attr)
  | .date => datetimedump W C v
  | .timedelta => match v with
    | .timedelta us => pure (.float (W.totalSeconds us))
    | _ => M.throw (.plain .attr)
  | .pattern => match v with
    | .pattern src => pure src
    | _ => M.throw (.plain .attr)
  | .str => pure (.str (W.strOf v))
  | .custom i => (W.dumpCustom i v t).run (fun x u _ => rec x u)

/-- datadumper.py:180-205 `Dumper.dump(value, annotated_type)`, with at most `n` nested calls. -/
def dump (W : World) (C : DConfig) : Nat → DRec DState
  | 0 => fun _ _ _ => .div
  | n + 1 => fun v t => do
    let h ← dResolve W C v
    dstep W C (dataclassDesc W) (dump W C n) h v t

/-- `typedload.dump(value, **kwargs)` (__init__.py): a new dumper for each call. -/
def apiDump (W : World) (C : DConfig) (n : Nat) (v : Val) : Res DState Exc Val := dump W C n v .any {}

end TL
