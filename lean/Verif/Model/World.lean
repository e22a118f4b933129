import Verif.Model.PyOps
import Verif.Model.Monad
/-!
# World, configuration and loader state

`World` collects what is external to typedload: the program's classes, and the behaviour of constructors and of the
standard library.  All its components are arbitrary; theorems state the laws they need.
-/

namespace TL

/-- Conditions of the handler list: the functions of typechecks.py and the lambdas in dataloader.py:213-239.
`custom i` is a user-supplied condition. -/
inductive Cond
  | isNone | isUnion | isBasic | isEnum | isTuple | isList | isDict | isSet | isFrozenset
  | isNamedtuple | isDataclass | isForwardref | isLiteral | isTypeddict | isDatetime | isPattern
  | isTimedelta | isStrconstructed | isAttrs | isAny | isNewtype
  | custom (i : Nat)
  deriving DecidableEq, Repr

/-- The loading functions of dataloader.py referenced by the handler list.  `custom i` is a user-supplied handler. -/
inductive Handler
  | noneload | unionload | basicload | enumload | tupleload | listload | dictload | setload | frozensetload
  | namedtupleload | dataclassload | forwardrefload | literalload | typeddictload | datetimeload | patternload
  | timedeltaload | strconstructload | attrload | anyload | newtypeload
  | custom (i : Nat)
  deriving DecidableEq, Repr

/-- dataloader.py:213-239: the default handler list. -/
def defaultHandlers : List (Cond × Handler) :=
  [ (.isNone, .noneload),
    (.isUnion, .unionload),
    (.isBasic, .basicload),
    (.isEnum, .enumload),
    (.isTuple, .tupleload),
    (.isList, .listload),
    (.isDict, .dictload),
    (.isSet, .setload),
    (.isFrozenset, .frozensetload),
    (.isNamedtuple, .namedtupleload),
    (.isDataclass, .dataclassload),
    (.isForwardref, .forwardrefload),
    (.isLiteral, .literalload),
    (.isTypeddict, .typeddictload),
    (.isDatetime, .datetimeload),
    (.isPattern, .patternload),
    (.isTimedelta, .timedeltaload),
    (.isStrconstructed, .strconstructload),
    (.isAttrs, .attrload),
    (.isAny, .anyload),
    (.isNewtype, .newtypeload) ]

/-- What a user-supplied handler does (`__init__.py`, "Handlers": "The pointer to the loader or dumper object is passed").  It returns, raises,
or calls back the loader with `loader.load(v, t, annotation=a)` (the dumper with `dumper.dump(v, t)`) and goes on according to
what that call returned or raised.  The handler may do anything else in between, as long as it is a function of these answers; it does not
modify the attributes of the loader. -/
inductive Script
  | ret (v : Val)
  | raise (e : Exc)
  | call (v : Val) (t : Ty) (ann : Option Annotation) (next : Except Exc Val → Script)

/-- Running a user-supplied handler, `call` being the method of the loader or of the dumper. -/
def Script.run {σ : Type} (call : Val → Ty → Option Annotation → M σ Exc Val) : Script → M σ Exc Val
  | .ret v => pure v
  | .raise e => M.throw e
  | .call v t ann next => M.handle (call v t ann) (fun r => (next (.ok r)).run call) (fun e => (next (.error e)).run call)

/-- Everything outside typedload.
* `cls`, `enm` : the classes and enums of the program
* `tyName t` : `t.__name__` when the type object has one (depends on the Python version for generic aliases)
* `call t v` : the call `t(v)` for classes whose constructor is not modelled explicitly (see `pyCall`)
* `initHook c fs` : what constructing an instance does beyond storing fields: `__post_init__`, converters, validators
* `fromIso k s` : `date/time/datetime.fromisoformat(s)`; `isoformat v` its inverse direction
* `reCompile src` : whether `re.compile(src)` raises
* `tdFloat f` : microseconds of `timedelta(0, f)` for a float; `totalSeconds us` : `total_seconds()`
* `strOf v` : `str(v)`
* `popChoice ks` : which element `set.pop()` returns (an index, taken modulo the size)
* `attrsSentinel` : whether `attr._make._Nothing` *is* the default of attributes without default
  (in released attrs versions it is the class of that sentinel, so the test dataloader.py:866 is false)
* `customCond`, `customLoad` : user-supplied conditions and handlers of a Loader, which may call the loader back (see `Script`)
* `dumpCond`, `dumpCustom` : user-supplied conditions and handlers of a Dumper, which may call the dumper back
* `strTy t`, `strMsg m` : `str()` of a type and the text of an exception description
* `unionKey ts` : what `Union[ts]` is as a key of a dictionary.  Python compares unions as sets, so that `Union[A, B] == Union[B, A]`; two unions
  are equal when their `unionKey` is the same, a rearrangement of the members.
* `missing e v` : the name of the member that `e._missing_(v)` returns, for a `v` that no member has as value; `none` when it returns no member or raises
* `setOrder ns` : the order in which the set of strings built from `ns` is iterated: it depends on the hashes, which differ from process to process -/
structure World where
  cls : Nat → ClassDef
  enm : Nat → EnumDef
  tyName : Ty → Option String
  call : Ty → Val → Except ExcClass Val
  initHook : Nat → List (String × Val) → Except ExcClass (List (String × Val))
  fromIso : DtKind → String → Except ExcClass Val
  isoformat : Val → String
  reCompile : Val → Except ExcClass Unit
  tdFloat : PF → Except ExcClass Int
  totalSeconds : Int → PF
  strOf : Val → String
  popChoice : List String → Nat
  attrsSentinel : Bool
  customCond : Nat → Ty → Except ExcClass Bool
  customLoad : Nat → Val → Ty → Script
  dumpCond : Nat → Val → Except ExcClass Bool
  dumpCustom : Nat → Val → Ty → Script
  strTy : Ty → String
  strMsg : Msg → String
  unionKey : List Ty → List Ty := fun ts => ts
  unionKey_perm : ∀ ts, (unionKey ts).Perm ts := by exact fun _ => List.Perm.refl _
  missing : Nat → Val → Option String := fun _ _ => none
  setOrder : List String → List String := fun ns => ns
  setOrder_perm : ∀ ns, (setOrder ns).Perm ns := by exact fun _ => List.Perm.refl _

/-- Hashability of instances, from the class table. -/
def World.hc (W : World) (c : Nat) : Bool := (W.cls c).hashable
/-- `hash(v)` does not raise. -/
def World.hash (W : World) (v : Val) : Bool := hashable W.hc v

/-- Attributes of a Loader object that do not change after construction (dataloader.py:166-239).
Simplifications: `basictypes` holds primitive classes and `strconstructed` holds string-constructed classes;
`pep563` is not modelled. -/
structure Config where
  basictypes : List Prim := [.int, .bool, .float, .str, .none]
  basiccast : Bool := true
  failonextra : Bool := false
  raiseconditionerrors : Bool := true
  dictequivalence : Bool := true
  mangleKey : String := "name"
  uniondebugconflict : Bool := false
  strconstructed : List String :=
    ["Path", "IPv4Address", "IPv6Address", "IPv4Network", "IPv6Network", "IPv4Interface", "IPv6Interface", "UUID"]
  handlers : List (Cond × Handler) := defaultHandlers
  deriving DecidableEq, Repr

/-- `t in l.basictypes` -/
def Config.isBasic (C : Config) : Ty → Bool
  | .prim p => C.basictypes.contains p
  | _ => false

/-- The entry of `_objfieldscache` (dataloader.py:519): fields, necessary fields, type hints, name transforms. -/
structure ObjInfo where
  fields : List String
  necessary : List String
  hints : List (String × Ty)
  transforms : List (String × String)
  deriving DecidableEq, Repr

/-- The entry of `_unionload_discriminatorcache` (dataloader.py:676-695): `none` for `(None, None)`. -/
abbrev Disc := Option (String × List (Val × Ty))

/-- The mutable part of a Loader (dataloader.py:180, 244-248), plus the only global state typedload modifies:
the TypedDict classes whose `__annotations__` have been rewritten in place (dataloader.py:646-649). -/
structure LState where
  idx : List (Ty × Handler) := []
  frefs : Option (List (String × Ty)) := some []
  objc : List (Nat × ObjInfo) := []
  disc : List (Ty × Disc) := []
  tdRew : List Nat := []
  deriving DecidableEq, Repr

/-- Loader computations. -/
abbrev L := M LState Exc

end TL
