/-!
# Python values, types and exceptions used by the typedload model

The values, types and exceptions of Python that typedload manipulates.  Everything here is data;
the Python operations on it are in `PyOps.lean`.
-/

namespace TL

/-- The primitive classes of Python that may be put into `Loader.basictypes`
(dataloader.py:168 `{int, bool, float, str, NONETYPE}`; docs/supported_types.md also adds `bytes`). -/
inductive Prim | int | bool | float | str | none | bytes
  deriving DecidableEq, Repr

/-- Python floats.  A finite float is an integer multiple of 2^-1074 (every IEEE double is).
Simplification: the sign of zero is not represented, and the set of finite floats is a superset of the doubles. -/
inductive PF | nan | inf (neg : Bool) | fin (k : Int)
  deriving DecidableEq, Repr

/-- The four builtin collection classes handled by `_iterload` (dataloader.py:221-225). -/
inductive SeqKind | list | tuple | set | frozenset
  deriving DecidableEq, Repr

/-- datetime.date / datetime.time / datetime.datetime (dataloader.py:231). -/
inductive DtKind | date | time | datetime
  deriving DecidableEq, Repr

/-- Python values.  Classes are referred to by an identifier of the class table (`World.cls`), so two distinct
classes with the same name are distinct.
* `seq`  : list, tuple, set, frozenset instances (sets: elements in iteration order)
* `dict` : dictionaries in insertion order
* `ns`   : argparse.Namespace
* `nt`   : NamedTuple instances, `inst` : dataclass / attrs instances
* `strobj` : instance of a string-constructed class, identified with its `str()`
* `opaque` : any other object.
Simplifications: no one-shot iterators, no subclasses of builtins other than NamedTuple, no object identity. -/
inductive Val
  | none
  | bool (b : Bool)
  | int (i : Int)
  | float (f : PF)
  | str (s : String)
  | bytes (bs : List Nat)
  | seq (k : SeqKind) (xs : List Val)
  | dict (kvs : List (Val × Val))
  | ns (kvs : List (String × Val))
  | enumv (e : Nat) (name : String)
  | nt (c : Nat) (fs : List (String × Val))
  | inst (c : Nat) (fs : List (String × Val))
  | date (y m d : Int)
  | time (h mi s us : Int) (tz : Option String)
  | datetime (y m d h mi s us : Int) (tz : Option String)
  | timedelta (us : Int)
  | pattern (src : Val)
  | strobj (cls : String) (repr : String)
  | opaque (cls : String) (id : Nat)
  deriving Repr

namespace Val
@[match_pattern] abbrev list (xs : List Val) : Val := .seq .list xs
@[match_pattern] abbrev tuple (xs : List Val) : Val := .seq .tuple xs
@[match_pattern] abbrev set (xs : List Val) : Val := .seq .set xs
@[match_pattern] abbrev frozenset (xs : List Val) : Val := .seq .frozenset xs

/-! Structural (Lean) equality of values is decidable.  This is *not* Python's `==`, see `pyEq`. -/
mutual
def beq : Val → Val → Bool
  | .none, .none => true
  | .bool a, .bool b => a == b
  | .int a, .int b => a == b
  | .float a, .float b => a == b
  | .str a, .str b => a == b
  | .bytes a, .bytes b => a == b
  | .seq k a, .seq k' b => k == k' && beqL a b
  | .dict a, .dict b => beqKV a b
  | .ns a, .ns b => beqN a b
  | .enumv e n, .enumv e' n' => e == e' && n == n'
  | .nt c a, .nt c' b => c == c' && beqN a b
  | .inst c a, .inst c' b => c == c' && beqN a b
  | .date a b c, .date a' b' c' => a == a' && b == b' && c == c'
  | .time a b c d e, .time a' b' c' d' e' => a == a' && b == b' && c == c' && d == d' && e == e'
  | .datetime a b c d e f g h, .datetime a' b' c' d' e' f' g' h' =>
      a == a' && b == b' && c == c' && d == d' && e == e' && f == f' && g == g' && h == h'
  | .timedelta a, .timedelta b => a == b
  | .pattern a, .pattern b => beq a b
  | .strobj a b, .strobj a' b' => a == a' && b == b'
  | .opaque a b, .opaque a' b' => a == a' && b == b'
  | _, _ => false
termination_by structural x => x
def beqL : List Val → List Val → Bool
  | [], [] => true
  | a :: as, b :: bs => beq a b && beqL as bs
  | _, _ => false
termination_by structural x => x
def beqKV : List (Val × Val) → List (Val × Val) → Bool
  | [], [] => true
  | a :: as, b :: bs => beqP a b && beqKV as bs
  | _, _ => false
termination_by structural x => x
def beqP : Val × Val → Val × Val → Bool
  | (a, b), (c, d) => beq a c && beq b d
termination_by structural x => x
def beqN : List (String × Val) → List (String × Val) → Bool
  | [], [] => true
  | a :: as, b :: bs => beqNP a b && beqN as bs
  | _, _ => false
termination_by structural x => x
def beqNP : String × Val → String × Val → Bool
  | (a, b), (c, d) => a == c && beq b d
termination_by structural x => x
end

mutual
theorem beq_iff : ∀ a b : Val, beq a b = true ↔ a = b
  | .none, b => by cases b <;> simp [beq]
  | .bool _, b => by cases b <;> simp [beq]
  | .int _, b => by cases b <;> simp [beq]
  | .float _, b => by cases b <;> simp [beq]
  | .str _, b => by cases b <;> simp [beq]
  | .bytes _, b => by cases b <;> simp [beq]
  | .seq _ xs, b => by cases b <;> simp [beq, beqL_iff xs]
  | .dict xs, b => by cases b <;> simp [beq, beqKV_iff xs]
  | .ns xs, b => by cases b <;> simp [beq, beqN_iff xs]
  | .enumv _ _, b => by cases b <;> simp [beq]
  | .nt _ xs, b => by cases b <;> simp [beq, beqN_iff xs]
  | .inst _ xs, b => by cases b <;> simp [beq, beqN_iff xs]
  | .date _ _ _, b => by cases b <;> simp [beq, and_assoc]
  | .time _ _ _ _ _, b => by cases b <;> simp [beq, and_assoc]
  | .datetime _ _ _ _ _ _ _ _, b => by cases b <;> simp [beq, and_assoc]
  | .timedelta _, b => by cases b <;> simp [beq]
  | .pattern a, b => by cases b <;> simp [beq, beq_iff a]
  | .strobj _ _, b => by cases b <;> simp [beq]
  | .opaque _ _, b => by cases b <;> simp [beq]
theorem beqL_iff : ∀ a b : List Val, beqL a b = true ↔ a = b
  | [], b => by cases b <;> simp [beqL]
  | a :: as, b => by cases b <;> simp [beqL, beq_iff a, beqL_iff as]
theorem beqKV_iff : ∀ a b : List (Val × Val), beqKV a b = true ↔ a = b
  | [], b => by cases b <;> simp [beqKV]
  | a :: as, b => by cases b <;> simp [beqKV, beqP_iff a, beqKV_iff as]
theorem beqP_iff : ∀ a b : Val × Val, beqP a b = true ↔ a = b
  | (a, b), (c, d) => by simp [beqP, beq_iff a, beq_iff b]
theorem beqN_iff : ∀ a b : List (String × Val), beqN a b = true ↔ a = b
  | [], b => by cases b <;> simp [beqN]
  | a :: as, b => by cases b <;> simp [beqN, beqNP_iff a, beqN_iff as]
theorem beqNP_iff : ∀ a b : String × Val, beqNP a b = true ↔ a = b
  | (a, b), (c, d) => by simp [beqNP, beq_iff b]
end

instance : DecidableEq Val := fun a b => decidable_of_iff _ (beq_iff a b)
end Val

/-- The types (annotations) that can be handed to `load`.
* `coll k t` : `List[t]`, `Set[t]`, `FrozenSet[t]`, and for `k = tuple` the variadic `Tuple[t, ...]`
* `tuple ts` : fixed-size `Tuple[t1, ..., tn]`
* `bare g`   : an unsubscripted `typing.List`, `typing.Dict`, ... (no `__args__`)
* `obj c`    : a NamedTuple / dataclass / attrs / TypedDict class of the class table
* `fref n`   : `ForwardRef(n)`
* `pattern a`: `re.Pattern`, `re.Pattern[str]`, `re.Pattern[bytes]`
* `strcons c`: a class that may be in `strconstructed` (Path, IPv4Address, ...)
* `opaque c` : any other class or object used as a type (also the runtime classes list, dict, ...).
Simplifications: `A | B` and `Union[A, B]` are the same constructor.  Equality here is order sensitive, whereas Python has `Union[A, B] == Union[B, A]`
(and the same for Literal): see `World.unionKey` for the cache of union discriminators, where it matters; the cache of handlers (`LState.idx`) is keyed by
the type as written, a difference that only a user-supplied condition that tells the two orders apart could see. -/
inductive Ty
  | prim (p : Prim)
  | any
  | lit (vs : List Val)
  | enum (e : Nat)
  | coll (k : SeqKind) (t : Ty)
  | tuple (ts : List Ty)
  | dict (k v : Ty)
  | bare (g : String)
  | union (ts : List Ty)
  | obj (c : Nat)
  | fref (n : String)
  | newtype (n : String) (t : Ty)
  | dt (k : DtKind)
  | timedelta
  | pattern (arg : Option Prim)
  | strcons (c : String)
  | opaque (c : String)
  deriving Repr

namespace Ty
mutual
def beq : Ty → Ty → Bool
  | .prim a, .prim b => a == b
  | .any, .any => true
  | .lit a, .lit b => a == b
  | .enum a, .enum b => a == b
  | .coll k a, .coll k' b => k == k' && beq a b
  | .tuple a, .tuple b => beqL a b
  | .dict a b, .dict c d => beq a c && beq b d
  | .bare a, .bare b => a == b
  | .union a, .union b => beqL a b
  | .obj a, .obj b => a == b
  | .fref a, .fref b => a == b
  | .newtype n a, .newtype m b => n == m && beq a b
  | .dt a, .dt b => a == b
  | .timedelta, .timedelta => true
  | .pattern a, .pattern b => a == b
  | .strcons a, .strcons b => a == b
  | .opaque a, .opaque b => a == b
  | _, _ => false
termination_by structural x => x
def beqL : List Ty → List Ty → Bool
  | [], [] => true
  | a :: as, b :: bs => beq a b && beqL as bs
  | _, _ => false
termination_by structural x => x
end

mutual
theorem beq_iff : ∀ a b : Ty, beq a b = true ↔ a = b
  | .prim _, b => by cases b <;> simp [beq]
  | .any, b => by cases b <;> simp [beq]
  | .lit _, b => by cases b <;> simp [beq]
  | .enum _, b => by cases b <;> simp [beq]
  | .coll _ a, b => by cases b <;> simp [beq, beq_iff a]
  | .tuple a, b => by cases b <;> simp [beq, beqL_iff a]
  | .dict a c, b => by cases b <;> simp [beq, beq_iff a, beq_iff c]
  | .bare _, b => by cases b <;> simp [beq]
  | .union a, b => by cases b <;> simp [beq, beqL_iff a]
  | .obj _, b => by cases b <;> simp [beq]
  | .fref _, b => by cases b <;> simp [beq]
  | .newtype _ a, b => by cases b <;> simp [beq, beq_iff a]
  | .dt _, b => by cases b <;> simp [beq]
  | .timedelta, b => by cases b <;> simp [beq]
  | .pattern _, b => by cases b <;> simp [beq]
  | .strcons _, b => by cases b <;> simp [beq]
  | .opaque _, b => by cases b <;> simp [beq]
theorem beqL_iff : ∀ a b : List Ty, beqL a b = true ↔ a = b
  | [], b => by cases b <;> simp [beqL]
  | a :: as, b => by cases b <;> simp [beqL, beq_iff a, beqL_iff as]
end

instance : DecidableEq Ty := fun a b => decidable_of_iff _ (beq_iff a b)
end Ty

/-- The four kinds of object classes typedload knows. -/
inductive ObjKind | namedtuple | dataclass | attrs | typeddict
  deriving DecidableEq, Repr

/-- Type hints of an attrs converter function, as `get_type_hints` returns them (dataloader.py:841-855):
the annotated parameters in order, and whether there is a return annotation. -/
structure Conv where
  params : List Ty
  ret : Bool
  deriving DecidableEq, Repr

/-- One field of a class.
* `default` : the default value, or the value produced by its default factory (assumed deterministic)
* `isFactory` : the default comes from a factory
* `meta` : the metadata dictionary (dataclass, attrs), restricted to string values
* `repr` : attrs `repr=` flag (datadumper.py:212)
* `conv` : attrs converter
* `required` : membership in `__required_keys__` (TypedDict)
* `notRequired` : the annotation is `NotRequired[ty]` (TypedDict)
* `declared` : `__annotations__` of the class lists the field; false for a field that a dataclass or attrs class inherits from a base class, and for an
  attribute declared without annotation (`x = attr.ib(type=...)`).  Only `discriminatorliterals` looks at it. -/
structure Field where
  name : String
  ty : Ty
  default : Option Val := Option.none
  isFactory : Bool := false
  init : Bool := true
  metadata : List (String × String) := []
  repr : Bool := true
  conv : Option Conv := Option.none
  required : Bool := true
  notRequired : Bool := false
  declared : Bool := true
  deriving DecidableEq, Repr

/-- A class of the class table.  `hashable` says whether a dataclass/attrs class has a (generated) `__hash__`. -/
structure ClassDef where
  kind : ObjKind
  name : String
  fields : List Field
  hashable : Bool := false
  deriving DecidableEq, Repr

/-- An Enum class: members in definition order (name, value) and the types of its annotations. -/
structure EnumDef where
  name : String
  members : List (String × Val)
  hints : List Ty := []
  deriving DecidableEq, Repr

/-- Classes of Python exceptions.  The first four are exceptions.py:66-173. -/
inductive ExcClass
  | tlBase | tlValue | tlType | tlAttr
  | value | type | attr | assertion | overflow | notImplemented | stopIteration
  | reError | name | runtime | other (n : Nat)
  deriving DecidableEq, Repr

namespace ExcClass
/-- `isinstance(e, TypedloadException)` -/
def isTL : ExcClass → Bool
  | tlBase | tlValue | tlType | tlAttr => true
  | _ => false
/-- `isinstance(e, ValueError)` (exceptions.py:149) -/
def isValue : ExcClass → Bool
  | tlValue | value => true
  | _ => false
/-- `isinstance(e, TypeError)` (exceptions.py:158) -/
def isType : ExcClass → Bool
  | tlType | type => true
  | _ => false
/-- `isinstance(e, AttributeError)` (exceptions.py:167) -/
def isAttr : ExcClass → Bool
  | tlAttr | attr => true
  | _ => false
end ExcClass

/-- exceptions.py:38-57 `Annotation`: its kind together with its value. -/
inductive Annotation
  | field (k : String)
  | index (i : Nat)
  | forwardref (n : String)
  | key (k : Val)
  | value (v : Val)
  | union (t : Ty)
  deriving DecidableEq, Repr

/-- exceptions.py:59-63 `TraceItem`. -/
structure TraceItem where
  value : Val
  ty : Ty
  ann : Option Annotation
  deriving DecidableEq, Repr

/-- The description of an exception.  Texts are abstracted to the message kind and the data they mention. -/
inductive Msg
  | noHandler (t : Ty)
  | noHandlerIn (t outer : Ty)
  | notNone
  | notLiteral (t : Ty)
  | wrongType (v : Val) (t : Ty)
  | py (c : ExcClass)
  | frefDisabled
  | frefUnknown (n : String)
  | dictAsIter
  | dictAsTuple
  | tooLong (t : Ty)
  | tooShort (t : Ty)
  | extraKey (k : String)
  | missing (ks : List String)
  | extra (ks : List Val)
  | unionNone (t : Ty)
  | unionMany (t : Ty) (n : Nat)
  | enumNone (t : Ty)
  | notTypedload
  | wrapped
  | unableToDump (v : Val)
  | custom (n : Nat)
  deriving DecidableEq, Repr

/-- exceptions.py:66-101 `TypedloadException` (also used for plain Python exceptions, with empty
trace and no sub-exceptions). -/
inductive Exc
  | mk (cls : ExcClass) (msg : Msg) (trace : List TraceItem) (value : Val) (ty : Option Ty) (subs : List Exc)
  deriving Repr

namespace Exc
def cls : Exc → ExcClass | mk c _ _ _ _ _ => c
def msg : Exc → Msg | mk _ m _ _ _ _ => m
def trace : Exc → List TraceItem | mk _ _ t _ _ _ => t
def value : Exc → Val | mk _ _ _ v _ _ => v
def ty : Exc → Option Ty | mk _ _ _ _ t _ => t
def subs : Exc → List Exc | mk _ _ _ _ _ s => s
/-- `isinstance(e, TypedloadException)` -/
def isTL (e : Exc) : Bool := e.cls.isTL
/-- `e.trace.insert(0, item)` -/
def push (i : TraceItem) : Exc → Exc | mk c m t v y s => mk c m (i :: t) v y s
/-- A plain Python exception. -/
def plain (c : ExcClass) : Exc := mk c (.py c) [] .none Option.none []

@[simp] theorem cls_mk {c m t v y s} : (mk c m t v y s).cls = c := rfl
@[simp] theorem trace_mk {c m t v y s} : (mk c m t v y s).trace = t := rfl
@[simp] theorem value_mk {c m t v y s} : (mk c m t v y s).value = v := rfl
@[simp] theorem subs_mk {c m t v y s} : (mk c m t v y s).subs = s := rfl
@[simp] theorem msg_mk {c m t v y s} : (mk c m t v y s).msg = m := rfl
@[simp] theorem ty_mk {c m t v y s} : (mk c m t v y s).ty = y := rfl
@[simp] theorem isTL_mk {c m t v y s} : (mk c m t v y s).isTL = c.isTL := rfl
@[simp] theorem cls_push (i e) : (push i e).cls = e.cls := by cases e; rfl
@[simp] theorem isTL_push (i e) : (push i e).isTL = e.isTL := by cases e; rfl
@[simp] theorem trace_push (i e) : (push i e).trace = i :: e.trace := by cases e; rfl
@[simp] theorem value_push (i e) : (push i e).value = e.value := by cases e; rfl
@[simp] theorem subs_push (i e) : (push i e).subs = e.subs := by cases e; rfl
@[simp] theorem msg_push (i e) : (push i e).msg = e.msg := by cases e; rfl
@[simp] theorem ty_push (i e) : (push i e).ty = e.ty := by cases e; rfl
@[simp] theorem cls_plain (c) : (plain c).cls = c := rfl
@[simp] theorem isTL_plain (c) : (plain c).isTL = c.isTL := rfl
end Exc

end TL
