import Verif.Model.World
/-!
# typechecks.py
-/

namespace TL

/-- typechecks.py:143 -/
def is_nonetype (t : Ty) : Bool := t == .prim .none
/-- typechecks.py:112 -/
def is_union : Ty → Bool
  | .union _ => true
  | _ => false
/-- typechecks.py:234 `uniontypes`.  Simplification: the code uses it on unions only; for other types, where it returns `__args__` or raises AttributeError, the model has `none`. -/
def uniontypes : Ty → Option (List Ty)
  | .union ts => some ts
  | _ => none
/-- typechecks.py:132 -/
def is_optional : Ty → Bool
  | .union ts => ts.length == 2 && ts.contains (.prim .none)
  | _ => false
/-- typechecks.py:102: `Tuple[a, b]`, `Tuple[a, ...]` and bare `Tuple` -/
def is_tuple : Ty → Bool
  | .tuple _ => true
  | .coll k _ => k == .tuple
  | .bare g => g == "tuple"
  | _ => false
/-- typechecks.py:154 -/
def is_list : Ty → Bool
  | .coll k _ => k == .list
  | .bare g => g == "list"
  | _ => false
/-- typechecks.py:162 -/
def is_dict : Ty → Bool
  | .dict _ _ => true
  | .bare g => g == "dict"
  | _ => false
/-- typechecks.py:170 -/
def is_set : Ty → Bool
  | .coll k _ => k == .set
  | .bare g => g == "set"
  | _ => false
/-- typechecks.py:178 -/
def is_frozenset : Ty → Bool
  | .coll k _ => k == .frozenset
  | .bare g => g == "frozenset"
  | _ => false
/-- typechecks.py:186 -/
def is_enum : Ty → Bool
  | .enum _ => true
  | _ => false
/-- The class test shared by the object predicates. -/
def is_kind (W : World) (k : ObjKind) : Ty → Bool
  | .obj c => (W.cls c).kind == k
  | _ => false
/-- typechecks.py:193 -/
def is_namedtuple (W : World) : Ty → Bool := is_kind W .namedtuple
/-- typechecks.py:200 -/
def is_dataclass (W : World) : Ty → Bool := is_kind W .dataclass
/-- typechecks.py:217 -/
def is_attrs (W : World) : Ty → Bool := is_kind W .attrs
/-- typechecks.py:266 -/
def is_typeddict (W : World) : Ty → Bool := is_kind W .typeddict
/-- typechecks.py:207 -/
def is_forwardref : Ty → Bool
  | .fref _ => true
  | _ => false
/-- typechecks.py:226 -/
def is_newtype : Ty → Bool
  | .newtype _ _ => true
  | _ => false
/-- typechecks.py:252 -/
def is_literal : Ty → Bool
  | .lit _ => true
  | _ => false
/-- typechecks.py:259 -/
def is_pattern : Ty → Bool
  | .pattern _ => true
  | _ => false
/-- typechecks.py:273 -/
def is_any : Ty → Bool
  | .any => true
  | _ => false

/-- typechecks.py:241 `literalvalues` on a Literal: `set(type_.__args__)` -/
def literalvalues : Ty → Option (List Val)
  | .lit vs => some (vs.foldl setAdd [])
  | _ => none

/-- typechecks.py:302 `discriminatorliterals`: the fields annotated with a Literal, with their values.
An annotation `NotRequired[Literal[...]]` is not a Literal until `_typeddictload` has rewritten the annotations of the
class (`rew`).  The function reads `__annotations__`, which does not list inherited fields (`Field.declared`).  Simplifications: the annotations of a class are
among its fields; enums have no Literal annotations. -/
def discriminatorliterals (W : World) (rew : List Nat) : Ty → List (String × List Val)
  | .obj c => (W.cls c).fields.filterMap (fun f =>
      if f.notRequired && !rew.contains c || !f.declared then none
      else (literalvalues f.ty).map (fun vs => (f.name, vs)))
  | _ => []

/-- The conditions of the default handler list, dataloader.py:213-239. -/
def evalCond (W : World) (C : Config) : Cond → Ty → Except ExcClass Bool
  | .isNone, t => .ok (is_nonetype t)
  | .isUnion, t => .ok (is_union t)
  | .isBasic, t => .ok (C.isBasic t)
  | .isEnum, t => .ok (is_enum t)
  | .isTuple, t => .ok (is_tuple t)
  | .isList, t => .ok (is_list t)
  | .isDict, t => .ok (is_dict t)
  | .isSet, t => .ok (is_set t)
  | .isFrozenset, t => .ok (is_frozenset t)
  | .isNamedtuple, t => .ok (is_namedtuple W t)
  | .isDataclass, t => .ok (is_dataclass W t)
  | .isForwardref, t => .ok (is_forwardref t)
  | .isLiteral, t => .ok (is_literal t)
  | .isTypeddict, t => .ok (is_typeddict W t)
  | .isDatetime, t => .ok (match t with
      | .dt _ => true
      | _ => false)
  | .isPattern, t => .ok (is_pattern t)
  | .isTimedelta, t => .ok (t == .timedelta)
  | .isStrconstructed, t => .ok (match t with
      | .strcons c => C.strconstructed.contains c
      | _ => false)
  | .isAttrs, t => .ok (is_attrs W t)
  | .isAny, t => .ok (is_any t)
  | .isNewtype, t => .ok (is_newtype t)
  | .custom i, t => W.customCond i t

end TL
