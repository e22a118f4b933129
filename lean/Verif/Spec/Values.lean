import Verif.Model.Dumper
import Verif.Model.DateTime
/-!
# Python values that can exist, and plain data

The model's `Val` has more inhabitants than Python has objects: a dictionary with equal keys, a NamedTuple instance of a class
that is a dataclass, ...  `Legal` excludes these.
-/

namespace TL

/-- `x` is inside `v`, at any depth: elements, keys, values, attributes, values of enum members, sources of patterns. -/
inductive Inside (W : World) (v : Val) : Val → Prop
  | self : Inside W v v
  | elem {k xs x} : Inside W v (.seq k xs) → x ∈ xs → Inside W v x
  | key {kvs k x} : Inside W v (.dict kvs) → (k, x) ∈ kvs → Inside W v k
  | val {kvs k x} : Inside W v (.dict kvs) → (k, x) ∈ kvs → Inside W v x
  | arg {kvs n x} : Inside W v (.ns kvs) → (n, x) ∈ kvs → Inside W v x
  | item {c fs n x} : Inside W v (.nt c fs) → (n, x) ∈ fs → Inside W v x
  | attr {c fs n x} : Inside W v (.inst c fs) → (n, x) ∈ fs → Inside W v x
  | member {e n x} : Inside W v (.enumv e n) → aget (W.enm e).members n = some x → Inside W v x
  | source {p} : Inside W v (.pattern p) → Inside W v p

/-- The elements are pairwise different. -/
def Distinct (xs : List Val) : Prop := xs.Pairwise (fun a b => pyEq a b = false)

/-- The names of the builtin classes whose instances are not `opaque` objects. -/
def builtinNames : List String := ["list", "tuple", "set", "frozenset", "dict", "argparse.Namespace", "re.Pattern"]

/-- The outermost part of the value can exist in Python:
* an instance has the fields of its class, which is of the right kind and whose fields have different names;
* a Namespace has no two attributes of the same name;
* an enum member is one; the keys of a dictionary and the elements of a set are different and hashable;
* dates, times and intervals are in range; the source of a pattern is a string or bytes. -/
def LegalTop (W : World) : Val → Prop
  | .nt c fs => (W.cls c).kind = .namedtuple ∧ fs.map (·.1) = (W.cls c).fields.map (·.name) ∧ (fs.map (·.1)).Nodup
  | .inst c fs => ((W.cls c).kind = .dataclass ∨ (W.cls c).kind = .attrs) ∧ fs.map (·.1) = (W.cls c).fields.map (·.name) ∧ (fs.map (·.1)).Nodup
  | .enumv e n => ∃ x, aget (W.enm e).members n = some x
  | .dict kvs => Distinct (kvs.map (·.1)) ∧ ∀ p ∈ kvs, W.hash p.1 = true
  | .seq k xs => k.isSet = true → Distinct xs ∧ ∀ x ∈ xs, W.hash x = true
  | .ns kvs => (kvs.map (·.1)).Nodup
  | .date y m d => validDate y m d = true
  | .time h mi s us _ => validTime h mi s us = true
  | .datetime y m d h mi s us _ => validDate y m d = true ∧ validTime h mi s us = true
  | .timedelta us => validTimedelta us = true
  | .pattern p => typeOf p = .prim .str ∨ typeOf p = .prim .bytes
  | .opaque c _ => c ∉ builtinNames
  | _ => True

/-- The value can exist in Python. -/
def Legal (W : World) (v : Val) : Prop := ∀ x, Inside W v x → LegalTop W x

/-- Plain data: instances of the basic types `P`, lists, and dictionaries with such keys. -/
inductive Plain (P : Prim → Prop) : Val → Prop
  | basic {v p} : typeOf v = .prim p → P p → Plain P v
  | list {xs} : (∀ x ∈ xs, Plain P x) → Plain P (.list xs)
  | dict {kvs} : (∀ q ∈ kvs, ∃ p, typeOf q.1 = .prim p ∧ P p) → (∀ q ∈ kvs, Plain P q.2) → Distinct (kvs.map (·.1)) → Plain P (.dict kvs)

end TL
