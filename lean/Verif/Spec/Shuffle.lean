import Verif.Model.Loader
/-!
# The same data with the keys in another order

JSON objects are unordered, Python dictionaries are not.  `Shuf v w` says that `w` is `v` with the items of some of its dictionaries, at any depth,
in another order.
-/

namespace TL

/-- The same value, up to the order of the items of dictionaries at any depth.  (`mid` is the first dictionary with its values shuffled inside; the second one
has the items of `mid` in any order.) -/
inductive Shuf : Val → Val → Prop
  | same {v} : Shuf v v
  | seq {k xs ys} : xs.length = ys.length → (∀ (i : Nat) (x y : Val), xs[i]? = some x → ys[i]? = some y → Shuf x y) → Shuf (.seq k xs) (.seq k ys)
  | dict {kvs mid kvs' : List (Val × Val)} : kvs.map (·.1) = mid.map (·.1) → (∀ (i : Nat) (p q : Val × Val), kvs[i]? = some p → mid[i]? = some q → Shuf p.2 q.2) →
      mid.Perm kvs' → Shuf (.dict kvs) (.dict kvs')
  | nt {c : Nat} {fs fs' : List (String × Val)} : fs.map (·.1) = fs'.map (·.1) → (∀ (i : Nat) (p q : String × Val), fs[i]? = some p → fs'[i]? = some q → Shuf p.2 q.2) →
      Shuf (.nt c fs) (.nt c fs')
  | inst {c : Nat} {fs fs' : List (String × Val)} : fs.map (·.1) = fs'.map (·.1) → (∀ (i : Nat) (p q : String × Val), fs[i]? = some p → fs'[i]? = some q → Shuf p.2 q.2) →
      Shuf (.inst c fs) (.inst c fs')

/-- The two calls return the same up to the order, or both raise. -/
def Alike {α β : Type} (Q : α → β → Prop) (a : Except ExcClass α) (b : Except ExcClass β) : Prop :=
  (∃ r q, a = .ok r ∧ b = .ok q ∧ Q r q) ∨ ∃ e e', a = .error e ∧ b = .error e'

/-- The conversions outside typedload that loading `x` into `u` makes do not look at the order of the items: the constructor of a basic type (when
basiccast allows it), `_missing_` of an Enum class, the constructor of a class built from a string, and `date(*x)`, which iterates over the keys of a dictionary. -/
def Orderless (W : World) (C : Config) (u : Ty) (x x' : Val) : Prop :=
  match u with
  | .prim p => C.basiccast = true → Alike Shuf (W.call (.prim p) x) (W.call (.prim p) x')
  | .strcons c => Alike Shuf (W.call (.strcons c) x) (W.call (.strcons c) x')
  | .enum e => ∀ a b, Shuf a b → W.missing e a = W.missing e b
  | .dt k => Alike Shuf (dtParse W k x) (dtParse W k x')
  | _ => True

/-- The fields of an instance, up to the order of the items of dictionaries in them. -/
def ShufFields (fs fs' : List (String × Val)) : Prop :=
  fs.map (·.1) = fs'.map (·.1) ∧ ∀ (i : Nat) (p q : String × Val), fs[i]? = some p → fs'[i]? = some q → Shuf p.2 q.2

end TL
