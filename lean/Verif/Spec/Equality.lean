import Verif.Model.PyOps
/-!
# Python's `==` (specification)

`Equal v w`: the objects `v` and `w` are equal in Python.  The properties that speak of equal values (a default, a literal, a key, an element of a set)
mean this relation; `Lemmas/Equality.lean` shows that the model's `pyEq` decides it.

Lists of pairs `l` match the parts of one value with those of the other.
-/

namespace TL

/-- `v` is the number `x`: `False` is 0, `True` is 1, and an int may equal a float (floats are multiples of 1 / `fscale`). -/
inductive NumIs : Val → PF → Prop
  | false : NumIs (.bool false) (.fin 0)
  | true : NumIs (.bool true) (.fin fscale)
  | int {i} : NumIs (.int i) (.fin (i * fscale))
  | float {f} : f ≠ .nan → NumIs (.float f) f

/-- `v` is a tuple with these elements; NamedTuples are tuples. -/
inductive TupleItems : Val → List Val → Prop
  | tuple {xs} : TupleItems (.tuple xs) xs
  | nt {c fs} : TupleItems (.nt c fs) (fs.map (·.2))

/-- `v` is a set or frozenset with these elements. -/
inductive SetItems : Val → List Val → Prop
  | set {xs} : SetItems (.set xs) xs
  | frozenset {xs} : SetItems (.frozenset xs) xs

/-- Objects that equal only themselves (and copies). -/
inductive Single : Val → Prop
  | none : Single .none
  | str {s} : Single (.str s)
  | bytes {s} : Single (.bytes s)
  | enum {e n} : Single (.enumv e n)
  | date {y m d} : Single (.date y m d)
  | time {h mi s us tz} : Single (.time h mi s us tz)
  | datetime {y m d h mi s us tz} : Single (.datetime y m d h mi s us tz)
  | timedelta {us} : Single (.timedelta us)
  | strobj {c s} : Single (.strobj c s)
  | opaque {c i} : Single (.opaque c i)

/-- Python's `v == w`. -/
inductive Equal : Val → Val → Prop
  | single {v} : Single v → Equal v v
  | num {v w x} : NumIs v x → NumIs w x → Equal v w
  | list {v w} {l : List (Val × Val)} : v = .list (l.map (·.1)) → w = .list (l.map (·.2)) → (∀ q ∈ l, Equal q.1 q.2) → Equal v w
  | tuple {v w} {l : List (Val × Val)} : TupleItems v (l.map (·.1)) → TupleItems w (l.map (·.2)) → (∀ q ∈ l, Equal q.1 q.2) → Equal v w
  /-- Sets with the same elements. -/
  | set {v w xs ys} {l : List (Val × Val)} : SetItems v xs → SetItems w ys → (∀ x, x ∈ xs ↔ ∃ q ∈ l, x = q.1) → (∀ y, y ∈ ys ↔ ∃ q ∈ l, y = q.2) →
      (∀ q ∈ l, Equal q.1 q.2) → Equal v w
  /-- Dictionaries with the same entries, in any order. -/
  | dict {v w kvs kvs'} {l : List ((Val × Val) × (Val × Val))} : v = .dict kvs → w = .dict kvs' → (∀ p, p ∈ kvs ↔ ∃ q ∈ l, p = q.1) →
      (∀ p, p ∈ kvs' ↔ ∃ q ∈ l, p = q.2) → (∀ q ∈ l, Equal q.1.1 q.2.1) → (∀ q ∈ l, Equal q.1.2 q.2.2) → Equal v w
  /-- Namespaces with the same attributes, in any order. -/
  | ns {v w kvs kvs'} {l : List (String × Val × Val)} : v = .ns kvs → w = .ns kvs' → (∀ p, p ∈ kvs ↔ ∃ q ∈ l, p = (q.1, q.2.1)) →
      (∀ p, p ∈ kvs' ↔ ∃ q ∈ l, p = (q.1, q.2.2)) → (∀ q ∈ l, Equal q.2.1 q.2.2) → Equal v w
  /-- Instances of the same class with equal attributes. -/
  | inst {v w c} {l : List (String × Val × Val)} : v = .inst c (l.map (fun q => (q.1, q.2.1))) → w = .inst c (l.map (fun q => (q.1, q.2.2))) →
      (∀ q ∈ l, Equal q.2.1 q.2.2) → Equal v w
  | pattern {s s'} : Equal s s' → Equal (.pattern s) (.pattern s')

end TL
