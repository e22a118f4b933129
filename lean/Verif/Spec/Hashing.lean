import Verif.Model.World
/-!
# `hash(v)` (specification)

`Hashable W v`: `hash(v)` does not raise in Python, so `v` can be an element of a set or a key of a dictionary.
-/

namespace TL

/-- Objects whose hash depends on nothing else. -/
inductive HashAtom : Val → Prop
  | none : HashAtom .none
  | bool {b} : HashAtom (.bool b)
  | int {i} : HashAtom (.int i)
  | float {f} : HashAtom (.float f)
  | str {s} : HashAtom (.str s)
  | bytes {s} : HashAtom (.bytes s)
  | enum {e n} : HashAtom (.enumv e n)
  | date {y m d} : HashAtom (.date y m d)
  | time {h mi s us tz} : HashAtom (.time h mi s us tz)
  | datetime {y m d h mi s us tz} : HashAtom (.datetime y m d h mi s us tz)
  | timedelta {us} : HashAtom (.timedelta us)
  | strobj {c s} : HashAtom (.strobj c s)
  | opaque {c i} : HashAtom (.opaque c i)
  | pattern {s} : HashAtom (.pattern s)
  /-- what a frozenset holds was hashed when it was built -/
  | frozenset {xs} : HashAtom (.frozenset xs)

/-- `hash(v)` does not raise.  There is no rule for lists, sets, dictionaries and Namespaces. -/
inductive Hashable (W : World) : Val → Prop
  | atom {v} : HashAtom v → Hashable W v
  | tuple {xs} : (∀ x ∈ xs, Hashable W x) → Hashable W (.tuple xs)
  | namedtuple {c fs} : (∀ p ∈ fs, Hashable W p.2) → Hashable W (.nt c fs)
  /-- instances of frozen classes hash their fields -/
  | inst {c fs} : (W.cls c).hashable = true → (∀ p ∈ fs, Hashable W p.2) → Hashable W (.inst c fs)

end TL
