import Verif.Spec.Dumping
/-!
# The hash seed (specification for C79)

The hashes of strings differ from process to process, and with them the order in which Python iterates a set of strings and which element `set.pop()`
returns.  `W.reseed order pop` is the same program in another process.
-/

namespace TL

/-- The same program in a process with other string hashes. -/
def World.reseed (W : World) (order : List String → List String) (hp : ∀ ns, (order ns).Perm ns) (pop : List String → Nat) : World :=
  { W with setOrder := order, setOrder_perm := hp, popChoice := pop }

/-- The same data, except for the order of the keys of dictionaries. -/
inductive SameButOrder : Val → Val → Prop
  | refl (v : Val) : SameButOrder v v
  | list {l : List (Val × Val)} : (∀ q ∈ l, SameButOrder q.1 q.2) → SameButOrder (.list (l.map (·.1))) (.list (l.map (·.2)))
  | dict {l : List (Val × Val × Val)} {m : List (Val × Val)} : (∀ q ∈ l, SameButOrder q.2.1 q.2.2) → m.Perm (l.map (fun q => (q.1, q.2.2))) →
      SameButOrder (.dict (l.map (fun q => (q.1, q.2.1)))) (.dict m)

end TL
