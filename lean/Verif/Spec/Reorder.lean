import Verif.Model.World
import Verif.Lemmas.Basic
/-!
# Unions written in another order (specification for C81)
-/

namespace TL

/-- The same annotation, but the members of unions are written in another order (or some of them more than once), at any depth. -/
inductive Reordered : Ty → Ty → Prop
  | refl (t : Ty) : Reordered t t
  | coll {k t t'} : Reordered t t' → Reordered (.coll k t) (.coll k t')
  | tuple {l : List (Ty × Ty)} : (∀ q ∈ l, Reordered q.1 q.2) → Reordered (.tuple (l.map (·.1))) (.tuple (l.map (·.2)))
  | dict {k k' t t'} : Reordered k k' → Reordered t t' → Reordered (.dict k t) (.dict k' t')
  | newtype {n t t'} : Reordered t t' → Reordered (.newtype n t) (.newtype n t')
  /-- `l` pairs the members of one union with the members of the other one. -/
  | union {ts ts' : List Ty} {l : List (Ty × Ty)} : (∀ u, u ∈ ts ↔ u ∈ l.map (·.1)) → (∀ u, u ∈ ts' ↔ u ∈ l.map (·.2)) → (∀ q ∈ l, Reordered q.1 q.2) →
      Reordered (.union ts) (.union ts')

/-- The same field with an annotation whose unions are in another order. -/
def SameField (f f' : Field) : Prop := ∃ u, f' = { f with ty := u } ∧ Reordered f.ty u

/-- The same program with other class definitions. -/
def World.retype (W : World) (cls : Nat → ClassDef) : World := { W with cls := cls }

/-- The classes `cls` are those of the program, with the unions in the annotations of fields in another order; and the names of types do not depend
on the order of the members of unions. -/
structure World.Reorders (W : World) (cls : Nat → ClassDef) : Prop where
  kind : ∀ c, (cls c).kind = (W.cls c).kind
  hashable : ∀ c, (cls c).hashable = (W.cls c).hashable
  fields : ∀ c, Zip2 SameField (W.cls c).fields (cls c).fields
  names : ∀ t t', Reordered t t' → W.tyName t = W.tyName t'

end TL
