import Verif.Spec.Reorder
/-!
# Unions with more members (specification for C82)
-/

namespace TL

/-- A newer version of an annotation: unions have more members that are not basic types (in any order), a Literal has more values, a type that is not
basic has become one member among others; at any depth. -/
inductive Widened (C : Config) : Ty → Ty → Prop
  | refl (t : Ty) : Widened C t t
  | coll {k t t'} : Widened C t t' → Widened C (.coll k t) (.coll k t')
  | tuple {l : List (Ty × Ty)} : (∀ q ∈ l, Widened C q.1 q.2) → Widened C (.tuple (l.map (·.1))) (.tuple (l.map (·.2)))
  | dict {k k' t t'} : Widened C k k' → Widened C t t' → Widened C (.dict k t) (.dict k' t')
  | newtype {n t t'} : Widened C t t' → Widened C (.newtype n t) (.newtype n t')
  | lit {vs vs'} : (∀ x ∈ vs, x ∈ vs') → Widened C (.lit vs) (.lit vs')
  /-- `l` has, for each member of the old union, its new version. -/
  | union {ts ts' : List Ty} {l : List (Ty × Ty)} : (∀ u, u ∈ ts ↔ u ∈ l.map (·.1)) → (∀ q ∈ l, q.2 ∈ ts') → (∀ q ∈ l, Widened C q.1 q.2) →
      (∀ u ∈ ts', C.isBasic u = true → u ∈ ts) → Widened C (.union ts) (.union ts')
  | into {t ts} : C.isBasic t = false → t ∈ ts → (∀ u ∈ ts, C.isBasic u = false) → Widened C t (.union ts)

/-- The field `f'` is the field `f` with a wider annotation. -/
def WiderField (C : Config) (f f' : Field) : Prop := ∃ u, f' = { f with ty := u } ∧ Widened C f.ty u

/-- The classes `cls` are those of the program, with wider annotations. -/
structure World.Widens (W : World) (C : Config) (cls : Nat → ClassDef) : Prop where
  kind : ∀ c, (cls c).kind = (W.cls c).kind
  hashable : ∀ c, (cls c).hashable = (W.cls c).hashable
  fields : ∀ c, Zip2 (WiderField C) (W.cls c).fields (cls c).fields

end TL
