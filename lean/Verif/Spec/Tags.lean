import Verif.Model.Loader
/-!
# Tags: the Literal fields of classes
-/

namespace TL

/-- Class `u` has a field named `k` annotated `Literal[..., l, ...]`. -/
def LiteralField (W : World) (u : Ty) (k : String) (l : Val) : Prop :=
  ∃ c f vs, u = .obj c ∧ f ∈ (W.cls c).fields ∧ f.name = k ∧ f.ty = .lit vs ∧ l ∈ vs

/-- Class `u` has a field named `k` annotated with a Literal. -/
def HasLiteralField (W : World) (u : Ty) (k : String) : Prop :=
  ∃ c f vs, u = .obj c ∧ f ∈ (W.cls c).fields ∧ f.name = k ∧ f.ty = .lit vs

/-- The Literal fields of class `u` are annotated in the class itself: none is inherited from a base class. -/
def OwnLiterals (W : World) (u : Ty) : Prop :=
  ∀ c, u = .obj c → ∀ f ∈ (W.cls c).fields, is_literal f.ty = true → f.declared = true

/-- `NotRequired[...]` fields are not in `__required_keys__`. -/
def World.NotRequiredLaw (W : World) : Prop :=
  ∀ c, ∀ f ∈ (W.cls c).fields, f.notRequired = true → f.required = false

/-- No Literal is hidden behind `NotRequired`. -/
def World.NoHiddenLiteral (W : World) : Prop :=
  ∀ c, ∀ f ∈ (W.cls c).fields, f.notRequired = true → is_literal f.ty = false

/-- The program writes the members of a union in one order only, unless they have no Literal field in common. -/
def World.OneSpelling (W : World) : Prop :=
  ∀ ts ts', W.unionKey ts = W.unionKey ts' → ts = ts' ∨ ∀ k, ∃ u ∈ ts, ¬ HasLiteralField W u k

/-- The tags of unions do not depend on what was loaded before: no Literal is hidden behind `NotRequired`, and no union with a common Literal field
is written in two orders. -/
structure World.SteadyTags (W : World) : Prop where
  noHidden : W.NoHiddenLiteral
  oneSpelling : W.OneSpelling

end TL
