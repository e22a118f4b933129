import Verif.Spec.Conversion
import Verif.Lemmas.ShuffleRun
import Verif.Props.Predicates
/-!
# When data must be accepted (specification for C74)
-/

namespace TL

/-- The conditions under which `load(v, t)` accepts data that has a conversion (`Converts`). Each condition excludes a
known defect. -/
structure Regular (W : World) (C : Config) (s : LState) (v : Val) (t : Ty) : Prop where
  /-- a type met on the way that has the name of a forward reference is what the reference means from the start -/
  names : ∀ n u, Meets W C s t (.fref n) → Meets W C s t u → W.tyName u = some n → Means (namesIn W s t) n u
  /-- dictionary types not affected by the mix-up of handlers (finding 1) -/
  dicts : ∀ kt vt, Meets W C s t (.dict kt vt) → DictSafe C kt vt
  /-- the elements of collections and the keys and values of dictionaries have supported types -/
  supported : ∀ u, (∃ k, Meets W C s t (.coll k u)) ∨ (∃ w, Meets W C s t (.dict u w)) ∨ (∃ w, Meets W C s t (.dict w u)) → ∃ h, Served W C u h
  /-- bools in dictionaries of ints can be converted -/
  ints : ∀ kt vt, Meets W C s t (.dict kt vt) → kt = .prim .int ∨ vt = .prim .int → ∀ b, Within v (.bool b) →
    C.basiccast = true ∧ ∃ r, W.call (.prim .int) (.bool b) = .ok r
  /-- names of fields, and their names in the data, are distinct -/
  classes : ∀ c, Meets W C s t (.obj c) → WFNames C (W.cls c).kind (W.cls c).fields
  /-- attrs converters have a parameter with a type, or no hints -/
  converters : ∀ c, Meets W C s t (.obj c) → (W.cls c).kind = .attrs → ∀ f ∈ (W.cls c).fields, ∃ u, FieldTy .attrs f u
  /-- no argparse.Namespace for classes with renamed fields -/
  namespaces : ∀ c, Meets W C s t (.obj c) → (∃ f ∈ (W.cls c).fields, renamed C (W.cls c).kind f ≠ none) → ∀ fs, ¬ Within v (.ns fs)
  /-- no member of a union fails with anything but a TypedloadException on this data -/
  unions : ∀ ts x, Meets W C s t (.union ts) → Within v x → ¬ Culprit W C (Known W s) x (.union ts)

/-- Where the data has several conversions, they can be used in the same places. -/
structure Consistent (W : World) (C : Config) (s : LState) (v : Val) (t : Ty) : Prop extends Regular W C s v t where
  /-- all conversions of an element of a set are hashable, or none is -/
  sets : ∀ k u, Meets W C s t (.coll k u) → k.isSet = true → ∀ x a b, Within v x → ConvertsItem W C (Means (namesIn W s t)) x u a →
    ConvertsItem W C (Means (namesIn W s t)) x u b → W.hash a = W.hash b
  /-- the same for the keys of dictionaries -/
  keys : ∀ kt vt, Meets W C s t (.dict kt vt) → ∀ x a b, Within v x → ConvertsElem W C (Means (namesIn W s t)) x kt a →
    ConvertsElem W C (Means (namesIn W s t)) x kt b → W.hash a = W.hash b
  /-- all conversions of the data to a type hint of an Enum denote a member, or none does -/
  enums : ∀ e u, Meets W C s t (.enum e) → u ∈ (W.enm e).hints → ∀ x a b m, Within v x → Converts W C (Means (namesIn W s t)) x u a →
    Converts W C (Means (namesIn W s t)) x u b → EnumFirst W e a m → ∃ m', EnumFirst W e b m'
  /-- constructors accept everything, or the values of the fields are determined by the data -/
  inits : ∀ c, Meets W C s t (.obj c) → (∀ fs, ∃ fs', W.initHook c fs = .ok fs') ∨
    ∀ f ∈ (W.cls c).fields, ∀ u, FieldTy (W.cls c).kind f u → ∀ x a b, Within v x → Converts W C (Means (namesIn W s t)) x u a →
      Converts W C (Means (namesIn W s t)) x u b → a = b


/-- The annotations leave no choice for this data: at most one member of a union can take it, the type hints of Enums agree about the member, and
no bool is a key or value where ints are expected. -/
structure Unambiguous (W : World) (C : Config) (s : LState) (v : Val) (t : Ty) : Prop where
  unions : ∀ ts x u u' a b, Meets W C s t (.union ts) → Within v x → u ∈ ts → u' ∈ ts → ¬ ExactBasic C x ts →
    Converts W C (Means (namesIn W s t)) x u a → Converts W C (Means (namesIn W s t)) x u' b → u = u'
  hints : ∀ e x u u' a b m m', Meets W C s t (.enum e) → Within v x → u ∈ (W.enm e).hints → u' ∈ (W.enm e).hints →
    Converts W C (Means (namesIn W s t)) x u a → Converts W C (Means (namesIn W s t)) x u' b → EnumFirst W e a m → EnumFirst W e b m' → m = m'
  bools : (∃ w, Meets W C s t (.dict (.prim .int) w)) ∨ (∃ w, Meets W C s t (.dict w (.prim .int))) →
    ∀ b, ¬ Within v (.bool b)

end TL
