import Verif.Spec.Completeness
import Verif.Spec.Dumping
/-!
# When what was written can be read back (specification for C78)
-/

namespace TL

/-- The conditions under which the value `r`, loaded into `t`, is restored from what it is dumped as.  `s` is the loader. -/
structure ReadsBack (W : World) (C : Config) (D : DConfig) (s : LState) (t : Ty) (r : Val) : Prop where
  /-- dumper and loader read the names of fields from the same metadata -/
  mangle : D.mangleKey = C.mangleKey
  /-- fields that are left out of the dump have their default -/
  hidden : ∀ x c attrs, Inside W r x → IsObject W x c attrs → ∀ f ∈ (W.cls c).fields, ∀ y, (f.name, y) ∈ attrs → FieldHidden D (W.cls c).kind f y →
    f.default = some y
  /-- what the value of a member of an Enum is written as denotes the member -/
  enums : ∀ e n x d, Inside W r (.enumv e n) → aget (W.enm e).members n = some x → Dumped W D x .any d →
    Converts W C (Means (namesIn W s t)) d (.enum e) (.enumv e n)
  /-- dates written in ISO format are read back -/
  dates : D.isodates = true → ∀ x k, Inside W r x → dtKind x = some k → W.fromIso k (W.isoformat x) = .ok x
  /-- intervals are represented precisely enough as a number of seconds -/
  timedeltas : ∀ us, Inside W r (.timedelta us) → W.tdFloat (W.totalSeconds us) = .ok us
  /-- objects constructed from strings are constructed from what `str` returns -/
  strs : ∀ c x, Inside W r (.strobj c x) → W.call (.strcons c) (.str (W.strOf (.strobj c x))) = .ok (.strobj c x)
  /-- different keys are written differently -/
  keys : ∀ kvs, Inside W r (.dict kvs) → kvs.Pairwise (fun p q => ∀ a b, Dumped W D p.1 .any a → Dumped W D q.1 .any b → pyEq a b = false)
  /-- values of members of a union are not written as values of a basic member -/
  unions : ∀ ts u y d, Meets W C s t (.union ts) → u ∈ ts → Inside W r y → (∃ x, Converts W C (Means (namesIn W s t)) x u y) → Dumped W D y .any d →
    ExactBasic C d ts → u = typeOf d
  /-- names of fields, and their names in the data, are distinct -/
  classes : ∀ c, Meets W C s t (.obj c) → WFNames C (W.cls c).kind (W.cls c).fields
  /-- constructors take all fields and only store them -/
  stores : ∀ c, Meets W C s t (.obj c) → (W.cls c).kind ≠ .typeddict → (∀ f ∈ (W.cls c).fields, Argument (W.cls c).kind f ∧ aget f.metadata D.mangleKey ≠ some "") ∧
    ∀ fs fs', W.initHook c fs = .ok fs' → fs' = fs
  /-- defaults that are shown are read back -/
  defaults : ∀ c f d0 d, Meets W C s t (.obj c) → f ∈ (W.cls c).fields → f.default = some d0 → ¬ FieldHidden D (W.cls c).kind f d0 →
    Dumped W D d0 (fieldAnnotation (W.cls c).kind f) d → ∃ u, FieldTy (W.cls c).kind f u ∧ Converts W C (Means (namesIn W s t)) d u d0

end TL
