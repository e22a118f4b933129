import Verif.Props.Soundness
import Verif.Spec.Dumping
/-!
# Values that can exist (specification for C76)
-/

namespace TL

/-- The program around typedload makes only values that can exist in Python (`Legal`). -/
structure World.Makes (W : World) : Prop extends W.Lawful where
  /-- the defaults of fields -/
  defaults : W.LegalDefaults
  /-- the values of members of Enums -/
  members : ∀ e n x, (n, x) ∈ (W.enm e).members → Legal W x
  /-- the names of the fields of a class are different -/
  names : ∀ c, ((W.cls c).fields.map (·.name)).Nodup
  /-- all fields of NamedTuples are arguments -/
  tuples : ∀ c, (W.cls c).kind = .namedtuple → ∀ f ∈ (W.cls c).fields, f.init = true
  /-- what constructors of basic and string-constructed types return -/
  call : ∀ t v r, Legal W v → W.call t v = .ok r → Legal W r
  /-- after `__init__`, `__post_init__`, converters, … an instance has all its fields (`fs` are the arguments and defaults) -/
  init : ∀ c fs fs', W.initHook c fs = .ok fs' → (∀ p ∈ fs, Legal W p.2) →
    fs.map (·.1) = ((W.cls c).fields.filter (fun f => f.init || f.default.isSome)).map (·.name) →
    fs'.map (·.1) = (W.cls c).fields.map (·.name) ∧ ∀ p ∈ fs', Legal W p.2

/-- A user's handler makes only values that can exist: it gives the loader such values, and returns such values when the loader does. -/
def Script.Makes (W : World) : Script → Prop
  | .ret v => Legal W v
  | .raise _ => True
  | .call v _ _ next => Legal W v ∧ (∀ y, Legal W y → (next (.ok y)).Makes W) ∧ ∀ e, (next (.error e)).Makes W

end TL
