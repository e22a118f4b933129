import Verif.Spec.Wellformed
import Verif.Props.DumpTotal
/-!
# Values a dumper can dump (specification for C77)
-/

namespace TL

variable (W : World) (D : DConfig)

/-- The value is dumped as something hashable: a basic value, a string-constructed object, a timedelta, a pattern, a date or time with isodates, a member
of an Enum with a basic value. -/
def KeyLike : Val → Prop
  | .enumv e n => ∃ x p, aget (W.enm e).members n = some x ∧ typeOf x = .prim p ∧ p ∈ D.basictypes
  | .strobj c _ => c ∈ D.strconstructed
  | .timedelta _ => True
  | .pattern _ => True
  | .date .. => D.isodates = true
  | .time .. => D.isodates = true
  | .datetime .. => D.isodates = true
  | v => ∃ p, typeOf v = .prim p ∧ p ∈ D.basictypes

/-- Nothing inside the value is of a class the dumper has no handler for, has a timezone (without isodates), or is a dictionary with keys that are not dumped
as something hashable. -/
def Dumpable (v : Val) : Prop := ∀ x, Inside W v x → ¬ Undumpable D x ∧ (D.isodates = true ∨ tzOf x = none) ∧
  ∀ kvs, x = .dict kvs → ∀ p ∈ kvs, KeyLike W D p.1

/-- The types of keys of dictionaries whose values are dumped as something hashable.  `F n u` says that a forward reference to `n` can denote `u`. -/
inductive KeyTy (F : String → Ty → Prop) : Ty → Prop
  | prim {p} : KeyTy F (.prim p)
  | any : KeyTy F .any
  | lit {vs} : KeyTy F (.lit vs)
  | enum {e} : (∀ q ∈ (W.enm e).members, ∃ p, typeOf q.2 = .prim p ∧ p ∈ D.basictypes) → KeyTy F (.enum e)
  | dt {k} : D.isodates = true → KeyTy F (.dt k)
  | timedelta : KeyTy F .timedelta
  | pattern {a} : KeyTy F (.pattern a)
  | strcons {c} : KeyTy F (.strcons c)
  | newtype {n u} : KeyTy F u → KeyTy F (.newtype n u)
  | union {us} : (∀ u ∈ us, KeyTy F u) → KeyTy F (.union us)
  | fref {n} : (∀ u, F n u → KeyTy F u) → KeyTy F (.fref n)

/-- The dumper `D` fits the loader `C`: it knows the basic types (None, int and str among them) and the string-constructed classes of the loader; what classes and
Enums contribute to loaded values (defaults, members, what constructors add) can be dumped; timezones are read only when isodates is set. -/
structure DumperFor (C : Config) : Prop where
  basics : ∀ p ∈ C.basictypes, p ∈ D.basictypes
  none : .none ∈ D.basictypes
  str : .str ∈ D.basictypes
  int : .int ∈ D.basictypes
  strs : ∀ c ∈ C.strconstructed, c ∈ D.strconstructed
  zones : D.isodates = true ∨ ∀ k x v, W.fromIso k x = .ok v → tzOf v = .none
  defaults : ∀ c, ∀ f ∈ (W.cls c).fields, ∀ d, f.default = some d → Dumpable W D d
  members : ∀ e n x, aget (W.enm e).members n = some x → Dumpable W D x
  init : ∀ c fs fs', W.initHook c fs = .ok fs' → (∀ p ∈ fs, Dumpable W D p.2) → ∀ p ∈ fs', Dumpable W D p.2

/-- Annotations of dataclasses that announce collections of basic elements do not lie about defaults and about what `__post_init__` leaves (C38). -/
structure HonestHints : Prop where
  defaults : ∀ c, ∀ f ∈ (W.cls c).fields, ∀ d, f.default = some d → Truthful W D d ∧ ((W.cls c).kind = .dataclass → TruthfulAt D f.ty d)
  members : ∀ e n x, aget (W.enm e).members n = some x → Truthful W D x
  init : ∀ c fs fs', W.initHook c fs = .ok fs' → (∀ p ∈ fs, Truthful W D p.2) →
    ((W.cls c).kind = .dataclass → ∀ f ∈ (W.cls c).fields, ∀ x, (f.name, x) ∈ fs → TruthfulAt D f.ty x) →
    (∀ p ∈ fs', Truthful W D p.2) ∧ ((W.cls c).kind = .dataclass → ∀ f ∈ (W.cls c).fields, ∀ x, (f.name, x) ∈ fs' → TruthfulAt D f.ty x)

end TL
