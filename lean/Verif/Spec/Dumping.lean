import Verif.Spec.Equality
import Verif.Props.Dump
import Verif.Props.Dicts
import Verif.Props.DumpLeaves
/-!
# What values are dumped as (specification for C75)

`Dumped v t r`: the value `v`, annotated with `t`, is dumped as `r`.  The definition mentions no handler and no cache.
-/

namespace TL

variable (W : World) (C : DConfig)

/-- The defaults of classes can exist in Python. -/
def World.LegalDefaults : Prop := ∀ c, ∀ f ∈ (W.cls c).fields, ∀ d, f.default = some d → Legal W d

/-- The field `f` with value `x` does not appear in the dump: with hidedefault, fields equal to their default; fields of attrs classes with `repr=False`. -/
def FieldHidden (k : ObjKind) (f : Field) (x : Val) : Prop :=
  (k = .attrs ∧ f.repr = false) ∨ (C.hidedefault = true ∧ ∃ d, f.default = some d ∧ Equal d x)

/-- The key of a field in the dump. -/
def fieldKey (k : ObjKind) (f : Field) : String := if k = .namedtuple then f.name else (aget f.metadata C.mangleKey).getD f.name

/-- The annotation used for the value of a field (only dataclasses use it). -/
def fieldAnnotation (k : ObjKind) (f : Field) : Ty := if k = .dataclass then f.ty else .any

/-- `v` is an object of class `c` with these attributes. -/
def IsObject (v : Val) (c : Nat) (attrs : List (String × Val)) : Prop :=
  (v = .nt c attrs ∧ (W.cls c).kind = .namedtuple) ∨ (v = .inst c attrs ∧ ((W.cls c).kind = .dataclass ∨ (W.cls c).kind = .attrs))

/-- The order in which the fields of a class are written: that of their declaration, but dataclasses keep their names in a set. -/
def writeOrder (c : Nat) : List String :=
  if (W.cls c).kind = .dataclass then W.setOrder ((W.cls c).fields.map (·.name)) else (W.cls c).fields.map (·.name)

/-- `Dumped v t r`: the value `v` annotated with `t` becomes `r`.  Each list `l` pairs parts of the value with what they become. -/
inductive Dumped : Val → Ty → Val → Prop
  | basic {v t p} : typeOf v = .prim p → p ∈ C.basictypes → Dumped v t v
  | seq {k t} {l : List (Val × Val)} : (∀ p ∈ C.basictypes, ¬ ElementsOf p t) → (∀ q ∈ l, Dumped q.1 .any q.2) →
      Dumped (.seq k (l.map (·.1))) t (.list (l.map (·.2)))
  /-- a collection annotated with a basic element type is copied -/
  | copy {k t p xs} : p ∈ C.basictypes → ElementsOf p t → Dumped (.seq k xs) t (.list xs)
  | dict {t} {l : List ((Val × Val) × (Val × Val))} : (∀ q ∈ l, Dumped q.1.1 .any q.2.1) → (∀ q ∈ l, Dumped q.1.2 .any q.2.2) →
      (∀ q ∈ l, W.hash q.2.1 = true) → Dumped (.dict (l.map (·.1))) t (dictOf (l.map (·.2)))
  /-- an object: its fields, each with its value and, if it is shown, what the value becomes (`l`); they are written one after the other (`m`) -/
  | obj {v t c} {l m : List (Field × Val × Option Val)} : IsObject W v c (l.map (fun q => (q.1.name, q.2.1))) → (W.cls c).fields = l.map (·.1) →
      (∀ q ∈ l, q.2.2 = none ↔ FieldHidden C (W.cls c).kind q.1 q.2.1) →
      (∀ q ∈ l, ∀ y, q.2.2 = some y → Dumped q.2.1 (fieldAnnotation (W.cls c).kind q.1) y) →
      m.Perm l → m.map (·.1.name) = writeOrder W c →
      Dumped v t (dictOf (m.filterMap (fun q => q.2.2.map (fun y => (.str (fieldKey C (W.cls c).kind q.1), y)))))
  | enum {e n x t r} : aget (W.enm e).members n = some x → Dumped x .any r → Dumped (.enumv e n) t r
  | iso {v k t} : C.isodates = true → dtKind v = some k → Dumped v t (.str (W.isoformat v))
  | date {y m d t} : C.isodates = false → Dumped (.date y m d) t (.list [.int y, .int m, .int d])
  | time {h mi s us t} : C.isodates = false → Dumped (.time h mi s us none) t (.list [.int h, .int mi, .int s, .int us])
  | datetime {y m d h mi s us t} : C.isodates = false →
      Dumped (.datetime y m d h mi s us none) t (.list [.int y, .int m, .int d, .int h, .int mi, .int s, .int us])
  | timedelta {us t} : Dumped (.timedelta us) t (.float (W.totalSeconds us))
  | pattern {src t} : Dumped (.pattern src) t src
  | strcons {c s t} : c ∈ C.strconstructed → Dumped (.strobj c s) t (.str (W.strOf (.strobj c s)))

end TL
