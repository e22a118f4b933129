import Verif.Props.Objects
import Verif.Props.Keys
import Verif.Props.Simple
import Verif.Props.Dicts
import Verif.Props.Soundness
import Verif.Props.Terminates
/-!
# What data becomes (specification for C73)

`Converts v t r`: the value `r` is the data `v`, converted place by place as the annotation `t` says.  The definition mentions no handler, no cache
and no loader.
-/

namespace TL

variable (W : World) (C : Config) (F : String → Ty → Prop)

/-- The member of the Enum `e` that `v` denotes: itself, or the first one whose value equals `v`, or without such a member, the one that the `_missing_` of
the class returns. -/
def EnumFirst (e : Nat) (v m : Val) : Prop :=
  (∃ p ∈ (W.enm e).members, v = .enumv e p.1 ∧ m = v) ∨
  ((∀ p ∈ (W.enm e).members, v ≠ .enumv e p.1) ∧ ∃ (i : Nat) (n : String) (x : Val), (W.enm e).members[i]? = some (n, x) ∧ pyEq x v = true ∧
    (∀ j < i, ∀ p : String × Val, (W.enm e).members[j]? = some p → pyEq p.2 v = false) ∧ m = .enumv e n) ∨
  (∀ p ∈ (W.enm e).members, v ≠ .enumv e p.1 ∧ pyEq p.2 v = false) ∧ ∃ n, W.missing e v = some n ∧ n ∈ (W.enm e).members.map (·.1) ∧ m = .enumv e n

/-- The date, time or datetime written as `v`: an ISO string, or the numbers (missing ones at the end of a time are zero). -/
def DateOf (k : DtKind) (v r : Val) : Prop :=
  (∃ x, v = .str x ∧ W.fromIso k x = .ok r) ∨
  (∀ x, v ≠ .str x) ∧ ∃ xs is n, pyIter v = some xs ∧ Zip2 CIntOf xs is ∧ match k with
    | .date => n = 0 ∧ ∃ y m d, is = [y, m, d] ∧ IsDate y m d ∧ r = .date y m d
    | .time => ∃ h mi s us, is ++ List.replicate n 0 = [h, mi, s, us] ∧ IsTime h mi s us ∧ r = .time h mi s us none
    | .datetime => ∃ y m d h mi s us, n ≤ 4 ∧ is ++ List.replicate n 0 = [y, m, d, h, mi, s, us] ∧ IsDate y m d ∧ IsTime h mi s us ∧
        r = .datetime y m d h mi s us none

/-- The timedelta of `v` seconds. -/
def SecondsOf (v r : Val) : Prop :=
  (∃ n, v = .int n ∧ -999999999 * 86400 ≤ n ∧ n < 1000000000 * 86400 ∧ r = .timedelta (n * 1000000)) ∨ (∃ b, v = .bool b ∧ r = .timedelta (if b then 1000000 else 0)) ∨
  ∃ f us, v = .float f ∧ W.tdFloat f = .ok us ∧ r = .timedelta us

/-- The pattern with source `v`, or `v` itself when it is one. -/
def PatternOf (v r : Val) : Prop :=
  (((∃ x, v = .str x) ∨ ∃ x, v = .bytes x) ∧ W.reCompile v = .ok () ∧ r = .pattern v) ∨ ((∃ x, v = .pattern x) ∧ r = v)

/-- The set of the elements `ys`: of equal ones the first stays. -/
def setOf (k : SeqKind) (ys : List Val) : Val := .seq k (ys.foldl (fun acc y => if acc.any (fun z => pyEq z y) then acc else acc ++ [y]) [])

/-- The constructor of the class takes the field under its own name (attrs removes leading underscores from the names of arguments). -/
def Argument (k : ObjKind) (f : Field) : Prop := k = .dataclass ∨ k = .attrs → f.init = true ∧ (k = .attrs → f.name.toList.head? ≠ some '_')

mutual
/-- `Converts v t r`: the data `v` becomes `r` when it is loaded into `t`.  `F n u` says that a forward reference to `n` can denote `u`.  Each list `l`
pairs parts of the data with the parts of the result that come from them. -/
inductive Converts : Val → Ty → Val → Prop
  | exact {p v} : p ∈ C.basictypes ∨ p = .none → typeOf v = .prim p → Converts v (.prim p) v
  | cast {p v r} : C.basiccast = true → p ∈ C.basictypes → p ≠ .none → typeOf v ≠ .prim p → W.call (.prim p) v = .ok r → Converts v (.prim p) r
  | any {v} : Converts v .any v
  | lit {vs l v} : l ∈ vs → pyEq l v = true → Converts v (.lit vs) v
  | enum {e v m} : EnumFirst W e v m → Converts v (.enum e) m
  | hint {e v u x m} : (∀ m', ¬ EnumFirst W e v m') → u ∈ (W.enm e).hints → Converts v u x → EnumFirst W e x m → Converts v (.enum e) m
  | dt {k v r} : DateOf W k v r → Converts v (.dt k) r
  | timedelta {v r} : SecondsOf W v r → Converts v .timedelta r
  | pattern {a v r} : PatternOf W v r → Converts v (.pattern a) r
  | strcons {c v r} : c ∈ C.strconstructed → W.call (.strcons c) v = .ok r → Converts v (.strcons c) r
  | coll {k t v} {l : List (Val × Val)} : k.isSet = false → v.isDict = false → pyIter v = some (l.map (·.1)) →
      (∀ q ∈ l, ConvertsItem q.1 t q.2) → Converts v (.coll k t) (.seq k (l.map (·.2)))
  | set {k t v} {l : List (Val × Val)} : k.isSet = true → v.isDict = false → pyIter v = some (l.map (·.1)) →
      (∀ q ∈ l, ConvertsItem q.1 t q.2) → (∀ q ∈ l, W.hash q.2 = true) → Converts v (.coll k t) (setOf k (l.map (·.2)))
  | tuple {v} {l : List (Val × Ty × Val)} {rest : List Val} : v.isDict = false → pyIter v = some (l.map (·.1) ++ rest) → (C.failonextra = true → rest = []) →
      (∀ q ∈ l, Converts q.1 q.2.1 q.2.2) → Converts v (.tuple (l.map (·.2.1))) (.tuple (l.map (·.2.2)))
  | dict {kt vt v} {l : List ((Val × Val) × (Val × Val))} : DictData C v (l.map (·.1)) → (∀ q ∈ l, ConvertsElem q.1.1 kt q.2.1) →
      (∀ q ∈ l, ConvertsElem q.1.2 vt q.2.2) → (∀ q ∈ l, W.hash q.2.1 = true) → Converts v (.dict kt vt) (dictOf (l.map (·.2)))
  /-- Data that is exactly of a basic type among the members stays as it is. -/
  | union {ts u v r} : u ∈ ts → (ExactBasic C v ts → u = typeOf v) → Converts v u r → Converts v (.union ts) r
  | fref {n u v r} : F n u → Converts v u r → Converts v (.fref n) r
  | newtype {n u v r} : Converts v u r → Converts v (.newtype n u) r
  /-- The entries of a TypedDict: the entries of the data with declared keys, in their order. -/
  | typeddict {c v kvs} {l : List (Field × Val × Val)} : (W.cls c).kind = .typeddict → DictData C v kvs →
      (C.failonextra = true → ∀ p ∈ kvs, KnownKey W C c p.1) →
      kvs.filter (fun p => isFieldKey ((W.cls c).fields.map (·.name)) p.1) = l.map (fun q => (.str q.1.name, q.2.1)) →
      (∀ q ∈ l, q.1 ∈ (W.cls c).fields) → (∀ q ∈ l, Converts q.2.1 q.1.ty q.2.2) →
      (∀ f ∈ (W.cls c).fields, f.required = true → f.notRequired = false → f.name ∈ l.map (·.1.name)) →
      Converts v (.obj c) (.dict (l.map (fun q => (.str q.1.name, q.2.2))))
  /-- The other classes: each field has a value or is left to the class, and the object is built from these. -/
  | obj {c v kvs r} {l : List (Field × Option Val)} : (W.cls c).kind ≠ .typeddict → DictData C v kvs →
      (C.failonextra = true → ∀ p ∈ kvs, KnownKey W C c p.1) → (W.cls c).fields = l.map (·.1) →
      (∀ q ∈ l, FieldConv c kvs q.1 q.2) → Built W c (l.filterMap (fun q => q.2.map (fun y => (q.1.name, y)))) r → Converts v (.obj c) r
/-- Elements of collections: instances of basic types and of their subclasses (bools among ints) stay as they are. -/
inductive ConvertsItem : Val → Ty → Val → Prop
  | conv {v t r} : ¬ BasicInstance C t v → Converts v t r → ConvertsItem v t r
  | keep {t v} : BasicInstance C t v → ConvertsItem v t v
/-- Keys and values of dictionaries: instances of subclasses of basic types (bools among ints) can be left alone. -/
inductive ConvertsElem : Val → Ty → Val → Prop
  | conv {v t r} : Converts v t r → ConvertsElem v t r
  | keep {p v} : p ∈ C.basictypes → isInst p v = true → ConvertsElem v (.prim p) v
/-- The value of the field `f` when the data has the entries `kvs`: what is under the key of the field, converted to the type of the field; without such a
key, the default; without default, nothing, which only fields that are no arguments of the constructor may have. -/
inductive FieldConv : Nat → List (Val × Val) → Field → Option Val → Prop
  | loaded {c kvs f x t y} : Argument (W.cls c).kind f → (.str (extName C (W.cls c).kind f), x) ∈ kvs → FieldTy (W.cls c).kind f t → Converts x t y → FieldConv c kvs f (some y)
  | default {c kvs f d} : extName C (W.cls c).kind f ∉ strKeys kvs → f.default = some d → FieldConv c kvs f (some d)
  | unset {c kvs f} : (W.cls c).kind ≠ .namedtuple → extName C (W.cls c).kind f ∉ strKeys kvs → f.default = none → f.init = false → FieldConv c kvs f none
end

/-- No dictionary in the data has the same string twice as a key: true of all Python data. -/
def KeysDistinct (v : Val) : Prop := ∀ x kvs, Within v x → DictData C x kvs → (strKeys kvs).Nodup

end TL
