import Verif.Props.RoundTripTypes
/-!
# Newer versions of a schema

What it means that a type is a newer version of another one, and that a loaded value is a newer version of another one.
-/

namespace TL

section
variable (W : World) (C : Config) (V : Nat → Nat → Prop) (Γ Γ' : Env)

/-- `Optional[t]` -/
def OptionalOf (ts : List Ty) (t : Ty) : Prop := ts = [t, .prim .none] ∨ ts = [.prim .none, t]

/-- `Newer t u`: `u` is a newer version of the type `t`.  `V c d` says that the class `d` is the new version of the class `c`, and forward
references mean `Γ` in the old program and `Γ'` in the new one.
* a type none of whose parts changes is its own new version; so is the name of a class (see `NewerNames`);
* a Literal may get more values;
* lists, tuples, the values of dictionaries and NewTypes may hold newer versions;
* a class is replaced with its new version;
* a class or a collection may become optional. -/
inductive Newer : Ty → Ty → Prop
  | same {t} : SameNames W Γ Γ' t → Newer t t
  | lit {vs vs'} : (∀ x ∈ vs, x ∈ vs') → Newer (.lit vs) (.lit vs')
  | coll {k t u} : k.isSet = false → Newer t u → Newer (.coll k t) (.coll k u)
  | tuple {ts us} : ts.length = us.length → (∀ (i : Nat) (t u : Ty), ts[i]? = some t → us[i]? = some u → Newer t u) → Newer (.tuple ts) (.tuple us)
  | dict {k t u} : SameNames W Γ Γ' k → Newer t u → Newer (.dict k t) (.dict k u)
  | newtype {n m t u} : Newer t u → Newer (.newtype n t) (.newtype m u)
  | fref {n} : Newer (.fref n) (.fref n)
  | obj {c d} : V c d → Newer (.obj c) (.obj d)
  | toOptional {t u us} : .none ∈ C.basictypes → OptionalOf us u → Compound Γ t → Compound Γ' u → Newer t u → Newer t (.union us)
  | optional {t u ts us} : .none ∈ C.basictypes → OptionalOf ts t → OptionalOf us u → Compound Γ t → Compound Γ' u → Newer t u →
      Newer (.union ts) (.union us)

/-- The names of classes that are used mean newer versions of the old classes. -/
def NewerNames (t : Ty) : Prop :=
  (Γ = none ↔ Γ' = none) ∧ ∀ f f', Γ = some f → Γ' = some f' → ∀ n, Uses W Γ t (.fref n) → ∀ u, f n = some u →
    ∃ u', f' n = some u' ∧ Newer W C V Γ Γ' u u'

/-- The field `g` of a class of kind `k'` is a new version of the field `f` of a class of kind `k`: the same key of the data, the same role in the
constructor, a newer type, the same default if there was one, and it is not required if it was not. -/
structure NewerField (k k' : ObjKind) (f g : Field) : Prop where
  name : g.name = f.name
  key : extName C k' g = extName C k f
  init : g.init = f.init
  default : ∀ d, f.default = some d → g.default = some d
  required : Required k' g → Required k f
  /-- attrs strips the underscores of private attributes from the names of the arguments of the constructor -/
  notPrivate : k' = .attrs → k ≠ .attrs → f.name.toList.head? ≠ some '_'
  type : ∀ t u, FieldTy k f t → FieldTy k' g u → Newer W C V Γ Γ' t u

/-- `f` is a field of the class `d` and there was none with its name in the class `c`. -/
def AddedField (c d : Nat) (f : Field) : Prop := f ∈ (W.cls d).fields ∧ ∀ g ∈ (W.cls c).fields, g.name ≠ f.name

/-- Nothing of the outside world raises StopIteration. -/
structure World.NeverStops : Prop where
  iso : ∀ k s, W.fromIso k s ≠ .error .stopIteration
  re : ∀ v, W.reCompile v ≠ .error .stopIteration
  td : ∀ f, W.tdFloat f ≠ .error .stopIteration
  init : ∀ c fs, W.initHook c fs ≠ .error .stopIteration

/-- The kinds of classes that may replace a class of kind `k`: a NamedTuple, a dataclass and an attrs class may replace each other, and may replace a
TypedDict. -/
def KindChange (k k' : ObjKind) : Prop :=
  k' = k ∨ k' ≠ .typeddict ∧ (k = .attrs → W.attrsSentinel = true ∨ W.NeverStops)

/-- The class `d` is a new version of the class `c`: every field has a new version, and the fields that are added are not required.
The constructors just store their arguments. -/
structure NewerClass (c d : Nat) : Prop where
  kind : KindChange W (W.cls c).kind (W.cls d).kind
  oldNames : WFNames C (W.cls c).kind (W.cls c).fields
  newNames : WFNames C (W.cls d).kind (W.cls d).fields
  kept : ∀ f ∈ (W.cls c).fields, ∃ g ∈ (W.cls d).fields, NewerField W C V Γ Γ' (W.cls c).kind (W.cls d).kind f g
  added : ∀ f, AddedField W c d f → ¬ Required (W.cls d).kind f
  /-- All fields of a NamedTuple and of a TypedDict are arguments of its constructor. -/
  oldArgs : (W.cls d).kind ≠ (W.cls c).kind → (W.cls c).kind = .namedtuple ∨ (W.cls c).kind = .typeddict → ∀ f ∈ (W.cls c).fields, f.init = true
  oldInit : ∀ fs, W.initHook c fs = .ok fs
  newInit : ∀ fs, W.initHook d fs = .ok fs
  /-- The converters of the new class tell their types. -/
  newHints : (W.cls d).kind = .attrs → ∀ f ∈ (W.cls d).fields, ∃ t, FieldTy .attrs f t

/-- The data is one for the old program: where it is loaded into a class of which there is a new version, it is a dictionary (its keys
are distinct, as always in Python) in which no key is the key of an added field.  With `failonextra` the last condition is not needed. -/
def OldData (v : Val) (t : Ty) : Prop :=
  ∀ x c d, Reaches W C Γ v t x (.obj c) → V c d → ∀ kvs, DictData C x kvs → x = .dict kvs ∧ (strKeys kvs).Nodup ∧
    (C.failonextra = false → ∀ f, AddedField W c d f → extName C (W.cls d).kind f ∉ strKeys kvs)

/-- `q` is an instance of the class `d` with the attributes `fs`. -/
def InstanceOf (d : Nat) (fs : List (String × Val)) (q : Val) : Prop :=
  ((W.cls d).kind = .namedtuple ∧ q = .nt d fs) ∨ ((W.cls d).kind ≠ .namedtuple ∧ (W.cls d).kind ≠ .typeddict ∧ q = .inst d fs)

/-- `Grown r q`: the value `q` is the new version of the value `r`.  Parts that are instances of a class (or dictionaries made for a TypedDict) may be
instances of its new version, with the same attributes and, in addition, the added fields at their defaults. -/
inductive Grown : Val → Val → Prop
  | same {v} : Grown v v
  | seq {k xs ys} : xs.length = ys.length → (∀ (i : Nat) (x y : Val), xs[i]? = some x → ys[i]? = some y → Grown x y) → Grown (.seq k xs) (.seq k ys)
  | dict {kvs kvs'} : kvs.map (·.1) = kvs'.map (·.1) →
      (∀ (i : Nat) (p q : Val × Val), kvs[i]? = some p → kvs'[i]? = some q → Grown p.2 q.2) → Grown (.dict kvs) (.dict kvs')
  | obj {c d fs fs' r q} : V c d → InstanceOf W c fs r → InstanceOf W d fs' q →
      (∀ n x, aget fs n = some x → (aget fs' n).isSome = true) →
      (∀ n x y, aget fs n = some x → aget fs' n = some y → Grown x y) →
      (∀ n y, aget fs n = none → aget fs' n = some y → ∃ f ∈ (W.cls d).fields, f.name = n ∧ f.default = some y) → Grown r q
  | typeddict {c d ps fs' q} : V c d → (W.cls c).kind = .typeddict → InstanceOf W d fs' q → 
      (∀ n x, aget ps n = some x → (aget fs' n).isSome = true) →
      (∀ n x y, aget ps n = some x → aget fs' n = some y → Grown x y) →
      (∀ n y, aget ps n = none → aget fs' n = some y → ∃ f ∈ (W.cls d).fields, f.name = n ∧ f.default = some y) →
      Grown (.dict (ps.map (fun p => (.str p.1, p.2)))) q
end

end TL
