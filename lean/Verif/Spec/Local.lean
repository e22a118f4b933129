import Verif.Lemmas.Sem
/-!
# Handlers that play no part (specification for C83 and C84)
-/

namespace TL

/-- The condition is false of the type, or raises on a loader that ignores the exceptions of conditions. -/
def PassesOver (W : World) (C : Config) (c : Cond) (t : Ty) : Prop :=
  evalCond W C c t = .ok false ∨ (C.raiseconditionerrors = false ∧ ∃ e, evalCond W C c t = .error e)

/-- The configuration with a handler inserted between `front` and `back`: `l.handlers.insert(len(front), (cond, handler))`. -/
def Config.insert (C : Config) (front : List (Cond × Handler)) (p : Cond × Handler) (back : List (Cond × Handler)) : Config :=
  { C with handlers := front ++ p :: back }

/-- Two configurations that cannot be told apart by loading into the types of `G`: they have the same options, but the lists of handlers, the
basic types, the types in `strconstructed` and the mangle key may differ, as long as that makes no difference to the types of `G`: each has the
same handler, each is basic or not with both, and the fields of each class have the same external names. -/
structure Config.Agree (W : World) (C C' : Config) (G : Ty → Prop) : Prop where
  basiccast : C'.basiccast = C.basiccast
  failonextra : C'.failonextra = C.failonextra
  dictequivalence : C'.dictequivalence = C.dictequivalence
  uniondebugconflict : C'.uniondebugconflict = C.uniondebugconflict
  basic : ∀ t, G t → C'.isBasic t = C.isBasic t
  names : ∀ c, G (.obj c) → ∀ f ∈ (W.cls c).fields, aget f.metadata C'.mangleKey = aget f.metadata C.mangleKey
  pick : ∀ t, G t → pick W C t = pick W C' t

/-! ## Dumping -/

/-- The condition is false of the value, or raises on a dumper that ignores the exceptions of conditions. -/
def DPassesOver (W : World) (C : DConfig) (c : DCond) (v : Val) : Prop :=
  dEvalCond W C c v = .ok false ∨ (C.raiseconditionerrors = false ∧ ∃ e, dEvalCond W C c v = .error e)

/-- The configuration with a handler inserted between `front` and `back`. -/
def DConfig.insert (C : DConfig) (front : List (DCond × DHandler)) (p : DCond × DHandler) (back : List (DCond × DHandler)) : DConfig :=
  { C with handlers := front ++ p :: back }

/-- The values that can be met while dumping `v`, with the annotation they can be dumped with: the contents of collections and objects, the
values of enum members, and what the user's handlers ask for. -/
inductive DMeets (W : World) (C : DConfig) (v : Val) (t : Ty) : Val → Ty → Prop
  | self : DMeets W C v t v t
  | item {k xs u x} : DMeets W C v t (.seq k xs) u → x ∈ xs → DMeets W C v t x .any
  | ntField {c fs u p} : DMeets W C v t (.nt c fs) u → p ∈ fs → DMeets W C v t p.2 .any
  | key {kvs u p} : DMeets W C v t (.dict kvs) u → p ∈ kvs → DMeets W C v t p.1 .any
  | val {kvs u p} : DMeets W C v t (.dict kvs) u → p ∈ kvs → DMeets W C v t p.2 .any
  | field {c fs u p} : DMeets W C v t (.inst c fs) u → p ∈ fs → DMeets W C v t p.2 .any
  | annotated {c fs u p f} : DMeets W C v t (.inst c fs) u → p ∈ fs → f ∈ (W.cls c).fields → f.name = p.1 → DMeets W C v t p.2 f.ty
  | member {e n u x} : DMeets W C v t (.enumv e n) u → aget (W.enm e).members n = some x → DMeets W C v t x .any
  | custom {x u c i y w} : DMeets W C v t x u → (c, DHandler.custom i) ∈ C.handlers → (W.dumpCustom i x u).Asks y w → DMeets W C v t y w

/-- The states of a dumper after a sequence of dumps. -/
inductive AfterDumps (W : World) (C : DConfig) : DState → Prop
  | new : AfterDumps W C {}
  | ok {s s' v t r} : AfterDumps W C s → Dumps W C s v t r s' → AfterDumps W C s'
  | err {s s' v t e} : AfterDumps W C s → DumpRaises W C s v t e s' → AfterDumps W C s'

end TL
