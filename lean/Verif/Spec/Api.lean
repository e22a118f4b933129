import Verif.Model.Threads
import Verif.Model.Faults
import Verif.Model.DumpThreads
import Verif.Spec.Values
/-!
# The vocabulary used to state properties of the API
-/

namespace TL

/-- `Loader.load(v, t)` on a loader in state `s` returns `r` and leaves the loader in state `s'`. -/
def Loads (W : World) (C : Config) (s : LState) (v : Val) (t : Ty) (r : Val) (s' : LState) : Prop :=
  ∃ n, load W C n v t s = .ok r s'

/-- `Loader.load(v, t)` on a loader in state `s` raises `e` and leaves the loader in state `s'`. -/
def Raises (W : World) (C : Config) (s : LState) (v : Val) (t : Ty) (e : Exc) (s' : LState) : Prop :=
  ∃ n, load W C n v t s = .err e s'

/-- `Loader.load(v, t)` on a loader in state `s` does not terminate. -/
def Diverges (W : World) (C : Config) (s : LState) (v : Val) (t : Ty) : Prop :=
  ∀ n, load W C n v t s = .div

/-- Calling directly the handler that `Loader.index` selects for `t` returns `r`.  This is what the handlers of container types
do with their contents (they skip `load`, which only adds the trace). -/
def Handles (W : World) (C : Config) (s : LState) (v : Val) (t : Ty) (r : Val) (s' : LState) : Prop :=
  ∃ n h, pick W C t = .ok h ∧ run W C n h v t s = .ok r s'

/-- Calling directly the handler selected for `t` raises `e`. -/
def HandleRaises (W : World) (C : Config) (s : LState) (v : Val) (t : Ty) (e : Exc) (s' : LState) : Prop :=
  ∃ n h, pick W C t = .ok h ∧ run W C n h v t s = .err e s'

/-- The loaders of configurations `C` and `C'` differ at most in the options `basiccast`, `failonextra`, `dictequivalence` and `uniondebugconflict`,
which the user may change while the loader is in use. -/
structure Config.Retuned (C C' : Config) : Prop where
  handlers : C'.handlers = C.handlers
  basictypes : C'.basictypes = C.basictypes
  strconstructed : C'.strconstructed = C.strconstructed
  raiseconditionerrors : C'.raiseconditionerrors = C.raiseconditionerrors
  mangleKey : C'.mangleKey = C.mangleKey

/-- The states of a Loader object of configuration `C` in a running program: it starts with empty caches and any `frefs`; loads
(successful or not) change it, the options mentioned in `Config.Retuned` having had any values at the time; the user may assign `frefs`; other loaders
may rewrite TypedDict annotations; several threads may use it at the same time (the states include those in the middle of their calls); calls
may fail for reasons outside of typedload (RecursionError, MemoryError...). -/
inductive Reachable (W : World) (C : Config) : LState → Prop
  | new (frefs : Option (List (String × Ty))) (rew : List Nat) : Reachable W C { frefs := frefs, tdRew := rew }
  | loaded {C' s s' v t r} : Reachable W C s → C.Retuned C' → Loads W C' s v t r s' → Reachable W C s'
  | raised {C' s s' v t e} : Reachable W C s → C.Retuned C' → Raises W C' s v t e s' → Reachable W C s'
  | setFrefs {s} (frefs : Option (List (String × Ty))) : Reachable W C s → Reachable W C { s with frefs := frefs }
  | rewritten {s} (c : Nat) : Reachable W C s → Reachable W C { s with tdRew := c :: s.tdRew }
  | shared {C' s c} (jobs : List Job) : Reachable W C s → C.Retuned C' → (Conf.start W C' s jobs).Steps c → Reachable W C c.state
  | faulted {C' s s' v t} (F : Faults) (n : Nat) : Reachable W C s → C.Retuned C' →
      ((∃ r, loadFaulty W C' F n v t s = .ok r s') ∨ ∃ e, loadFaulty W C' F n v t s = .err e s') → Reachable W C s'

theorem Reachable.ok {W : World} {C : Config} {s s' : LState} {v : Val} {t : Ty} {r : Val} (hs : Reachable W C s) (h : Loads W C s v t r s') :
    Reachable W C s' := hs.loaded ⟨rfl, rfl, rfl, rfl, rfl⟩ h
theorem Reachable.err {W : World} {C : Config} {s s' : LState} {v : Val} {t : Ty} {e : Exc} (hs : Reachable W C s) (h : Raises W C s v t e s') :
    Reachable W C s' := hs.raised ⟨rfl, rfl, rfl, rfl, rfl⟩ h

/-- The states of one loader after a sequence of loads only. -/
inductive AfterLoads (W : World) (C : Config) (s : LState) : LState → Prop
  | refl : AfterLoads W C s s
  | ok {s1 s2 v t r} : AfterLoads W C s s1 → Loads W C s1 v t r s2 → AfterLoads W C s s2
  | err {s1 s2 v t e} : AfterLoads W C s s1 → Raises W C s1 v t e s2 → AfterLoads W C s s2

/-- The handler list is the default one. -/
def Config.Default (C : Config) : Prop := C.handlers = defaultHandlers

/-- The handler list consists of default handlers, some of them possibly removed or moved, and of handlers added by the user. -/
def Config.Mixed (C : Config) : Prop := ∀ p ∈ C.handlers, p ∈ defaultHandlers ∨ ∃ i, p.2 = .custom i

/-- No condition raises, or `raiseconditionerrors` is off. -/
def CalmConditions (W : World) (C : Config) : Prop := C.raiseconditionerrors = false ∨ ∀ p ∈ C.handlers, ∀ t x, evalCond W C p.1 t ≠ .error x

/-- The same loader with the default handler list. -/
def Config.stock (C : Config) : Config := { C with handlers := defaultHandlers }

/-- The user changed nothing for the type `t`: it is served by the handler (or by none) that the default list gives it.  Handlers added for
other types are allowed. -/
def Config.Usual (C : Config) (W : World) (t : Ty) : Prop := pick W C t = pick W C.stock t

/-- `d.dump(v, t)` on a dumper in state `s` returns `r`. -/
def Dumps (W : World) (C : DConfig) (s : DState) (v : Val) (t : Ty) (r : Val) (s' : DState) : Prop :=
  ∃ n, dump W C n v t s = .ok r s'
/-- `d.dump(v, t)` on a dumper in state `s` raises `e`. -/
def DumpRaises (W : World) (C : DConfig) (s : DState) (v : Val) (t : Ty) (e : Exc) (s' : DState) : Prop :=
  ∃ n, dump W C n v t s = .err e s'

/-- The dumpers of configurations `C` and `C'` differ at most in the options `hidedefault`, `isodates` and `mangle_key`, which the user may change while the
dumper is in use. -/
structure DConfig.Retuned (C C' : DConfig) : Prop where
  handlers : C'.handlers = C.handlers
  basictypes : C'.basictypes = C.basictypes
  strconstructed : C'.strconstructed = C.strconstructed
  raiseconditionerrors : C'.raiseconditionerrors = C.raiseconditionerrors

/-- The states of a Dumper object in a running program: it starts with empty caches, dumps (successful or not) change it, the options mentioned in
`DConfig.Retuned` having had any values at the time; threads may have shared it, up to any moment (so that dumps may also have been abandoned half-way). -/
inductive DReachable (W : World) (C : DConfig) : DState → Prop
  | new : DReachable W C {}
  | dumped {C' s s' v t r} : DReachable W C s → C.Retuned C' → Legal W v → Dumps W C' s v t r s' → DReachable W C s'
  | raised {C' s s' v t e} : DReachable W C s → C.Retuned C' → Legal W v → DumpRaises W C' s v t e s' → DReachable W C s'
  | shared {C' s c} (jobs : List DJob) : DReachable W C s → C.Retuned C' → (∀ j ∈ jobs, Legal W j.value) → (DConf.start W C' s jobs).Steps c →
      DReachable W C c.state

theorem DReachable.ok {W : World} {C : DConfig} {s s' : DState} {v : Val} {t : Ty} {r : Val} (hs : DReachable W C s) (hv : Legal W v)
    (h : Dumps W C s v t r s') : DReachable W C s' := hs.dumped ⟨rfl, rfl, rfl, rfl⟩ hv h
theorem DReachable.err {W : World} {C : DConfig} {s s' : DState} {v : Val} {t : Ty} {e : Exc} (hs : DReachable W C s) (hv : Legal W v)
    (h : DumpRaises W C s v t e s') : DReachable W C s' := hs.raised ⟨rfl, rfl, rfl, rfl⟩ hv h

/-- `loader.load(v, t, annotation=a)` on a loader in state `s` ends with `o` (returns a value or raises) and leaves it in state `s'`. -/
def Answers (W : World) (C : Config) (s : LState) (v : Val) (t : Ty) (a : Option Annotation) (o : Except Exc Val) (s' : LState) : Prop :=
  ∃ n, loadWith W C (run W C n) v t a s = match o with
    | .ok r => .ok r s'
    | .error e => .err e s'

/-- `dumper.dump(v, t)` on a dumper in state `s` ends with `o` and leaves it in state `s'`. -/
def DAnswers (W : World) (C : DConfig) (s : DState) (v : Val) (t : Ty) (_ : Option Annotation) (o : Except Exc Val) (s' : DState) : Prop :=
  ∃ n, dump W C n v t s = match o with
    | .ok r => .ok r s'
    | .error e => .err e s'

/-- A user-supplied handler `p` ends with `o`: `call` tells how the calls of the loader (or dumper) it makes end. -/
inductive Plays {σ : Type} (call : σ → Val → Ty → Option Annotation → Except Exc Val → σ → Prop) : Script → σ → Except Exc Val → σ → Prop
  | ret {v s} : Plays call (.ret v) s (.ok v) s
  | raise {e s} : Plays call (.raise e) s (.error e) s
  | call {v t a next s o s1 o' s2} : call s v t a o s1 → Plays call (next o) s1 o' s2 → Plays call (.call v t a next) s o' s2

/-- The handler calls the loader (or dumper) with the data `x` and the type `u`, for some answers to its earlier calls. -/
inductive Script.Asks : Script → Val → Ty → Prop
  | here {v t a next} : Asks (.call v t a next) v t
  | later {v t a next o x u} : Asks (next o) x u → Asks (.call v t a next) x u

/-- The handler can return `r`, if the calls of `load(_, t)` it makes return only values `y` with `Q t y` (and raise anything). -/
inductive Script.MayReturn (Q : Ty → Val → Prop) : Script → Val → Prop
  | ret {v} : MayReturn Q (.ret v) v
  | answer {v t a next y r} : Q t y → MayReturn Q (next (.ok y)) r → MayReturn Q (.call v t a next) r
  | except {v t a next e r} : MayReturn Q (next (.error e)) r → MayReturn Q (.call v t a next) r

/-- The handler can raise `e`, if the calls of `load` it makes raise only TypedloadExceptions (and return anything). -/
inductive Script.MayRaise : Script → Exc → Prop
  | raise {e} : MayRaise (.raise e) e
  | answer {v t a next y e} : MayRaise (next (.ok y)) e → MayRaise (.call v t a next) e
  | except {v t a next e' e} : e'.isTL = true → MayRaise (next (.error e')) e → MayRaise (.call v t a next) e

/-- The handler list is the default one. -/
def DConfig.Default (C : DConfig) : Prop := C.handlers = defaultDHandlers

end TL
