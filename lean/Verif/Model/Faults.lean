import Verif.Model.Loader
/-!
# Calls that fail for reasons outside of typedload

The stack, the memory or the time may run out in the middle of a load: RecursionError, MemoryError, or an exception raised by a signal handler.
-/

namespace TL

/-- What may go wrong: the exception (if any) raised by the call of a handler with a given value and type, in a given state of the loader, when `n` nested
calls are left.  Simplification: an exception arises where a handler is called, before it does anything (dataloader.py:265-303 and wherever a handler is
called). -/
abbrev Faults := Nat → Handler → Val → Ty → LState → Option ExcClass

/-- `run` (dataloader.py, all handlers) when the calls listed by `F` fail. -/
def runFaulty (W : World) (C : Config) (F : Faults) : Nat → Rec
  | 0 => fun _ _ _ _ => .div
  | n + 1 => fun h v t s => match F n h v t s with
    | some c => .err (.plain c) s
    | none => step W C (runFaulty W C F n) h v t s

/-- `Loader.load(value, type_)` (dataloader.py:265) when the calls listed by `F` fail. -/
def loadFaulty (W : World) (C : Config) (F : Faults) (n : Nat) (v : Val) (t : Ty) : L Val := loadWith W C (runFaulty W C F n) v t none

/-- The limit on the depth of the stack: the call is refused when none is left.  With `loadFaulty W C (stackLimit c) (n + 1)`, at most `n` calls of handlers are
nested, and one more raises the exception `c` (RecursionError).  Simplification: the frames of other functions are not counted. -/
def stackLimit (c : ExcClass) : Faults := fun n _ _ _ _ => if n = 0 then some c else none

end TL
