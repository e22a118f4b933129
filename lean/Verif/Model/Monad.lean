/-!
# Outcomes of a Python call

A call either returns, raises, or does not return.  State (the loader's caches) survives exceptions.
-/

namespace TL

/-- Outcome of a call: value, exception, or divergence (fuel exhausted). -/
inductive Res (σ ε α : Type)
  | ok (a : α) (s : σ)
  | err (e : ε) (s : σ)
  | div

namespace Res
variable {σ ε α : Type}
def val? : Res σ ε α → Option α
  | ok a _ => some a
  | _ => none
def err? : Res σ ε α → Option ε
  | err e _ => some e
  | _ => none
def state? : Res σ ε α → Option σ
  | ok _ s => some s
  | err _ s => some s
  | div => none
def isDiv : Res σ ε α → Bool
  | div => true
  | _ => false
end Res

/-- A Python computation: transforms the state. -/
def M (σ ε α : Type) := σ → Res σ ε α

namespace M
variable {σ ε α β : Type}

@[inline] protected def pure (a : α) : M σ ε α := fun s => .ok a s
@[inline] protected def bind (m : M σ ε α) (f : α → M σ ε β) : M σ ε β := fun s =>
  match m s with
  | .ok a s' => f a s'
  | .err e s' => .err e s'
  | .div => .div

instance : Monad (M σ ε) where
  pure := M.pure
  bind := M.bind

/-- `raise e` -/
def throw (e : ε) : M σ ε α := fun s => .err e s
/-- `try: m except Exception as e: f(e)`; divergence cannot be caught -/
def rescue (m : M σ ε α) (f : ε → M σ ε α) : M σ ε α := fun s =>
  match m s with
  | .ok a s' => .ok a s'
  | .err e s' => f e s'
  | .div => .div
/-- `try: a = m except Exception as e: g(e) else: f(a)` -/
def handle (m : M σ ε α) (f : α → M σ ε β) (g : ε → M σ ε β) : M σ ε β := fun s =>
  match m s with
  | .ok a s' => f a s'
  | .err e s' => g e s'
  | .div => .div
def get : M σ ε σ := fun s => .ok s s
def modify (f : σ → σ) : M σ ε Unit := fun s => .ok () (f s)
def diverge : M σ ε α := fun _ => .div
/-- A pure computation that may raise. -/
def lift (x : Except ε α) : M σ ε α :=
  match x with
  | .ok a => pure a
  | .error e => throw e

@[simp] theorem pure_apply (a : α) (s : σ) : (pure a : M σ ε α) s = .ok a s := rfl
@[simp] theorem throw_apply (e : ε) (s : σ) : (throw e : M σ ε α) s = .err e s := rfl
@[simp] theorem get_apply (s : σ) : (get : M σ ε σ) s = .ok s s := rfl
@[simp] theorem modify_apply (f : σ → σ) (s : σ) : (modify f : M σ ε Unit) s = .ok () (f s) := rfl
theorem bind_apply (m : M σ ε α) (f : α → M σ ε β) (s : σ) :
    (m >>= f) s = match m s with
      | .ok a s' => f a s'
      | .err e s' => .err e s'
      | .div => .div := rfl
theorem handle_apply (m : M σ ε α) (f : α → M σ ε β) (g : ε → M σ ε β) (s : σ) :
    handle m f g s = match m s with
      | .ok a s' => f a s'
      | .err e s' => g e s'
      | .div => .div := rfl
theorem catch_apply (m : M σ ε α) (f : ε → M σ ε α) (s : σ) :
    rescue m f s = match m s with
      | .ok a s' => .ok a s'
      | .err e s' => f e s'
      | .div => .div := rfl
end M

end TL
