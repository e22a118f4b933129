import Verif.Model.Dumper
/-!
# A Dumper shared by threads

The handlers of `Model/Dumper.lean` once more, as programs that access the state of the dumper in single steps, so that the steps of several threads
can be interleaved.  A step reads or writes one of the two dictionaries of the dumper (`_handlerscache`, `_dataclasscache`); in CPython such an access
is atomic.  `Lemmas/DumpThreads.lean` proves that a program running alone is the function of `Model/Dumper.lean`.

Simplifications: user-supplied handlers do not access the dumper other than by calling `dump`; the options, the handler list and the dumped values are
not changed meanwhile.
-/

namespace TL

/-- A program using a shared dumper.  `act f k`: one atomic access, that turns the state `s` into `f s` and goes on with `k s`;
`stuck`: the program does not return (fuel exhausted). -/
inductive DProg (α : Type) : Type
  | ret (a : α)
  | raise (e : Exc)
  | stuck
  | act (f : DState → DState) (k : DState → DProg α)

namespace DProg
variable {α β : Type}

/-- `try: a = m except Exception as e: g(e) else: f(a)` -/
def handle : DProg α → (α → DProg β) → (Exc → DProg β) → DProg β
  | ret a, f, _ => f a
  | raise e, _, g => g e
  | stuck, _, _ => stuck
  | act h k, f, g => act h (fun s => (k s).handle f g)

instance : Monad DProg where
  pure := ret
  bind m f := m.handle f raise

/-- One access that reads. -/
def read : DProg DState := act id ret
/-- One access that writes. -/
def write (f : DState → DState) : DProg Unit := act f (fun _ => ret ())

/-- The program running alone. -/
def exec : DProg α → D α
  | ret a => fun s => .ok a s
  | raise e => fun s => .err e s
  | stuck => fun _ => .div
  | act f k => fun s => (k s).exec (f s)
end DProg

namespace TD
open DProg (raise handle read write)

/-- A way to call `d.dump(value, annotated_type)`. -/
abbrev Rec := Val → Ty → DProg Val

/-- datadumper.py:188-204: the handler of a value: `_handlerscache.get(t)` (an access), else `_handlerscache[t] = func` (an access). -/
def resolve (W : World) (C : DConfig) (v : Val) : DProg DHandler := do
  let s ← read
  match aget s.hc (typeOf v) with
  | some h => pure h
  | none => match dPick W C v with
    | .ok h => do write (fun s => { s with hc := aset s.hc (typeOf v) h }); pure h
    | .error e => raise e

/-- datadumper.py:263-274: `_dataclasscache.get(t)` (an access), else `_dataclasscache[t] = ...` (an access). -/
def desc (W : World) (c : Nat) : DProg DataDesc := do
  let s ← read
  match aget s.dc c with
  | some d => pure d
  | none => do
    write (fun s => { s with dc := aset s.dc c (mkDataDesc W (W.cls c)) })
    pure (mkDataDesc W (W.cls c))

section
variable (W : World) (C : DConfig) (rec : Rec)

/-- datadumper.py:300 -/
def dumpList : List Val → DProg (List Val)
  | [] => pure []
  | x :: xs => do
    let y ← rec x .any
    let ys ← dumpList xs
    pure (y :: ys)

/-- datadumper.py:148 -/
def dumpDict : List (Val × Val) → List (Val × Val) → DProg (List (Val × Val))
  | [], acc => pure acc
  | (k, x) :: rest, acc => do
    let k' ← rec k .any
    let x' ← rec x .any
    if W.hash k' then dumpDict rest (dset acc k' x') else raise (.plain .type)

/-- datadumper.py:282-300 `_iteratordump` -/
def iteratordump (v : Val) (t : Ty) : DProg Val :=
  if C.isBasic (iterItemTy t) && (C.handlers.head?.map (·.2) == some .identity) then pure (.list (iterContents v))
  else do
    let ys ← dumpList rec (iterContents v)
    pure (.list ys)

/-- datadumper.py:253-259 `_namedtupledump` -/
def dumpNt (defaults : List (String × Val)) : List (String × Val) → DProg (List (Val × Val))
  | [] => pure []
  | (k, x) :: rest =>
    if C.hidedefault && isDefault defaults k x then dumpNt defaults rest
    else do
      let y ← rec x .any
      let r ← dumpNt defaults rest
      pure ((.str k, y) :: r)

/-- datadumper.py:276-279: the loop over the fields of a dataclass. -/
def dumpFields (cd : ClassDef) (defaults : List (String × Val)) (hints : List (String × Ty)) (vals : List (String × Val)) :
    List String → List (Val × Val) → DProg (List (Val × Val))
  | [], acc => pure acc
  | f :: fs, acc =>
    match aget vals f with
    | none => raise (.plain .attr)
    | some x =>
      if C.hidedefault && isDefault defaults f x then dumpFields cd defaults hints vals fs acc
      else do
        let y ← rec x ((aget hints f).getD .any)
        let name := match cd.fields.find? (fun g => g.name == f) with
          | some g => (aget g.metadata C.mangleKey).getD f
          | none => f
        dumpFields cd defaults hints vals fs (dset acc (.str name) y)

/-- datadumper.py:208-221 `_attrdump` -/
def dumpAttrs (vals : List (String × Val)) : List Field → List (Val × Val) → DProg (List (Val × Val))
  | [], acc => pure acc
  | f :: fs, acc =>
    match aget vals f.name with
    | none => raise (.plain .attr)
    | some x =>
      if !f.repr then dumpAttrs vals fs acc
      else if C.hidedefault && (match f.default with
          | some d => pyEq x d
          | none => false) then dumpAttrs vals fs acc
      else do
        let y ← rec x .any
        dumpAttrs vals fs (dset acc (.str ((aget f.metadata C.mangleKey).getD f.name)) y)

/-- Running a user-supplied handler. -/
def script : Script → DProg Val
  | .ret v => pure v
  | .raise e => raise e
  | .call v t _ next => handle (rec v t) (fun r => script (next (.ok r))) (fun e => script (next (.error e)))

/-- A call that does not use the dumper. -/
def pureCall (m : M Unit Exc Val) : DProg Val :=
  match m () with
  | .ok a _ => .ret a
  | .err e _ => .raise e
  | .div => .stuck

/-- Calling a dump handler `f(d, value, annotated_type)`; see `TL.dstep`. -/
def step (h : DHandler) (v : Val) (t : Ty) : DProg Val :=
  match h with
  | .identity => pure v
  | .namedtuple => match v with
    | .nt c fs => do
      let r ← dumpNt C rec (classDefaults (W.cls c)) fs
      pure (.dict r)
    | _ => raise (.plain .attr)
  | .dataclass => match v with
    | .inst c vals => do
      let d ← desc W c
      let r ← dumpFields C rec (W.cls c) d.defaults d.hints vals d.fields []
      pure (.dict r)
    | _ => raise (.plain .attr)
  | .iterator => iteratordump C rec v t
  | .enum => match v with
    | .enumv e n => match aget (W.enm e).members n with
      | some x => rec x .any
      | none => raise (.plain .attr)
    | _ => raise (.plain .attr)
  | .dict => match v with
    | .dict kvs => do
      let r ← dumpDict W rec kvs []
      pure (.dict r)
    | _ => raise (.plain .attr)
  | .attrs => match v with
    | .inst c vals => do
      let r ← dumpAttrs C rec vals (W.cls c).fields []
      pure (.dict r)
    | _ => raise (.plain .attr)
  | .date => pureCall (datetimedump W C v)
  | .timedelta => match v with
    | .timedelta us => pure (.float (W.totalSeconds us))
    | _ => raise (.plain .attr)
  | .pattern => match v with
    | .pattern src => pure src
    | _ => raise (.plain .attr)
  | .str => pure (.str (W.strOf v))
  | .custom i => script rec (W.dumpCustom i v t)
end

/-- datadumper.py:180-205: the call `d.dump(value, annotated_type)` made by a thread, with at most `n` nested calls. -/
def dump (W : World) (C : DConfig) : Nat → Rec
  | 0 => fun _ _ => .stuck
  | n + 1 => fun v t => do
    let h ← resolve W C v
    step W C (dump W C n) h v t
end TD

/-! ## Interleaving -/

/-- A dumper and the threads using it. -/
structure DConf where
  state : DState
  threads : List (DProg Val)

/-- One thread makes one access. -/
inductive DConf.Step : DConf → DConf → Prop
  | mk {s : DState} (before : List (DProg Val)) (f : DState → DState) (k : DState → DProg Val) (after : List (DProg Val)) :
      DConf.Step ⟨s, before ++ .act f k :: after⟩ ⟨f s, before ++ k s :: after⟩

/-- Any number of accesses of any of the threads, in any order. -/
inductive DConf.Steps : DConf → DConf → Prop
  | refl {c} : DConf.Steps c c
  | next {c c' c''} : DConf.Steps c c' → DConf.Step c' c'' → DConf.Steps c c''

/-- A call made by a thread: `dump(value, annotated_type)`. -/
structure DJob where
  value : Val
  type : Ty := .any
  fuel : Nat

/-- The threads about to make their calls. -/
def DConf.start (W : World) (C : DConfig) (s : DState) (jobs : List DJob) : DConf :=
  ⟨s, jobs.map (fun j => TD.dump W C j.fuel j.value j.type)⟩

end TL
