import Verif.Model.Dumper
/-!
# datadumper.py, with object identity

In `Model/Dumper.lean` values are mathematical objects: a list and its copy are the same.  Here every container carries the address of the object, and the
handlers say which objects they create and which they pass on.  The caches, which hold no user objects, are left out (`Lemmas/DumpObjects.lean`
relates this dumper to the other one).  Simplification: no user handlers (they raise here).
-/

namespace TL

/-- Values without parts: immutable objects, whose identity does not matter. -/
def Val.isAtom : Val → Bool
  | .seq .. | .dict .. | .ns .. | .nt .. | .inst .. => false
  | _ => true

/-- Values with addresses.  The same address at two places means that the object is shared. -/
inductive AVal
  | atom (v : Val) (h : v.isAtom = true)
  | seq (a : Nat) (k : SeqKind) (xs : List AVal)
  | dict (a : Nat) (kvs : List (AVal × AVal))
  | ns (a : Nat) (fs : List (String × AVal))
  | nt (a : Nat) (c : Nat) (fs : List (String × AVal))
  | inst (a : Nat) (c : Nat) (fs : List (String × AVal))

namespace AVal
mutual
/-- The value, addresses forgotten. -/
def erase : AVal → Val
  | .atom v _ => v
  | .seq _ k xs => .seq k (eraseL xs)
  | .dict _ kvs => .dict (eraseKV kvs)
  | .ns _ fs => .ns (eraseN fs)
  | .nt _ c fs => .nt c (eraseN fs)
  | .inst _ c fs => .inst c (eraseN fs)
def eraseL : List AVal → List Val
  | [] => []
  | x :: xs => x.erase :: eraseL xs
def eraseKV : List (AVal × AVal) → List (Val × Val)
  | [] => []
  | (k, x) :: xs => (k.erase, x.erase) :: eraseKV xs
def eraseN : List (String × AVal) → List (String × Val)
  | [] => []
  | (n, x) :: xs => (n, x.erase) :: eraseN xs
end

mutual
/-- The addresses of the containers in a value, one for each place. -/
def addrs : AVal → List Nat
  | .atom _ _ => []
  | .seq a _ xs => a :: addrsL xs
  | .dict a kvs => a :: addrsKV kvs
  | .ns a fs => a :: addrsN fs
  | .nt a _ fs => a :: addrsN fs
  | .inst a _ fs => a :: addrsN fs
def addrsL : List AVal → List Nat
  | [] => []
  | x :: xs => x.addrs ++ addrsL xs
def addrsKV : List (AVal × AVal) → List Nat
  | [] => []
  | (k, x) :: xs => k.addrs ++ (x.addrs ++ addrsKV xs)
def addrsN : List (String × AVal) → List Nat
  | [] => []
  | (_, x) :: xs => x.addrs ++ addrsN xs
end

/-- A string. -/
def str (s : String) : AVal := .atom (.str s) rfl

end AVal

/-- The objects that a program holds besides the value that is dumped: the values of the members of its Enums. -/
structure Objects (W : World) where
  member : Nat → String → AVal
  member_erase : ∀ e n x, aget (W.enm e).members n = some x → (member e n).erase = x

/-- Computations that create objects; the state is the next free address. -/
abbrev AD := M Nat Exc

/-- A new object. -/
def alloc : AD Nat := fun k => .ok k (k + 1)

/-- `d[k] = x` -/
def adset : List (AVal × AVal) → AVal → AVal → List (AVal × AVal)
  | [], k, x => [(k, x)]
  | (k', y) :: rest, k, x => if pyEq k'.erase k.erase then (k', x) :: rest else (k', y) :: adset rest k x

/-- A way to call `d.dump`. -/
abbrev ADRec := AVal → Ty → AD AVal

/-- datadumper.py:300: a list comprehension -/
def adumpList (rec : ADRec) : List AVal → AD (List AVal)
  | [] => pure []
  | x :: xs => do
    let y ← rec x .any
    let ys ← adumpList rec xs
    pure (y :: ys)

/-- datadumper.py:148: a dict comprehension -/
def adumpDict (W : World) (rec : ADRec) : List (AVal × AVal) → List (AVal × AVal) → AD (List (AVal × AVal))
  | [], acc => pure acc
  | (k, x) :: rest, acc => do
    let k' ← rec k .any
    let x' ← rec x .any
    if W.hash k'.erase then adumpDict W rec rest (adset acc k' x') else M.throw (.plain .type)

/-- The elements of a sequence (or of a NamedTuple). -/
def aiterContents : AVal → List AVal
  | .seq _ _ xs => xs
  | .nt _ _ fs => fs.map (·.2)
  | _ => []

/-- datadumper.py:282-300 `_iteratordump`: a new list; on the fast path (`value.copy()` or `[i for i in value]`) with the elements themselves. -/
def aiteratordump (C : DConfig) (rec : ADRec) (x : AVal) (t : Ty) : AD AVal :=
  if C.isBasic (iterItemTy t) && (C.handlers.head?.map (·.2) == some .identity) then do
    let a ← alloc
    pure (.seq a .list (aiterContents x))
  else do
    let ys ← adumpList rec (aiterContents x)
    let a ← alloc
    pure (.seq a .list ys)

/-- datadumper.py:253-259 `_namedtupledump` -/
def adumpNt (C : DConfig) (rec : ADRec) (defaults : List (String × Val)) : List (String × AVal) → AD (List (AVal × AVal))
  | [] => pure []
  | (k, x) :: rest =>
    if C.hidedefault && isDefault defaults k x.erase then adumpNt C rec defaults rest
    else do
      let y ← rec x .any
      let r ← adumpNt C rec defaults rest
      pure ((.str k, y) :: r)

/-- datadumper.py:262-280 `_dataclassdump`: the dict comprehension -/
def adumpFields (C : DConfig) (rec : ADRec) (cd : ClassDef) (defaults : List (String × Val))
    (hints : List (String × Ty)) (vals : List (String × AVal)) : List String → List (AVal × AVal) → AD (List (AVal × AVal))
  | [], acc => pure acc
  | f :: fs, acc =>
    match aget vals f with
    | none => M.throw (.plain .attr)
    | some x =>
      if C.hidedefault && isDefault defaults f x.erase then adumpFields C rec cd defaults hints vals fs acc
      else do
        let y ← rec x ((aget hints f).getD .any)
        let name := match cd.fields.find? (fun g => g.name == f) with
          | some g => (aget g.metadata C.mangleKey).getD f
          | none => f
        adumpFields C rec cd defaults hints vals fs (adset acc (.str name) y)

/-- datadumper.py:208-221 `_attrdump` -/
def adumpAttrs (C : DConfig) (rec : ADRec) (vals : List (String × AVal)) : List Field → List (AVal × AVal) → AD (List (AVal × AVal))
  | [], acc => pure acc
  | f :: fs, acc =>
    match aget vals f.name with
    | none => M.throw (.plain .attr)
    | some x =>
      if !f.repr then adumpAttrs C rec vals fs acc
      else if C.hidedefault && (match f.default with
          | some d => pyEq x.erase d
          | none => false) then adumpAttrs C rec vals fs acc
      else do
        let y ← rec x .any
        adumpAttrs C rec vals fs (adset acc (.str ((aget f.metadata C.mangleKey).getD f.name)) y)

/-- A list display of integers: a new list. -/
def aints (is : List Int) : AD AVal := do
  let a ← alloc
  pure (.seq a .list (is.map (fun i => .atom (.int i) rfl)))

/-- datadumper.py:224-242 `_datetimedump` -/
def adatetimedump (W : World) (C : DConfig) (x : AVal) : AD AVal :=
  if C.isodates then pure (.str (W.isoformat x.erase)) else
  match x.erase with
  | .date y m d => aints [y, m, d]
  | .time h mi s us tz => if tz.isSome then M.throw (.plain .notImplemented) else aints [h, mi, s, us]
  | .datetime y m d h mi s us tz => if tz.isSome then M.throw (.plain .notImplemented) else aints [y, m, d, h, mi, s, us]
  | _ => M.throw (.plain .attr)

/-- Calling a dump handler. -/
def adstep (W : World) (C : DConfig) (O : Objects W) (rec : ADRec) (h : DHandler) (x : AVal) (t : Ty) : AD AVal :=
  match h with
  | .identity => pure x
  | .namedtuple => match x with
    | .nt _ c fs => do
      let r ← adumpNt C rec (classDefaults (W.cls c)) fs
      let a ← alloc
      pure (.dict a r)
    | _ => M.throw (.plain .attr)
  | .dataclass => match x with
    | .inst _ c vals => do
      let d := mkDataDesc W (W.cls c)
      let r ← adumpFields C rec (W.cls c) d.defaults d.hints vals d.fields []
      let a ← alloc
      pure (.dict a r)
    | _ => M.throw (.plain .attr)
  | .iterator => aiteratordump C rec x t
  | .enum => match x.erase with
    | .enumv e n => match aget (W.enm e).members n with
      | some _ => rec (O.member e n) .any
      | none => M.throw (.plain .attr)
    | _ => M.throw (.plain .attr)
  | .dict => match x with
    | .dict _ kvs => do
      let r ← adumpDict W rec kvs []
      let a ← alloc
      pure (.dict a r)
    | _ => M.throw (.plain .attr)
  | .attrs => match x with
    | .inst _ c vals => do
      let r ← adumpAttrs C rec vals (W.cls c).fields []
      let a ← alloc
      pure (.dict a r)
    | _ => M.throw (.plain .attr)
  | .date => adatetimedump W C x
  | .timedelta => match x.erase with
    | .timedelta us => pure (.atom (.float (W.totalSeconds us)) rfl)
    | _ => M.throw (.plain .attr)
  | .pattern => match x.erase with
    | .pattern src => if h : src.isAtom = true then pure (.atom src h) else M.throw (.plain .attr)
    | _ => M.throw (.plain .attr)
  | .str => pure (.str (W.strOf x.erase))
  | .custom _ => M.throw (.plain .notImplemented)

/-- datadumper.py:180-205 `Dumper.dump`, with at most `n` nested calls. -/
def adump (W : World) (C : DConfig) (O : Objects W) : Nat → ADRec
  | 0 => fun _ _ _ => .div
  | n + 1 => fun x t =>
    match dPick W C x.erase with
    | .error e => M.throw e
    | .ok h => adstep W C O (adump W C O n) h x t

end TL
