import Verif.Model.Syntax
/-!
# Python operations on values

`==`, hashability, `type()`, `isinstance`, iteration, `len`, dictionary and set updates.
-/

namespace TL

/-- Scale of the float representation: finite float `k` denotes `k / 2^1074`. -/
def fscale : Int := 2 ^ 1074

/-- The float equal to an int (exact; rounding of huge ints is not modelled). -/
def PF.ofInt (i : Int) : PF := .fin (i * fscale)

/-- Python `==` on floats: nan differs from everything. -/
def PF.eq : PF → PF → Bool
  | .nan, _ => false
  | _, .nan => false
  | a, b => a == b

/-- The numeric value of bool, int and float objects, which compare across types in Python. -/
inductive Num | int (i : Int) | flt (f : PF)
  deriving DecidableEq, Repr

/-- The numeric value of a number. -/
def numKey : Val → Option Num
  | .bool b => some (.int (if b then 1 else 0))
  | .int i => some (.int i)
  | .float f => some (.flt f)
  | _ => none

/-- Python `==` on numbers. -/
def Num.eq : Num → Num → Bool
  | .int a, .int b => a == b
  | .int a, .flt f => PF.eq (PF.ofInt a) f
  | .flt f, .int a => PF.eq f (PF.ofInt a)
  | .flt f, .flt g => PF.eq f g

/-- set and frozenset compare as sets. -/
def SeqKind.isSet : SeqKind → Bool
  | .set | .frozenset => true
  | _ => false

mutual
/-- Python `==`.  Numbers compare across bool/int/float; NamedTuples compare as tuples; sets and dicts
compare by content, Namespaces by their attributes; instances of dataclass/attrs classes compare by class and fields; enum members, and opaque
objects by identity. -/
def pyEq : Val → Val → Bool
  | .none, w => match w with
    | .none => true
    | _ => false
  | .bool b, w => match numKey w with
    | some y => Num.eq (.int (if b then 1 else 0)) y
    | none => false
  | .int i, w => match numKey w with
    | some y => Num.eq (.int i) y
    | none => false
  | .float f, w => match numKey w with
    | some y => Num.eq (.flt f) y
    | none => false
  | .str s, w => match w with
    | .str s' => s == s'
    | _ => false
  | .bytes s, w => match w with
    | .bytes s' => s == s'
    | _ => false
  | .seq k xs, w => match w with
    | .seq k' ys =>
      if k.isSet then k'.isSet && xs.length == ys.length && pySub xs ys
      else k == k' && pyEqL xs ys
    | .nt _ ys => k == .tuple && pyEqL xs (ys.map (·.2))
    | _ => false
  | .dict kvs, w => match w with
    | .dict kvs' => kvs.length == kvs'.length && pySubKV kvs kvs'
    | _ => false
  | .ns kvs, w => match w with
    | .ns kvs' => kvs.length == kvs'.length && pySubN kvs kvs'
    | _ => false
  | .enumv e n, w => match w with
    | .enumv e' n' => e == e' && n == n'
    | _ => false
  | .nt _ xs, w => match w with
    | .nt _ ys => pyEqN xs (ys.map (·.2))
    | .seq k ys => k == .tuple && pyEqN xs ys
    | _ => false
  | .inst c xs, w => match w with
    | .inst c' ys => c == c' && xs.map (·.1) == ys.map (·.1) && pyEqN xs (ys.map (·.2))
    | _ => false
  | .date y m d, w => w == .date y m d
  | .time h mi s us tz, w => w == .time h mi s us tz
  | .datetime y m d h mi s us tz, w => w == .datetime y m d h mi s us tz
  | .timedelta us, w => w == .timedelta us
  | .pattern s, w => match w with
    | .pattern s' => pyEq s s'
    | _ => false
  | .strobj c r, w => w == .strobj c r
  | .opaque c i, w => w == .opaque c i
termination_by structural x => x
/-- elementwise `==` -/
def pyEqL : List Val → List Val → Bool
  | [], ys => ys.isEmpty
  | x :: xs, ys => match ys with
    | y :: ys => pyEq x y && pyEqL xs ys
    | [] => false
termination_by structural x => x
/-- elementwise `==` of the values of named fields -/
def pyEqN : List (String × Val) → List Val → Bool
  | [], ys => ys.isEmpty
  | x :: xs, ys => match ys with
    | y :: ys => pyEqS x y && pyEqN xs ys
    | [] => false
termination_by structural x => x
def pyEqS : String × Val → Val → Bool
  | (_, v), w => pyEq v w
termination_by structural x => x
/-- every element of the first list equals one of the second -/
def pySub : List Val → List Val → Bool
  | [], _ => true
  | x :: xs, ys => ys.any (fun y => pyEq x y) && pySub xs ys
termination_by structural x => x
def pySubKV : List (Val × Val) → List (Val × Val) → Bool
  | [], _ => true
  | x :: xs, ys => ys.any (fun y => pyEqP x y) && pySubKV xs ys
termination_by structural x => x
def pyEqP : Val × Val → Val × Val → Bool
  | (a, b), (c, d) => pyEq a c && pyEq b d
termination_by structural x => x
/-- every attribute of the first Namespace equals the attribute of that name of the second (argparse compares `vars()`) -/
def pySubN : List (String × Val) → List (String × Val) → Bool
  | [], _ => true
  | x :: xs, ys => ys.any (fun y => x.1 == y.1 && pyEqS x y.2) && pySubN xs ys
termination_by structural x => x
end

/-- Python `x in xs` for a tuple/list of values. -/
def pyIn (x : Val) (xs : List Val) : Bool := xs.any (fun y => pyEq y x)

mutual
/-- `hash(v)` does not raise.  `hc c` says whether the dataclass/attrs class `c` has a `__hash__` (`frozen=True`, `unsafe_hash=True`); the generated
method hashes the tuple of the fields.  Simplification: fields with `compare=False`/`hash=False` and hand-written `__hash__` are not modelled. -/
def hashable (hc : Nat → Bool) : Val → Bool
  | .seq k xs => match k with
    | .list => false
    | .set => false
    | .tuple => hashableL hc xs
    | .frozenset => true
  | .dict _ => false
  | .ns _ => false
  | .nt _ fs => hashableN hc fs
  | .inst c fs => hc c && hashableN hc fs
  | _ => true
termination_by structural x => x
def hashableL (hc : Nat → Bool) : List Val → Bool
  | [] => true
  | x :: xs => hashable hc x && hashableL hc xs
termination_by structural x => x
def hashableN (hc : Nat → Bool) : List (String × Val) → Bool
  | [] => true
  | x :: xs => hashableS hc x && hashableN hc xs
termination_by structural x => x
def hashableS (hc : Nat → Bool) : String × Val → Bool
  | (_, v) => hashable hc v
termination_by structural x => x
end

/-- The class of a collection value as a type (an unsubscripted class is not a supported annotation). -/
def SeqKind.className : SeqKind → String
  | .list => "list" | .tuple => "tuple" | .set => "set" | .frozenset => "frozenset"

/-- Python `type(v)`. -/
def typeOf : Val → Ty
  | .none => .prim .none
  | .bool _ => .prim .bool
  | .int _ => .prim .int
  | .float _ => .prim .float
  | .str _ => .prim .str
  | .bytes _ => .prim .bytes
  | .seq k _ => .opaque k.className
  | .dict _ => .opaque "dict"
  | .ns _ => .opaque "argparse.Namespace"
  | .enumv e _ => .enum e
  | .nt c _ => .obj c
  | .inst c _ => .obj c
  | .date .. => .dt .date
  | .time .. => .dt .time
  | .datetime .. => .dt .datetime
  | .timedelta _ => .timedelta
  | .pattern _ => .opaque "re.Pattern"
  | .strobj c _ => .strcons c
  | .opaque c _ => .opaque c

/-- Python `isinstance(v, p)` for a primitive class: `bool` is a subclass of `int`. -/
def isInst (p : Prim) : Val → Bool
  | .none => p == .none
  | .bool _ => p == .bool || p == .int
  | .int _ => p == .int
  | .float _ => p == .float
  | .str _ => p == .str
  | .bytes _ => p == .bytes
  | _ => false

/-- `isinstance(v, dict)` -/
def Val.isDict : Val → Bool
  | .dict _ => true
  | _ => false

/-- Iterating over a value (`iter(v)`); `none` when `iter` raises TypeError.  Strings iterate over one-character
strings, bytes over ints, dicts over keys. -/
def pyIter : Val → Option (List Val)
  | .seq _ xs => some xs
  | .str s => some (s.toList.map (fun c => .str (String.singleton c)))
  | .bytes bs => some (bs.map (fun b => .int (Int.ofNat b)))
  | .dict kvs => some (kvs.map (·.1))
  | .nt _ fs => some (fs.map (·.2))
  | _ => none

/-- `len(v)`; `none` when it raises TypeError. -/
def pyLen (v : Val) : Option Nat := (pyIter v).map List.length

/-- `d.get(k)` on dictionary contents. -/
def dget {α : Type} (kvs : List (Val × α)) (k : Val) : Option α :=
  (kvs.find? (fun p => pyEq p.1 k)).map (·.2)

/-- `d[k] = v` on dictionary contents: an equal key keeps its position and its key object. -/
def dset {α : Type} : List (Val × α) → Val → α → List (Val × α)
  | [], k, v => [(k, v)]
  | (k', v') :: rest, k, v => if pyEq k' k then (k', v) :: rest else (k', v') :: dset rest k v

/-- `s.add(x)` on set contents. -/
def setAdd (xs : List Val) (x : Val) : List Val := if pyIn x xs then xs else xs ++ [x]

/-- First binding of a key in an association list with decidable keys. -/
def aget {κ α : Type} [DecidableEq κ] : List (κ × α) → κ → Option α
  | [], _ => none
  | (k', v) :: rest, k => if k' = k then some v else aget rest k

/-- `d[k] = v` for association lists with decidable keys. -/
def aset {κ α : Type} [DecidableEq κ] : List (κ × α) → κ → α → List (κ × α)
  | [], k, v => [(k, v)]
  | (k', v') :: rest, k, v => if k' = k then (k', v) :: rest else (k', v') :: aset rest k v

/-- `k in d` -/
def dhas {α : Type} (kvs : List (Val × α)) (k : Val) : Bool := kvs.any (fun p => pyEq p.1 k)

end TL
