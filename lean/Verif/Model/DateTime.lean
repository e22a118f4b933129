import Verif.Model.World
/-!
# The datetime constructors used by `_datetimeload` and `_timedeltaload`
-/

namespace TL

/-- Leap years of the proleptic Gregorian calendar. -/
def isLeap (y : Int) : Bool := (y % 4 == 0 && y % 100 != 0) || y % 400 == 0

/-- Days in a month. -/
def daysInMonth (y m : Int) : Int :=
  if m == 2 then (if isLeap y then 29 else 28)
  else if m == 4 || m == 6 || m == 9 || m == 11 then 30 else 31

/-- Range check of `datetime.date` (CPython `check_date_args`). -/
def validDate (y m d : Int) : Bool :=
  1 ≤ y && y ≤ 9999 && 1 ≤ m && m ≤ 12 && 1 ≤ d && d ≤ daysInMonth y m

/-- Range check of `datetime.time` (CPython `check_time_args`). -/
def validTime (h mi s us : Int) : Bool :=
  0 ≤ h && h ≤ 23 && 0 ≤ mi && mi ≤ 59 && 0 ≤ s && s ≤ 59 && 0 ≤ us && us ≤ 999999

/-- Conversion of constructor arguments to C ints (format "i"): non-integers raise TypeError, ints that do not fit
raise OverflowError. -/
def toCInt : Val → Except ExcClass Int
  | .int i => if -2147483648 ≤ i ∧ i ≤ 2147483647 then .ok i else .error .overflow
  | .bool b => .ok (if b then 1 else 0)
  | _ => .error .type

/-- Convert all arguments, left to right. -/
def toCInts : List Val → Except ExcClass (List Int)
  | [] => .ok []
  | v :: vs => match toCInt v with
    | .error e => .error e
    | .ok i => match toCInts vs with
      | .error e => .error e
      | .ok is => .ok (i :: is)

/-- `date(*args)`, `time(*args)`, `datetime(*args)`.
Simplification: the `tzinfo` positional argument (5th of time, 8th of datetime) and the undocumented pickle form
(a single bytes argument) are rejected with TypeError. -/
def dtCall (k : DtKind) (args : List Val) : Except ExcClass Val :=
  match k with
  | .date =>
    if args.length ≠ 3 then .error .type else
    match toCInts args with
    | .error e => .error e
    | .ok [y, m, d] => if validDate y m d then .ok (.date y m d) else .error .value
    | .ok _ => .error .type
  | .time =>
    if args.length > 4 then .error .type else
    match toCInts args with
    | .error e => .error e
    | .ok is =>
      let h := is.getD 0 0; let mi := is.getD 1 0; let s := is.getD 2 0; let us := is.getD 3 0
      if validTime h mi s us then .ok (.time h mi s us none) else .error .value
  | .datetime =>
    if args.length < 3 ∨ args.length > 7 then .error .type else
    match toCInts args with
    | .error e => .error e
    | .ok is =>
      let y := is.getD 0 0; let m := is.getD 1 0; let d := is.getD 2 0
      let h := is.getD 3 0; let mi := is.getD 4 0; let s := is.getD 5 0; let us := is.getD 6 0
      if validDate y m d && validTime h mi s us then .ok (.datetime y m d h mi s us none) else .error .value

/-- A timedelta of `us` microseconds exists iff its day count has magnitude at most 999999999. -/
def validTimedelta (us : Int) : Bool :=
  -999999999 ≤ us / 86400000000 && us / 86400000000 ≤ 999999999

/-- `timedelta(0, v)`: `v` seconds. -/
def tdSeconds (W : World) : Val → Except ExcClass Val
  | .int n => if validTimedelta (n * 1000000) then .ok (.timedelta (n * 1000000)) else .error .overflow
  | .bool b => .ok (.timedelta (if b then 1000000 else 0))
  | .float f => (W.tdFloat f).map .timedelta
  | _ => .error .type

/-- `timedelta(v)`: `v` days (only reached through the handler mix-up in `_dictload`). -/
def tdDays (W : World) : Val → Except ExcClass Val
  | .int n => if validTimedelta (n * 86400000000) then .ok (.timedelta (n * 86400000000)) else .error .overflow
  | v => W.call .timedelta v

end TL
