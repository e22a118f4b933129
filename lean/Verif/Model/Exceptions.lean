import Verif.Model.World
/-!
# exceptions.py: rendering of exceptions
-/

namespace TL

/-- exceptions.py:111: `'[%d]' % x if isinstance(x, int) else str(x)` for the value of an annotation. -/
def annText (W : World) : Annotation → String
  | .field k => k
  | .index i => "[" ++ toString i ++ "]"
  | .forwardref n => n
  | .key v => match v with
    | .int i => "[" ++ toString i ++ "]"
    | .bool b => "[" ++ (if b then "1" else "0") ++ "]"
    | v => W.strOf v
  | .value v => match v with
    | .int i => "[" ++ toString i ++ "]"
    | .bool b => "[" ++ (if b then "1" else "0") ++ "]"
    | v => W.strOf v
  | .union t => W.strTy t

/-- exceptions.py:103-119 `_path` -/
def renderPath (W : World) (trace : List TraceItem) : String :=
  let path := trace.map (fun i => match i.ann with
    | some a => annText W a
    | none => "None")
  match path with
  | [] => ""
  | p :: ps =>
    if ps.isEmpty && p == "None" then "."
    else if !ps.isEmpty && p == "None" then ".".intercalate ("" :: ps)
    else ".".intercalate (p :: ps)

/-- `'  ' * indent` -/
def indentOf (n : Nat) : String := String.ofList (List.replicate (2 * n) ' ')

/-- exceptions.py:135-140 `_firstline`; the exception has one argument, its description. -/
def firstLine (W : World) (indent : Nat) (e : Exc) : String := indentOf indent ++ W.strMsg e.msg

mutual
/-- exceptions.py:121-133 `_subexceptions`.  The `trace` parameter of the Python function is never used and is omitted.
A sub-exception that is not a TypedloadException has no `_firstline`: AttributeError. -/
def subexceptions (W : World) (indent : Nat) : Exc → Except ExcClass String
  | .mk _ _ trace _ _ subs => match subLoop W indent trace subs with
    | .ok s => .ok (indentOf indent ++ "Exceptions:\n" ++ s)
    | .error e => .error e
/-- the loop over `self.exceptions` -/
def subLoop (W : World) (indent : Nat) (trace : List TraceItem) : List Exc → Except ExcClass String
  | [] => .ok ""
  | i :: rest =>
    if i.isTL then
      let head := firstLine W (indent + 1) i ++ "\n" ++ indentOf indent ++ "  Path: " ++
        renderPath W (trace ++ i.trace.tail) ++ "\n"
      match (if i.subs.isEmpty then Except.ok "" else subexceptions W (indent + 1) i) with
      | .error e => .error e
      | .ok sub => match subLoop W indent trace rest with
        | .error e => .error e
        | .ok tl => .ok (head ++ sub ++ tl)
    else .error .attr
end

/-- `str.rstrip()`.  Simplification: only ASCII whitespace. -/
def rstrip (s : String) : String := String.ofList ((s.toList.reverse.dropWhile Char.isWhitespace).reverse)

/-- exceptions.py:142-147 `__str__` -/
def render (W : World) (e : Exc) : Except ExcClass String :=
  let msg := firstLine W 0 e ++ "\nPath: " ++ renderPath W e.trace
  if e.subs.isEmpty then .ok msg else
  match subexceptions W 0 e with
  | .ok s => .ok (msg ++ "\n" ++ rstrip s)
  | .error c => .error c

end TL
