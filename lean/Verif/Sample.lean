import Verif.Model.Loader
import Verif.Model.Dumper
import Verif.Model.Exceptions
/-!
# A small concrete program

Used in the `example`s that show hypotheses to be satisfiable, and in the counterexamples.
-/

namespace TL.Sample

/-- `class P: x: int; y: int = 5; z: str = field(metadata={'name': 'zed'})` (dataclass) -/
def clsP : ClassDef :=
  { kind := .dataclass, name := "P", fields :=
    [ { name := "x", ty := .prim .int },
      { name := "z", ty := .prim .str, metadata := [("name", "zed")] },
      { name := "y", ty := .prim .int, default := some (.int 5) } ] }
/-- `class N(NamedTuple): a: int; b: str = 'x'` -/
def clsN : ClassDef :=
  { kind := .namedtuple, name := "N", fields :=
    [ { name := "a", ty := .prim .int }, { name := "b", ty := .prim .str, default := some (.str "x") } ] }
/-- `class T(TypedDict): k: int; o: NotRequired[str]` -/
def clsT : ClassDef :=
  { kind := .typeddict, name := "T", fields :=
    [ { name := "k", ty := .prim .int }, { name := "o", ty := .prim .str, required := false, notRequired := true } ] }
/-- `class A: u: Any = ib(converter=f)` with `def f(x: int) -> str` (attrs) -/
def clsA : ClassDef :=
  { kind := .attrs, name := "A", fields := [ { name := "u", ty := .any, conv := some ⟨[.prim .int], true⟩ } ] }
/-- `class B: u: Any = ib(converter=g)` with `def g(x) -> str` (attrs; only the return type is annotated) -/
def clsB : ClassDef :=
  { kind := .attrs, name := "B", fields := [ { name := "u", ty := .any, conv := some ⟨[], true⟩ } ] }
/-- `class L1: tag: Literal['one']; p: int` (dataclass) -/
def clsL1 : ClassDef :=
  { kind := .dataclass, name := "L1", fields :=
    [ { name := "tag", ty := .lit [.str "one"] }, { name := "p", ty := .prim .int } ] }
/-- `class L2: tag: Literal['two']; p: int` (dataclass) -/
def clsL2 : ClassDef :=
  { kind := .dataclass, name := "L2", fields :=
    [ { name := "tag", ty := .lit [.str "two"] }, { name := "p", ty := .prim .int } ] }
/-- `class Node: v: int; next: Optional['Node']` (dataclass) -/
def clsNode : ClassDef :=
  { kind := .dataclass, name := "Node", fields :=
    [ { name := "v", ty := .prim .int }, { name := "next", ty := .union [.fref "Node", .prim .none] } ] }
/-- `class Holder: n: Node` (dataclass) -/
def clsHolder : ClassDef :=
  { kind := .dataclass, name := "Holder", fields := [ { name := "n", ty := .obj 7 } ] }

/-- The class table. -/
def cls : Nat → ClassDef
  | 0 => clsP | 1 => clsN | 2 => clsT | 3 => clsA | 4 => clsB | 5 => clsL1 | 6 => clsL2 | 7 => clsNode | 8 => clsHolder
  | n => { kind := .dataclass, name := "Empty" ++ toString n, fields := [] }

/-- The enums: `class E(Enum): A = 1; B = 'b'`, and one with an annotation `x: Tuple[int, int]`. -/
def enm : Nat → EnumDef
  | 0 => { name := "E", members := [("A", .int 1), ("B", .str "b")] }
  | 1 => { name := "F", members := [("A", .tuple [.int 1, .int 2])], hints := [.tuple [.prim .int, .prim .int]] }
  | _ => { name := "G", members := [] }

/-- A few conversions of the basic types. -/
def call : Ty → Val → Except ExcClass Val
  | .prim .int, .str "5" => .ok (.int 5)
  | .prim .int, .bool b => .ok (.int (if b then 1 else 0))
  | .prim .int, .str _ => .error .value
  | .prim .int, _ => .error .type
  | .prim .str, .int 5 => .ok (.str "5")
  | .prim .str, v => .ok (.str (reprStr v))
  | .prim .bool, .int i => .ok (.bool (i != 0))
  | .strcons c, .str s => .ok (.strobj c s)
  | _, _ => .error .type

/-- The sample world. -/
def W : World where
  cls := cls
  enm := enm
  tyName := fun t => match t with
    | .obj c => some (cls c).name
    | .prim .int => some "int"
    | .prim .str => some "str"
    | _ => none
  call := call
  initHook := fun _ fs => .ok fs
  fromIso := fun _ _ => .error .value
  isoformat := fun _ => "iso"
  reCompile := fun v => if v = .str "(" then .error .reError else .ok ()
  tdFloat := fun f => match f with
    | .nan => .error .value
    | .inf _ => .error .overflow
    | .fin k => if validTimedelta (k * 1000000 / fscale) then .ok (k * 1000000 / fscale) else .error .overflow
  totalSeconds := fun us => .fin (us * fscale / 1000000)
  strOf := fun v => match v with
    | .strobj _ s => s
    | .str s => s
    | _ => "?"
  popChoice := fun _ => 0
  attrsSentinel := false
  customCond := fun i _ => if i = 0 then .error .value else .ok true
  customLoad := fun i v _ => if i = 0 then .raise (.plain .value) else .ret v
  dumpCond := fun _ _ => .ok false
  dumpCustom := fun _ v _ => .ret v
  strTy := fun _ => "T"
  strMsg := fun _ => "message"

/-- The default configuration. -/
def C : Config := {}
/-- The default dumper configuration. -/
def D : DConfig := {}

/-- What the user's handler below does.
```
def handler(l, v, t):
    if t == Path: return l.load(v, int)
    if t == Tree: return [l.load(v[0], Tree)] if isinstance(v, list) and v else 0
    return v
```
-/
def callback (v : Val) (t : Ty) : Script :=
  if t = .strcons "Path" then .call v (.prim .int) none (fun o => match o with
    | .ok r => .ret r
    | .error e => .raise e)
  else if t = .strcons "Tree" then match v with
    | .list (x :: _) => .call x (.strcons "Tree") none (fun o => match o with
      | .ok r => .ret (.list [r])
      | .error e => .raise e)
    | _ => .ret (.int 0)
  else .ret v

/-- A program with a handler of the user, number 1, that calls the loader back. -/
def WB : World :=
  { W with
    customCond := fun _ t => .ok (t == .strcons "Path" || t == .strcons "Tree")
    customLoad := fun _ v t => callback v t }
/-- `l.handlers.insert(0, (lambda t: t in (Path, Tree), handler))` -/
def CB : Config := { handlers := (.custom 1, .custom 1) :: defaultHandlers }

/-! Sanity checks of the model (tests, not theorems). -/
example : (load W C 5 (.dict [(.str "x", .str "5"), (.str "zed", .str "q")]) (.obj 0) (fresh [])).val? =
    some (.inst 0 [("x", .int 5), ("z", .str "q"), ("y", .int 5)]) := by decide
example : (load W C 9 (.dict [(.str "v", .int 1), (.str "next", .dict [(.str "v", .int 2), (.str "next", .none)])])
    (.obj 7) (fresh [])).val? =
    some (.inst 7 [("v", .int 1), ("next", .inst 7 [("v", .int 2), ("next", .none)])]) := by decide
example : (apiDump W D 5 (.inst 0 [("x", .int 5), ("z", .str "q"), ("y", .int 5)])).val? =
    some (.dict [(.str "x", .int 5), (.str "zed", .str "q")]) := by decide

example : (load WB CB 9 (.list [.list [.list []]]) (.strcons "Tree") (fresh [])).val? = some (.list [.list [.int 0]]) := by decide
example : (load WB CB 9 (.list [.str "5"]) (.coll .list (.strcons "Path")) (fresh [])).val? = some (.list [.int 5]) := by decide
/-- The trace of an exception that passed through the handler has the elements of both loads. -/
example : (load WB CB 9 (.str "q") (.strcons "Path") (fresh [])).err?.map (fun e => (e.cls, e.trace.map (·.ty))) =
    some (.tlValue, [.strcons "Path", .prim .int]) := by decide

end TL.Sample
