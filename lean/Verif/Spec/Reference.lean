import Verif.Model.Loader
/-!
# A reference loader without caches

The same handlers as in `Model/Loader.lean`, but without any state: handlers are looked up anew each time, class descriptions and
discriminators are computed anew, the meaning of forward references is a fixed environment, and dictionaries are loaded in a single
pass.  `Props/Reuse.lean` proves that a Loader object computes this function whatever loads it has done before; several properties
are then proved on the reference loader.
-/

namespace TL

/-- Computations without state. -/
abbrev R := M Unit Exc

/-- The meaning of forward references; `none` when they are disabled. -/
abbrev Env := Option (String → Option Ty)

/-- A handler that does not use the loader. -/
def ofL {α : Type} (m : L α) : R α := fun _ =>
  match m {} with
  | .ok a _ => .ok a ()
  | .err e _ => .err e ()
  | .div => .div

namespace Ref

/-- A way to call a handler. -/
abbrev Rec := Handler → Val → Ty → R Val

section
variable (W : World) (C : Config) (Γ : Env) (rec : Rec)

/-- The exception of a failed lookup. -/
def lookupError (missing : Exc) (c : ExcClass) : Exc := if c.isValue then missing else .plain c

/-- Look the handler of `t` up. -/
def resolve (t : Ty) (missing : Exc) : R Handler :=
  match pick W C t with
  | .ok h => pure h
  | .error c => M.throw (lookupError missing c)

/-- `load`: call the handler of `t`, adding to the trace of exceptions. -/
def loadWith (v : Val) (t : Ty) (ann : Option Annotation) : R Val := do
  let h ← resolve W C t (mkExc .tlType (.noHandler t) v t)
  M.rescue (rec h v t) (fun e =>
    if e.isTL then M.throw (e.push ⟨v, t, ann⟩) else M.throw (.plain .assertion))

/-- Forward references. -/
def forwardrefload (v : Val) (t : Ty) : R Val :=
  match t with
  | .fref n =>
    match Γ with
    | none => M.throw (mkExc .tlBase .frefDisabled v t)
    | some fr => match fr n with
      | none => M.throw (mkExc .tlValue (.frefUnknown n) v t)
      | some t' => loadWith W C rec v t' (some (.forwardref n))
  | _ => M.throw (.plain .attr)

/-- NewType. -/
def newtypeload (v : Val) (t : Ty) : R Val :=
  match t with
  | .newtype _ t' => loadWith W C rec v t' none
  | _ => M.throw (.plain .attr)

/-- One element of a homogeneous collection. -/
def iterElem (h : Handler) (et : Ty) (x : Val) : R Val :=
  match et with
  | .prim p =>
    if C.isBasic et then (if isInst p x then pure x else rec h x et) else rec h x et
  | .union ts =>
    if ts.all C.isBasic then (if typeOf x ∈ ts then pure x else rec h x et) else rec h x et
  | _ => rec h x et

/-- The elements of a homogeneous collection. -/
def iterElems (h : Handler) (k : SeqKind) (et : Ty) (v : Val) (t : Ty) : List Val → Nat → List Val → R (List Val)
  | [], _, acc => pure acc
  | x :: xs, i, acc =>
    M.handle (iterElem C rec h et x)
      (fun y => match collAdd W k acc y with
        | .error c => M.throw (elemError v t i (.plain c))
        | .ok acc' => iterElems h k et v t xs (i + 1) acc')
      (fun e =>
        if usesMap C et && e.cls == .stopIteration then pure acc
        else M.throw (elemError v t i e))

/-- List, Set, FrozenSet and Tuple[T, ...]. -/
def iterload (k : SeqKind) (v : Val) (t : Ty) : R Val :=
  if v.isDict then M.throw (mkExc .tlType .dictAsIter v t) else
  match t with
  | .coll _ et => do
    let h ← resolve W C et (mkExc .tlType (.noHandler et) v et)
    match pyIter v with
    | none => M.throw (mkExc .tlType (.py .type) v t)
    | some xs => do
      let ys ← iterElems W C rec h k et v t xs 0 []
      pure (.seq k ys)
  | _ => M.throw (.plain .attr)

/-- The positions of a fixed tuple. -/
def tupElems (v : Val) (t : Ty) : List Val → List Ty → Nat → R (List Val)
  | x :: xs, u :: us, i => do
    let y ← M.rescue
      (match pick W C u with
        | .error c => M.throw (.plain c)
        | .ok h => if C.isBasic u && typeOf x == u then pure x else rec h x u)
      (fun e => M.throw (elemError v t i e))
    let ys ← tupElems v t xs us (i + 1)
    pure (y :: ys)
  | _, _, _ => pure []

/-- Tuples. -/
def tupleload (v : Val) (t : Ty) : R Val :=
  match t with
  | .coll .tuple _ => iterload W C rec .tuple v t
  | .tuple ts =>
    if v.isDict then M.throw (mkExc .tlType .dictAsTuple v t) else
    match pyIter v with
    | none => M.throw (.plain .type)
    | some xs =>
      if C.failonextra && xs.length > ts.length then M.throw (mkExc .tlValue (.tooLong t) v t)
      else if xs.length < ts.length then M.throw (mkExc .tlValue (.tooShort t) v t)
      else do
        let ys ← tupElems W C rec v t xs ts 0
        pure (.seq .tuple ys)
  | _ => M.throw (.plain .attr)

/-- A key or a value of a dictionary. -/
def part (x : Val) (t : Ty) (ann : Annotation) : R Val :=
  if C.isBasic t && isInstTy t x then pure x else loadWith W C rec x t (some ann)

/-- The pairs of a dictionary. -/
def pairs (kt vt : Ty) : List (Val × Val) → List (Val × Val) → R (List (Val × Val))
  | [], acc => pure acc
  | (k, x) :: rest, acc => do
    let k' ← part W C rec k kt (.key k)
    let x' ← part W C rec x vt (.value x)
    if W.hash k' then pairs kt vt rest (dset acc k' x') else M.throw (.plain .type)

/-- Dictionaries, in one pass. -/
def dictload (v : Val) (t : Ty) : R Val :=
  match t with
  | .dict kt vt => do
    let _ ← resolve W C kt (mkExc .tlValue (.noHandlerIn kt t) v kt)
    let _ ← resolve W C vt (mkExc .tlValue (.noHandlerIn vt t) v vt)
    M.rescue
      (match items (dictequivalence C v) with
        | none => M.throw (.plain .attr)
        | some kvs => do
          let r ← pairs W C rec kt vt kvs []
          pure (.dict r))
      (fun e => if e.cls.isAttr then M.throw (mkExc .tlAttr .wrapped (dictequivalence C v) t) else M.throw e)
  | _ => M.throw (.plain .attr)

/-- The data of an object. -/
def objFields (info : ObjInfo) (v : Val) (t : Ty) : List (Val × Val) → List (String × Val) → R (List (String × Val))
  | [], acc => pure acc
  | (k, x) :: rest, acc =>
    match k with
    | .str n =>
      if info.fields.contains n then
        match aget info.hints n with
        | none => M.throw (.plain (.other 1))
        | some ft => do
          let h ← resolve W C ft (mkExc .tlType (.noHandler ft) v ft)
          let y ← M.rescue (rec h x ft) (fun e =>
            if e.isTL then M.throw (e.push ⟨v, t, some (.field n)⟩) else M.throw e)
          objFields info v t rest (aset acc n y)
      else objFields info v t rest acc
    | _ => objFields info v t rest acc

/-- Objects, after renaming. -/
def objloader (info : ObjInfo) (v : Val) (cid : Nat) : R Val :=
  match objItems C v with
  | none => M.throw (mkExc .tlAttr (.py .attr) v (.obj cid))
  | some (v, kvs) =>
    if !info.necessary.all (fun n => dhas kvs (.str n)) then
      M.throw (mkExc .tlValue (.missing (info.necessary.filter (fun n => !dhas kvs (.str n)))) v (.obj cid))
    else if C.failonextra && !(extraKeys info kvs).isEmpty then
      if (extraKeys info kvs).all (fun k => typeOf k == .prim .str) then
        M.throw (mkExc .tlValue (.extra (extraKeys info kvs)) v (.obj cid))
      else M.throw (.plain .type)
    else do
      let params ← objFields W C rec info v (.obj cid) kvs []
      match construct W cid params with
      | .ok r => pure r
      | .error e =>
        if e.isType then M.throw (mkExc0 .tlType (.py e))
        else if e.isValue then M.throw (mkExc0 .tlValue (.py e))
        else M.throw (.plain e)

/-- Objects whose fields may be renamed. -/
def objMangled (info : ObjInfo) (v : Val) (c : Nat) : R Val := do
  let v' ← ofL (mangleOrRaise C info.transforms v (.obj c))
  objloader W C rec info v' c

/-- NamedTuple classes. -/
def namedtupleload (v : Val) (t : Ty) : R Val :=
  match t with
  | .obj c =>
    if (W.cls c).kind = .namedtuple then objloader W C rec (namedtupleInfo (W.cls c)) v c
    else M.throw (.plain .attr)
  | _ => M.throw (.plain .attr)

/-- dataclasses. -/
def dataclassload (v : Val) (t : Ty) : R Val :=
  match t with
  | .obj c =>
    if (W.cls c).kind = .dataclass then objMangled W C rec (dataclassInfo C (W.cls c)) v c
    else M.throw (.plain .attr)
  | _ => M.throw (.plain .attr)

/-- attrs classes. -/
def attrload (v : Val) (t : Ty) : R Val :=
  match t with
  | .obj c =>
    if (W.cls c).kind = .attrs then
      match attrHints (W.cls c).fields with
      | .error e => M.throw (.plain e)
      | .ok hints => objMangled W C rec (attrInfo W C (W.cls c).fields hints) v c
    else M.throw (.plain .attr)
  | _ => M.throw (.plain .attr)

/-- TypedDict classes. -/
def typeddictload (v : Val) (t : Ty) : R Val :=
  match t with
  | .obj c =>
    if (W.cls c).kind = .typeddict then objloader W C rec (typeddictInfo (W.cls c) false) v c
    else M.throw (.plain .attr)
  | _ => M.throw (.plain .attr)

/-- The order in which the members of a union are tried. -/
def unionOrder (v : Val) (ts : List Ty) : R (List Ty) :=
  match v with
  | .dict kvs =>
    match mkDisc W [] ts with
    | none => pure (sortArgs C ts)
    | some (key, table) =>
      if table.isEmpty then pure (sortArgs C ts)
      else if W.hash ((dget kvs (.str key)).getD .none) then
        match dget table ((dget kvs (.str key)).getD .none) with
        | some p => pure (bump (sortArgs C ts) p)
        | none => pure (sortArgs C ts)
      else M.throw (.plain .type)
  | _ => pure (sortArgs C ts)

/-- Trying the members of a union. -/
def unionTry (v : Val) (t : Ty) : List Ty → Nat → Val → List Exc → R (Nat × Val × List Exc)
  | [], c, r, es => pure (c, r, es)
  | u :: us, c, r, es =>
    M.handle
      (do let h ← resolve W C u (mkExc .tlValue (.noHandlerIn u t) v u)
          rec h v u)
      (fun x =>
        if C.uniondebugconflict then unionTry v t us (c + 1) x es
        else pure (c + 1, x, es))
      (fun e =>
        if e.isTL then unionTry v t us c r (es ++ [e.push ⟨v, t, some (.union u)⟩])
        else M.throw e)

/-- Unions. -/
def unionload (v : Val) (t : Ty) : R Val :=
  match t with
  | .union ts =>
    if C.isBasic (typeOf v) && ts.contains (typeOf v) then pure v else do
    let order ← unionOrder W C v ts
    let (c, r, es) ← unionTry W C rec v t order 0 .none []
    if c = 1 then pure r
    else if c = 0 then M.throw (mkExcSubs .tlValue (.unionNone t) v t es)
    else M.throw (mkExcSubs .tlType (.unionMany t c) v t es)
  | _ => M.throw (.plain .attr)

/-- Trying the annotations of an Enum. -/
def enumHints (v : Val) (e : Nat) : List Ty → List Exc → R Val
  | [], es => M.throw (mkExcSubs .tlValue (.enumNone (.enum e)) v (.enum e) es)
  | u :: us, es =>
    M.rescue
      (do let x ← loadWith W C rec v u (some (.union u))
          match enumCall W e x with
          | some m => pure m
          | none => M.throw (.plain .value))
      (fun ex => enumHints v e us (es ++ [ex]))

/-- Enums. -/
def enumload (v : Val) (t : Ty) : R Val :=
  match t with
  | .enum e => match enumCall W e v with
    | some m => pure m
    | none => enumHints W C rec v e (W.enm e).hints []
  | _ => M.throw (.plain .attr)

/-- Calling a handler. -/
def step : Rec := fun h v t =>
  match h with
  | .noneload => ofL (TL.noneload v t)
  | .unionload => unionload W C rec v t
  | .basicload => ofL (TL.basicload W C v t)
  | .enumload => enumload W C rec v t
  | .tupleload => tupleload W C rec v t
  | .listload => iterload W C rec .list v t
  | .dictload => dictload W C rec v t
  | .setload => iterload W C rec .set v t
  | .frozensetload => iterload W C rec .frozenset v t
  | .namedtupleload => namedtupleload W C rec v t
  | .dataclassload => dataclassload W C rec v t
  | .forwardrefload => forwardrefload W C Γ rec v t
  | .literalload => ofL (TL.literalload v t)
  | .typeddictload => typeddictload W C rec v t
  | .datetimeload => ofL (TL.datetimeload W v t)
  | .patternload => ofL (TL.patternload W v t)
  | .timedeltaload => ofL (TL.timedeltaload W v t)
  | .strconstructload => ofL (TL.strconstructload W v t)
  | .attrload => attrload W C rec v t
  | .anyload => ofL (TL.anyload v)
  | .newtypeload => newtypeload W C rec v t
  | .custom i => (W.customLoad i v t).run (loadWith W C rec)
end

/-- Handler calls with at most `n` nested handler calls. -/
def run (W : World) (C : Config) (Γ : Env) : Nat → Rec
  | 0 => fun _ _ _ _ => .div
  | n + 1 => step W C Γ (run W C Γ n)

/-- The reference loader. -/
def load (W : World) (C : Config) (Γ : Env) (n : Nat) (v : Val) (t : Ty) : R Val := loadWith W C (run W C Γ n) v t none

end Ref
end TL
