import Verif.Model.Loader
/-!
# Generators as data

`load` accepts any iterable where a list is expected, in particular generators and other iterators, which can be gone through only once and may raise an
exception (tests/test_dataloader.py:186-240 load generators).  The generator is the value passed to `load`; its elements are ordinary values.  The handlers of
`Model/Loader.lean` that take elements of it, or pass it on, are written once more with the elements not yet taken as additional state; the other
handlers cannot do anything with a generator but refuse it (`Any` returns it), and are used as they are.

Simplifications: generators inside other data are not modelled; calling a class on a generator (`bytes(g)`, constructors of `strconstructed` classes and of the basic types added
by the user) takes no elements of it; neither do handlers of the user.
-/

namespace TL.G

/-- A generator: the elements it has not yet produced, and the exception (of the generator's own making: no TypedloadException, and no StopIteration, which generators cannot raise) that it raises after them, if any. -/
structure Gen where
  rest : List Val
  fails : Option ExcClass := none
  deriving DecidableEq, Repr

/-- The generator as an object: not a dict, str, ...; it has no `len`. -/
def gobj : Val := .opaque "generator" 0

/-- Computations on a loader and a generator. -/
abbrev G := M (LState × Gen) Exc

/-- A computation that leaves the generator alone. -/
def lift {α : Type} (m : L α) : G α := fun p =>
  match m p.1 with
  | .ok a s => .ok a (s, p.2)
  | .err e s => .err e (s, p.2)
  | .div => .div

/-- Calling a handler with the generator as value. -/
abbrev GRec := Handler → Ty → G Val

/-- dataloader.py:927-944: the element loop of `_iterload`, taking the elements from the generator.  An exception of the generator itself is turned into a TypedloadTypeError, as one of
the element handler would be. -/
def iterElems (W : World) (C : Config) (rec : Rec) (h : Handler) (k : SeqKind) (et : Ty) (t : Ty) (f : Option ExcClass) :
    List Val → Nat → List Val → LState → Res (LState × Gen) Exc (List Val)
  | [], i, acc, s => match f with
    | none => .ok acc (s, ⟨[], none⟩)
    | some c => .err (elemError gobj t i (.plain c)) (s, ⟨[], none⟩)
  | x :: xs, i, acc, s =>
    match iterElem C rec h et x s with
    | .ok y s' => match collAdd W k acc y with
      | .error c => .err (elemError gobj t i (.plain c)) (s', ⟨xs, f⟩)
      | .ok acc' => iterElems W C rec h k et t f xs (i + 1) acc' s'
    | .err e s' =>
      if usesMap C et && e.cls == .stopIteration then .ok acc (s', ⟨xs, f⟩)
      else .err (elemError gobj t i e) (s', ⟨xs, f⟩)
    | .div => .div

/-- dataloader.py:927-944: the collection holding what the loop produces -/
def iterAll (W : World) (C : Config) (rec : Rec) (h : Handler) (k : SeqKind) (et : Ty) (t : Ty) : G Val := fun p =>
  match iterElems W C rec h k et t p.2.fails p.2.rest 0 [] p.1 with
  | .ok ys p' => .ok (.seq k ys) p'
  | .err e p' => .err e p'
  | .div => .div

/-- dataloader.py:901-944 `_iterload` on a generator -/
def iterload (W : World) (C : Config) (rec : Rec) (k : SeqKind) (t : Ty) : G Val :=
  match t with
  | .coll _ et => do
    let h ← lift (resolve W C et (mkExc .tlType (.noHandler et) gobj et))
    iterAll W C rec h k et t
  | _ => M.throw (.plain .attr)

/-- dataloader.py:809-820 `_datetimeload` on a generator: `type_(*value)` takes all the elements. -/
def datetimeload (t : Ty) : G Val :=
  match t with
  | .dt k => fun p =>
    match (match p.2.fails with
      | some c => .error c
      | none => dtCall k p.2.rest : Except ExcClass Val) with
    | .ok x => .ok x (p.1, ⟨[], none⟩)
    | .error e =>
      .err (if e.isType then mkExc .tlType (.py e) gobj t
        else if e.isValue then mkExc .tlValue (.py e) gobj t
        else .plain e) (p.1, ⟨[], none⟩)
  | _ => M.throw (.plain .attr)

/-- dataloader.py:263-303 `Loader.load` -/
def loadWith (W : World) (C : Config) (grec : GRec) (t : Ty) (ann : Option Annotation) : G Val := do
  let h ← lift (loadResolve W C gobj t)
  M.rescue (grec h t) (fun e =>
    if e.isTL then M.throw (e.push ⟨gobj, t, ann⟩) else M.throw (.plain .assertion))

/-- dataloader.py:306-324 `_forwardrefload` -/
def forwardrefload (W : World) (C : Config) (grec : GRec) (t : Ty) : G Val :=
  match t with
  | .fref n => fun p =>
    match p.1.frefs with
    | none => .err (mkExc .tlBase .frefDisabled gobj t) p
    | some fr => match aget fr n with
      | none => .err (mkExc .tlValue (.frefUnknown n) gobj t) p
      | some t' => loadWith W C grec t' (some (.forwardref n)) p
  | _ => M.throw (.plain .attr)

/-- dataloader.py:897-898 `_newtypeload` -/
def newtypeload (W : World) (C : Config) (grec : GRec) (t : Ty) : G Val :=
  match t with
  | .newtype _ u => loadWith W C grec u none
  | _ => M.throw (.plain .attr)

/-- dataloader.py:706-739: the loop over the members of a union; each gets the generator as the previous ones left it. -/
def unionTry (W : World) (C : Config) (grec : GRec) (t : Ty) :
    List Ty → Nat → Val → List Exc → G (Nat × Val × List Exc)
  | [], c, r, es => pure (c, r, es)
  | u :: us, c, r, es =>
    M.handle
      (do let h ← lift (resolve W C u (mkExc .tlValue (.noHandlerIn u t) gobj u))
          grec h u)
      (fun x =>
        if C.uniondebugconflict then unionTry W C grec t us (c + 1) x es
        else pure (c + 1, x, es))
      (fun e =>
        if e.isTL then unionTry W C grec t us c r (es ++ [e.push ⟨gobj, t, some (.union u)⟩])
        else M.throw e)

/-- dataloader.py:654-759 `_unionload`; the class of a generator is no member, and it has no discriminator. -/
def unionload (W : World) (C : Config) (grec : GRec) (t : Ty) : G Val :=
  match t with
  | .union ts => do
    let (c, r, es) ← unionTry W C grec t (sortArgs C ts) 0 .none []
    if c = 1 then pure r
    else if c = 0 then M.throw (mkExcSubs .tlValue (.unionNone t) gobj t es)
    else M.throw (mkExcSubs .tlType (.unionMany t c) gobj t es)
  | _ => M.throw (.plain .attr)

/-- dataloader.py:778-784: trying the type hints of the Enum -/
def enumHints (W : World) (C : Config) (grec : GRec) (e : Nat) : List Ty → List Exc → G Val
  | [], es => M.throw (mkExcSubs .tlValue (.enumNone (.enum e)) gobj (.enum e) es)
  | u :: us, es =>
    M.rescue
      (do let x ← loadWith W C grec u (some (.union u))
          match enumCall W e x with
          | some m => pure m
          | none => M.throw (.plain .value))
      (fun ex => enumHints W C grec e us (es ++ [ex]))

/-- dataloader.py:761-797 `_enumload` -/
def enumload (W : World) (C : Config) (grec : GRec) (t : Ty) : G Val :=
  match t with
  | .enum e => match enumCall W e gobj with
    | some m => pure m
    | none => enumHints W C grec e (W.enm e).hints []
  | _ => M.throw (.plain .attr)

/-- Calling a handler on the generator.  `Tuple[a, b]` calls `len` on it, which fails at once. -/
def step (W : World) (C : Config) (rec : Rec) (grec : GRec) : GRec := fun h t =>
  match h with
  | .unionload => unionload W C grec t
  | .enumload => enumload W C grec t
  | .tupleload => match t with
    | .coll .tuple _ => iterload W C rec .tuple t
    | _ => lift (TL.step W C rec .tupleload gobj t)
  | .listload => iterload W C rec .list t
  | .setload => iterload W C rec .set t
  | .frozensetload => iterload W C rec .frozenset t
  | .forwardrefload => forwardrefload W C grec t
  | .datetimeload => datetimeload t
  | .newtypeload => newtypeload W C grec t
  | h => lift (TL.step W C rec h gobj t)

/-- Handler calls with at most `n` nested handler calls. -/
def run (W : World) (C : Config) : Nat → GRec
  | 0 => fun _ _ _ => .div
  | n + 1 => step W C (TL.run W C n) (run W C n)

/-- `Loader.load(generator, type_)` -/
def load (W : World) (C : Config) (n : Nat) (t : Ty) : G Val := loadWith W C (run W C n) t none

end TL.G
