import Verif.Model.Loader
import Verif.Model.DumpObjects
/-!
# dataloader.py, with object identity

As in `Model/DumpObjects.lean`, every container carries the address of the object.  The handlers say which objects they create, which they pass on, and which
they write to (`d[k] = v`, filling of a collection): the memory keeps a log of the writes.  The caches of the loader are those of `Model/Loader.lean`.

Simplifications: no user handlers (they raise here); the identity of immutable containers is treated like that of the mutable ones (Python has only one empty
tuple, for instance); what `type_(value)` returns is new, but for NewTypes, which return their argument.
-/

namespace TL

namespace AVal
mutual
/-- A value made of new objects only; the first free address is `k`. -/
def build : Val → Nat → AVal × Nat
  | .seq s xs, k => let r := buildL xs (k + 1); (.seq k s r.1, r.2)
  | .dict kvs, k => let r := buildKV kvs (k + 1); (.dict k r.1, r.2)
  | .ns fs, k => let r := buildN fs (k + 1); (.ns k r.1, r.2)
  | .nt c fs, k => let r := buildN fs (k + 1); (.nt k c r.1, r.2)
  | .inst c fs, k => let r := buildN fs (k + 1); (.inst k c r.1, r.2)
  | .none, k => (.atom .none rfl, k)
  | .bool b, k => (.atom (.bool b) rfl, k)
  | .int i, k => (.atom (.int i) rfl, k)
  | .float f, k => (.atom (.float f) rfl, k)
  | .str s, k => (.atom (.str s) rfl, k)
  | .bytes b, k => (.atom (.bytes b) rfl, k)
  | .enumv e n, k => (.atom (.enumv e n) rfl, k)
  | .date a b c, k => (.atom (.date a b c) rfl, k)
  | .time a b c d e, k => (.atom (.time a b c d e) rfl, k)
  | .datetime a b c d e f g h, k => (.atom (.datetime a b c d e f g h) rfl, k)
  | .timedelta u, k => (.atom (.timedelta u) rfl, k)
  | .pattern p, k => (.atom (.pattern p) rfl, k)
  | .strobj c r, k => (.atom (.strobj c r) rfl, k)
  | .opaque c i, k => (.atom (.opaque c i) rfl, k)
def buildL : List Val → Nat → List AVal × Nat
  | [], k => ([], k)
  | x :: xs, k => let r := build x k; let rs := buildL xs r.2; (r.1 :: rs.1, rs.2)
def buildKV : List (Val × Val) → Nat → List (AVal × AVal) × Nat
  | [], k => ([], k)
  | (a, x) :: xs, k => let ra := build a k; let r := build x ra.2; let rs := buildKV xs r.2; ((ra.1, r.1) :: rs.1, rs.2)
def buildN : List (String × Val) → Nat → List (String × AVal) × Nat
  | [], k => ([], k)
  | (n, x) :: xs, k => let r := build x k; let rs := buildN xs r.2; ((n, r.1) :: rs.1, rs.2)
end

/-- A value without parts. -/
def ofAtom (v : Val) : AVal := if h : v.isAtom = true then .atom v h else .atom .none rfl

end AVal

/-- The objects a program holds besides the data.

* `shared c f`: the object that is the default of the field, if there is only one (`none`: there is a factory, which makes a new one);
* `hook c k fs`: what the code of the class run by the constructor (`World.initHook`) makes of the attributes, if `k` is the next free address; it returns the
  attributes and the next free address. -/
structure LObjects (W : World) where
  shared : Nat → String → Option AVal
  shared_erase : ∀ c, ∀ f ∈ (W.cls c).fields, ∀ x, shared c f.name = some x → f.default = some x.erase
  hook : Nat → Nat → List (String × AVal) → Except ExcClass (List (String × AVal) × Nat)
  hook_erase : ∀ c k fs, (hook c k fs).map (fun r => AVal.eraseN r.1) = W.initHook c (AVal.eraseN fs)
  hook_own : ∀ c k fs r k', hook c k fs = .ok (r, k') → k ≤ k' ∧ ∀ a ∈ AVal.addrsN r, a ∈ AVal.addrsN fs ∨ (k ≤ a ∧ a < k')

/-- The caches of the loader, the next free address, and the addresses written to so far. -/
structure AMem where
  ls : LState
  next : Nat
  log : List Nat := []

/-- Computations of the loader that create and write objects. -/
abbrev AL := M AMem Exc

/-- A way to call a handler function. -/
abbrev ARec := Handler → AVal → Ty → AL AVal

/-- A computation that concerns only the caches. -/
def alift {α : Type} (m : L α) : AL α := fun σ =>
  match m σ.ls with
  | .ok a s => .ok a { σ with ls := s }
  | .err e s => .err e { σ with ls := s }
  | .div => .div

/-- A new object. -/
def anew : AL Nat := fun σ => .ok σ.next { σ with next := σ.next + 1 }

/-- A write to the object at `a`. -/
def awrite (a : Nat) : AL Unit := fun σ => .ok () { σ with log := a :: σ.log }

/-- A value made of new objects. -/
def anewVal (v : Val) : AL AVal := fun σ => .ok (AVal.build v σ.next).1 { σ with next := (AVal.build v σ.next).2 }

/-! ## Handlers -/

/-- dataloader.py:263-303 `Loader.load`. -/
def aloadWith (W : World) (C : Config) (rec : ARec) (x : AVal) (t : Ty) (ann : Option Annotation) : AL AVal := do
  let h ← alift (loadResolve W C x.erase t)
  M.rescue (rec h x t) (fun e =>
    if e.isTL then M.throw (e.push ⟨x.erase, t, ann⟩) else M.throw (.plain .assertion))

/-- dataloader.py:306-324 `_forwardrefload` -/
def aforwardrefload (W : World) (C : Config) (rec : ARec) (x : AVal) (t : Ty) : AL AVal :=
  match t with
  | .fref n => do
    let s ← alift M.get
    match s.frefs with
    | none => M.throw (mkExc .tlBase .frefDisabled x.erase t)
    | some fr => match aget fr n with
      | none => M.throw (mkExc .tlValue (.frefUnknown n) x.erase t)
      | some t' => aloadWith W C rec x t' (some (.forwardref n))
  | _ => M.throw (.plain .attr)

/-- dataloader.py:330-338 `_literalload`: the value itself. -/
def aliteralload (x : AVal) (t : Ty) : AL AVal :=
  match t with
  | .lit vs => if pyIn x.erase vs then pure x else M.throw (mkExc .tlValue (.notLiteral t) x.erase t)
  | _ => M.throw (.plain .attr)

/-- `type_(value)`: a new object, except for NewTypes. -/
def acalled (t : Ty) (x : AVal) (r : Val) : AL AVal :=
  match t with
  | .newtype _ _ => pure x
  | _ => anewVal r

/-- dataloader.py:340-363 `_basicload`: the value itself if it has the type. -/
def abasicload (W : World) (C : Config) (x : AVal) (t : Ty) : AL AVal :=
  if typeOf x.erase ≠ t then do
    let r ← alift (basicload W C x.erase t)
    acalled t x r
  else pure x

/-- dataloader.py:809-820, 822-833, 835-839, 799-807: handlers that return new objects (or None). -/
def aleaf (m : L Val) : AL AVal := do
  let r ← alift m
  anewVal r

/-- dataloader.py:883-895 `_strconstructload` -/
def astrconstructload (W : World) (x : AVal) (t : Ty) : AL AVal := do
  let r ← alift (strconstructload W x.erase t)
  acalled t x r

/-- dataloader.py:897 `_newtypeload` -/
def anewtypeload (W : World) (C : Config) (rec : ARec) (x : AVal) (t : Ty) : AL AVal :=
  match t with
  | .newtype _ t' => aloadWith W C rec x t' none
  | _ => M.throw (.plain .attr)

/-! ## Iterables -/

/-- The elements of an iterable: the objects in it (the characters of a string are atoms). -/
def apyIter : AVal → Option (List AVal)
  | .seq _ _ xs => some xs
  | .dict _ kvs => some (kvs.map (·.1))
  | .nt _ _ fs => some (fs.map (·.2))
  | .atom v _ => (pyIter v).map (·.map AVal.ofAtom)
  | _ => none

/-- dataloader.py:929-935: loading one element in `_iterload`. -/
def aiterElem (C : Config) (rec : ARec) (h : Handler) (et : Ty) (x : AVal) : AL AVal :=
  match et with
  | .prim p =>
    if C.isBasic et then (if isInst p x.erase then pure x else rec h x et) else rec h x et
  | .union ts =>
    if ts.all C.isBasic then (if typeOf x.erase ∈ ts then pure x else rec h x et) else rec h x et
  | _ => rec h x et

/-- Adding one element to the collection under construction. -/
def acollAdd (W : World) (k : SeqKind) (acc : List AVal) (x : AVal) : Except ExcClass (List AVal) :=
  if k.isSet then (if W.hash x.erase then .ok (if pyIn x.erase (AVal.eraseL acc) then acc else acc ++ [x]) else .error .type) else .ok (acc ++ [x])

/-- dataloader.py:927-944: the element loop of `_iterload`; the collection under construction is at `a`. -/
def aiterElems (W : World) (C : Config) (rec : ARec) (h : Handler) (k : SeqKind) (et : Ty) (v : Val) (t : Ty) (a : Nat) :
    List AVal → Nat → List AVal → AL (List AVal)
  | [], _, acc => pure acc
  | x :: xs, i, acc =>
    M.handle (aiterElem C rec h et x)
      (fun y => match acollAdd W k acc y with
        | .error c => M.throw (elemError v t i (.plain c))
        | .ok acc' => do
          awrite a
          aiterElems W C rec h k et v t a xs (i + 1) acc')
      (fun e =>
        if usesMap C et && e.cls == .stopIteration then pure acc
        else M.throw (elemError v t i e))

/-- dataloader.py:901-944 `_iterload` -/
def aiterload (W : World) (C : Config) (rec : ARec) (k : SeqKind) (x : AVal) (t : Ty) : AL AVal :=
  if x.erase.isDict then M.throw (mkExc .tlType .dictAsIter x.erase t) else
  match t with
  | .coll _ et => do
    let h ← alift (resolve W C et (mkExc .tlType (.noHandler et) x.erase et))
    match apyIter x with
    | none => M.throw (mkExc .tlType (.py .type) x.erase t)
    | some xs => do
      let a ← anew
      let ys ← aiterElems W C rec h k et x.erase t a xs 0 []
      pure (.seq a k ys)
  | _ => M.throw (.plain .attr)

/-- dataloader.py:443-460: the element loop of `_tupleload`. -/
def atupElems (W : World) (C : Config) (rec : ARec) (v : Val) (t : Ty) (a : Nat) :
    List AVal → List Ty → Nat → AL (List AVal)
  | x :: xs, u :: us, i => do
    let y ← M.rescue
      (do let h ← alift (tupHandler W C u)
          if C.isBasic u && typeOf x.erase == u then pure x else rec h x u)
      (fun e => M.throw (elemError v t i e))
    awrite a
    let ys ← atupElems W C rec v t a xs us (i + 1)
    pure (y :: ys)
  | _, _, _ => pure []

/-- dataloader.py:425-460 `_tupleload`. -/
def atupleload (W : World) (C : Config) (rec : ARec) (x : AVal) (t : Ty) : AL AVal :=
  match t with
  | .coll .tuple _ => aiterload W C rec .tuple x t
  | .tuple ts =>
    if x.erase.isDict then M.throw (mkExc .tlType .dictAsTuple x.erase t) else
    match apyIter x with
    | none => M.throw (.plain .type)
    | some xs =>
      if C.failonextra && xs.length > ts.length then M.throw (mkExc .tlValue (.tooLong t) x.erase t)
      else if xs.length < ts.length then M.throw (mkExc .tlValue (.tooShort t) x.erase t)
      else do
        let a ← anew
        let ys ← atupElems W C rec x.erase t a xs ts 0
        pure (.seq a .tuple ys)
  | _ => M.throw (.plain .attr)

/-! ## Dictionaries -/

/-- dataloader.py:529-543 `_dictequivalence`: a Namespace is copied into a new dictionary, anything else is passed on. -/
def adictequivalence (C : Config) (x : AVal) : AL AVal :=
  match x with
  | .ns _ fs => if C.dictequivalence then do
      let a ← anew
      awrite a
      pure (.dict a (fs.map (fun p => (.str p.1, p.2))))
    else pure x
  | x => pure x

/-- dataloader.py:405-411: the fast comprehension; the new dictionary is at `a`. -/
def adictFast (W : World) (C : Config) (rec : ARec) (kt vt : Ty) (keyF : Handler) (valF : Option Handler) (a : Nat) :
    List (AVal × AVal) → List (AVal × AVal) → AL (List (AVal × AVal))
  | [], acc => pure acc
  | (k, x) :: rest, acc => do
    let k' ← if C.isBasic kt && isInstTy kt k.erase then pure k else rec keyF k kt
    let x' ← if C.isBasic vt && isInstTy vt x.erase then pure x else
      match valF with
      | some h => rec h x vt
      | none => M.throw (.plain .name)
    if W.hash k'.erase then do
      awrite a
      adictFast W C rec kt vt keyF valF a rest (adset acc k' x')
    else M.throw (.plain .type)

/-- dataloader.py:416-420: the slow comprehension; the new dictionary is at `a`. -/
def adictSlow (W : World) (C : Config) (rec : ARec) (kt vt : Ty) (a : Nat) :
    List (AVal × AVal) → List (AVal × AVal) → AL (List (AVal × AVal))
  | [], acc => pure acc
  | (k, x) :: rest, acc => do
    let k' ← aloadWith W C rec k kt (some (.key k.erase))
    let x' ← aloadWith W C rec x vt (some (.value x.erase))
    if W.hash k'.erase then do
      awrite a
      adictSlow W C rec kt vt a rest (adset acc k' x')
    else M.throw (.plain .type)

/-- `value.items()` -/
def aitems : AVal → Option (List (AVal × AVal))
  | .dict _ kvs => some kvs
  | _ => none

/-- dataloader.py:365-423 `_dictload` -/
def adictload (W : World) (C : Config) (rec : ARec) (x : AVal) (t : Ty) : AL AVal :=
  match t with
  | .dict kt vt => do
    let keyF0 ← alift (resolve W C kt (mkExc .tlValue (.noHandlerIn kt t) x.erase kt))
    let (keyF, valF) ← alift (dictValueHandler W C x.erase t vt keyF0)
    let x' ← adictequivalence C x
    M.rescue
      (match aitems x' with
        | none => M.throw (.plain .attr)
        | some kvs => do
          let a ← anew
          let r ← adictFast W C rec kt vt keyF valF a kvs []
          pure (.dict a r))
      (fun _ => M.rescue
        (match aitems x' with
          | none => M.throw (.plain .attr)
          | some kvs => do
            let a ← anew
            let r ← adictSlow W C rec kt vt a kvs []
            pure (.dict a r))
        (fun e => if e.cls.isAttr then M.throw (mkExc .tlAttr .wrapped x'.erase t) else M.throw e))
  | _ => M.throw (.plain .attr)

/-! ## Objects -/

/-- dataloader.py:478-487: the loop of `_mangle_names`, filling the new dictionary at `a`. -/
def amangleLoop (namesmap : List (String × String)) (failonextra : Bool) (a : Nat) :
    List (AVal × AVal) → List (AVal × AVal) → AL (Except ExcClass (List (AVal × AVal)))
  | [], r => pure (.ok r)
  | (k, x) :: rest, r =>
    match k.erase with
    | .str n =>
      if (namesmap.map (·.2)).contains n && (aget namesmap n).isNone then
        if failonextra then pure (.error .value) else amangleLoop namesmap failonextra a rest r
      else match aget namesmap n with
        | some n' => do
          awrite a
          amangleLoop namesmap failonextra a rest (adset r (.str n') x)
        | none => do
          awrite a
          amangleLoop namesmap failonextra a rest (adset r k x)
    | _ => do
      awrite a
      amangleLoop namesmap failonextra a rest (adset r k x)

/-- dataloader.py:463-488 `_mangle_names`: the dictionary itself if there is nothing to rename, else a new one. -/
def amangle_names (namesmap : List (String × String)) (x : AVal) (failonextra : Bool) : AL (Except ExcClass AVal) :=
  if namesmap.isEmpty then pure (.ok x) else
  match aitems x with
  | none => pure (.error .attr)
  | some kvs => do
    let a ← anew
    let r ← amangleLoop namesmap failonextra a kvs []
    pure (r.map (.dict a))

/-- dataloader.py:521-526, 873-879: name mangling with the conversion of its exceptions -/
def amangleOrRaise (C : Config) (tr : List (String × String)) (x : AVal) (t : Ty) : AL AVal := do
  match ← amangle_names tr x C.failonextra with
  | .ok x' => pure x'
  | .error e =>
    if e.isValue then M.throw (mkExc .tlValue (.py e) x.erase t)
    else if e.isAttr then M.throw (mkExc .tlAttr (.py e) x.erase t)
    else M.throw (.plain e)

/-- Value of a field of a new instance: the argument, else the default (the one object, or what the factory makes). -/
def afillField {W : World} (O : LObjects W) (cid : Nat) (params : List (String × AVal)) (f : Field) : AL (Except ExcClass (List (String × AVal))) :=
  match aget params f.name with
  | some x => pure (.ok [(f.name, x)])
  | none => match f.default with
    | some d => match O.shared cid f.name with
      | some x => pure (.ok [(f.name, x)])
      | none => do
        let x ← anewVal d
        pure (.ok [(f.name, x)])
    | none => if f.init then pure (.error .type) else pure (.ok [])

/-- All fields of a new instance. -/
def afillFields {W : World} (O : LObjects W) (cid : Nat) (params : List (String × AVal)) : List Field → AL (Except ExcClass (List (String × AVal)))
  | [] => pure (.ok [])
  | f :: fs => do
    match ← afillField O cid params f with
    | .error e => pure (.error e)
    | .ok p => do
      match ← afillFields O cid params fs with
      | .error e => pure (.error e)
      | .ok ps => pure (.ok (p ++ ps))

/-- The code of the class run by the constructor. -/
def ahook {W : World} (O : LObjects W) (cid : Nat) (fs : List (String × AVal)) : AL (Except ExcClass (List (String × AVal))) := fun σ =>
  match O.hook cid σ.next fs with
  | .ok (r, k) => .ok (.ok r) { σ with next := k }
  | .error e => .ok (.error e) σ

/-- `type_(**params)` (dataloader.py:605): a new object. -/
def aconstruct {W : World} (O : LObjects W) (cid : Nat) (params : List (String × AVal)) : AL (Except ExcClass AVal) :=
  let c := W.cls cid
  match c.kind with
  | .typeddict => do
    let a ← anew
    awrite a
    pure (.ok (.dict a (params.map (fun p => (.str p.1, p.2)))))
  | .namedtuple => do
    let a ← anew
    awrite a
    let r ← afillFields O cid params c.fields
    pure (r.map (.nt a cid))
  | .dataclass | .attrs =>
    if params.all (fun p => isInitArg c p.1) then do
      let a ← anew
      awrite a
      match ← afillFields O cid params c.fields with
      | .error e => pure (.error e)
      | .ok fs => do
        let r ← ahook O cid fs
        pure (r.map (.inst a cid))
    else pure (.error .type)

/-- dataloader.py:577-603: the loop over the data in `_objloader`; the arguments are collected in the new dictionary at `a`. -/
def aobjFields (W : World) (C : Config) (rec : ARec) (info : ObjInfo) (v : Val) (t : Ty) (a : Nat) :
    List (AVal × AVal) → List (String × AVal) → AL (List (String × AVal))
  | [], acc => pure acc
  | (k, x) :: rest, acc =>
    match k.erase with
    | .str n =>
      if info.fields.contains n then
        match aget info.hints n with
        | none => M.throw (.plain (.other 1))
        | some ft => do
          let h ← alift (resolve W C ft (mkExc .tlType (.noHandler ft) v ft))
          let y ← M.rescue (rec h x ft) (fun e =>
            if e.isTL then M.throw (e.push ⟨v, t, some (.field n)⟩) else M.throw e)
          awrite a
          aobjFields W C rec info v t a rest (aset acc n y)
      else aobjFields W C rec info v t a rest acc
    | _ => aobjFields W C rec info v t a rest acc

/-- dataloader.py:549-558: the dictionary behind the value given to `_objloader`; a new one for a Namespace. -/
def aobjItems (C : Config) (x : AVal) : AL (Option (AVal × List (AVal × AVal))) :=
  match x with
  | .dict _ kvs => pure (some (x, kvs))
  | .ns _ fs =>
    if C.dictequivalence then do
      let a ← anew
      awrite a
      pure (some (.dict a (fs.map (fun p => (.str p.1, p.2))), fs.map (fun p => (.str p.1, p.2))))
    else pure none
  | _ => pure none

/-- dataloader.py:545-610 `_objloader` -/
def aobjloader (W : World) (C : Config) (O : LObjects W) (rec : ARec) (info : ObjInfo) (x : AVal) (cid : Nat) : AL AVal := do
  match ← aobjItems C x with
  | none => M.throw (mkExc .tlAttr (.py .attr) x.erase (.obj cid))
  | some (x, kvs) =>
    if !info.necessary.all (fun n => dhas (AVal.eraseKV kvs) (.str n)) then
      M.throw (mkExc .tlValue (.missing (info.necessary.filter (fun n => !dhas (AVal.eraseKV kvs) (.str n)))) x.erase (.obj cid))
    else if C.failonextra && !(extraKeys info (AVal.eraseKV kvs)).isEmpty then
      if (extraKeys info (AVal.eraseKV kvs)).all (fun k => typeOf k == .prim .str) then
        M.throw (mkExc .tlValue (.extra (extraKeys info (AVal.eraseKV kvs))) x.erase (.obj cid))
      else M.throw (.plain .type)
    else do
      let a ← anew
      let params ← aobjFields W C rec info x.erase (.obj cid) a kvs []
      match ← aconstruct O cid params with
      | .ok r => pure r
      | .error e =>
        if e.isType then M.throw (mkExc0 .tlType (.py e))
        else if e.isValue then M.throw (mkExc0 .tlValue (.py e))
        else M.throw (.plain e)

/-- dataloader.py:612-625 `_namedtupleload` -/
def anamedtupleload (W : World) (C : Config) (O : LObjects W) (rec : ARec) (x : AVal) (t : Ty) : AL AVal :=
  match t with
  | .obj c =>
    if (W.cls c).kind = .namedtuple then aobjloader W C O rec (namedtupleInfo (W.cls c)) x c
    else M.throw (.plain .attr)
  | _ => M.throw (.plain .attr)

/-- dataloader.py:490-527 `_dataclassload` -/
def adataclassload (W : World) (C : Config) (O : LObjects W) (rec : ARec) (x : AVal) (t : Ty) : AL AVal :=
  match t with
  | .obj c =>
    if (W.cls c).kind = .dataclass then do
      let info ← alift (dataclassCached W C c)
      let x' ← amangleOrRaise C info.transforms x t
      aobjloader W C O rec info x' c
    else M.throw (.plain .attr)
  | _ => M.throw (.plain .attr)

/-- dataloader.py:857-881 `_attrload` -/
def aattrload (W : World) (C : Config) (O : LObjects W) (rec : ARec) (x : AVal) (t : Ty) : AL AVal :=
  match t with
  | .obj c =>
    if (W.cls c).kind = .attrs then
      match attrHints (W.cls c).fields with
      | .error e => M.throw (.plain e)
      | .ok hints => do
        let x' ← amangleOrRaise C (attrInfo W C (W.cls c).fields hints).transforms x t
        aobjloader W C O rec (attrInfo W C (W.cls c).fields hints) x' c
    else M.throw (.plain .attr)
  | _ => M.throw (.plain .attr)

/-- dataloader.py:627-652 `_typeddictload` -/
def atypeddictload (W : World) (C : Config) (O : LObjects W) (rec : ARec) (x : AVal) (t : Ty) : AL AVal :=
  match t with
  | .obj c =>
    if (W.cls c).kind = .typeddict then do
      let s ← alift M.get
      alift (M.modify (rewriteAnnotations W c))
      aobjloader W C O rec (typeddictInfo (W.cls c) (s.tdRew.contains c)) x c
    else M.throw (.plain .attr)
  | _ => M.throw (.plain .attr)

/-! ## Unions and Enums -/

/-- dataloader.py:706-739: the loop over the members. -/
def aunionTry (W : World) (C : Config) (rec : ARec) (x : AVal) (t : Ty) :
    List Ty → Nat → AVal → List Exc → AL (Nat × AVal × List Exc)
  | [], c, r, es => pure (c, r, es)
  | u :: us, c, r, es =>
    M.handle
      (do let h ← alift (resolve W C u (mkExc .tlValue (.noHandlerIn u t) x.erase u))
          rec h x u)
      (fun y =>
        if C.uniondebugconflict then aunionTry W C rec x t us (c + 1) y es
        else pure (c + 1, y, es))
      (fun e =>
        if e.isTL then aunionTry W C rec x t us c r (es ++ [e.push ⟨x.erase, t, some (.union u)⟩])
        else M.throw e)

/-- dataloader.py:654-759 `_unionload` -/
def aunionload (W : World) (C : Config) (rec : ARec) (x : AVal) (t : Ty) : AL AVal :=
  match t with
  | .union ts =>
    if C.isBasic (typeOf x.erase) && ts.contains (typeOf x.erase) then pure x else do
    let order ← alift (unionOrder W C x.erase ts)
    let (c, r, es) ← aunionTry W C rec x t order 0 (.atom .none rfl) []
    if c = 1 then pure r
    else if c = 0 then M.throw (mkExcSubs .tlValue (.unionNone t) x.erase t es)
    else M.throw (mkExcSubs .tlType (.unionMany t c) x.erase t es)
  | _ => M.throw (.plain .attr)

/-- dataloader.py:778-784: trying the type hints of the Enum; the members are objects of the program. -/
def aenumHints (W : World) (C : Config) (rec : ARec) (x : AVal) (e : Nat) : List Ty → List Exc → AL AVal
  | [], es => M.throw (mkExcSubs .tlValue (.enumNone (.enum e)) x.erase (.enum e) es)
  | u :: us, es =>
    M.rescue
      (do let y ← aloadWith W C rec x u (some (.union u))
          match enumCall W e y.erase with
          | some m => pure (.ofAtom m)
          | none => M.throw (.plain .value))
      (fun ex => aenumHints W C rec x e us (es ++ [ex]))

/-- dataloader.py:761-797 `_enumload` -/
def aenumload (W : World) (C : Config) (rec : ARec) (x : AVal) (t : Ty) : AL AVal :=
  match t with
  | .enum e => match enumCall W e x.erase with
    | some m => pure (.ofAtom m)
    | none => aenumHints W C rec x e (W.enm e).hints []
  | _ => M.throw (.plain .attr)

/-! ## Tying the knot -/

/-- Calling a handler function. -/
def astep (W : World) (C : Config) (O : LObjects W) (rec : ARec) : ARec := fun h x t =>
  match h with
  | .noneload => aleaf (noneload x.erase t)
  | .unionload => aunionload W C rec x t
  | .basicload => abasicload W C x t
  | .enumload => aenumload W C rec x t
  | .tupleload => atupleload W C rec x t
  | .listload => aiterload W C rec .list x t
  | .dictload => adictload W C rec x t
  | .setload => aiterload W C rec .set x t
  | .frozensetload => aiterload W C rec .frozenset x t
  | .namedtupleload => anamedtupleload W C O rec x t
  | .dataclassload => adataclassload W C O rec x t
  | .forwardrefload => aforwardrefload W C rec x t
  | .literalload => aliteralload x t
  | .typeddictload => atypeddictload W C O rec x t
  | .datetimeload => aleaf (datetimeload W x.erase t)
  | .patternload => aleaf (patternload W x.erase t)
  | .timedeltaload => aleaf (timedeltaload W x.erase t)
  | .strconstructload => astrconstructload W x t
  | .attrload => aattrload W C O rec x t
  | .anyload => pure x
  | .newtypeload => anewtypeload W C rec x t
  | .custom _ => M.throw (.plain .notImplemented)

/-- Handler calls with at most `n` nested handler calls. -/
def arun (W : World) (C : Config) (O : LObjects W) : Nat → ARec
  | 0 => fun _ _ _ _ => .div
  | n + 1 => astep W C O (arun W C O n)

/-- `Loader.load(value, type_)`. -/
def aload (W : World) (C : Config) (O : LObjects W) (n : Nat) (x : AVal) (t : Ty) : AL AVal := aloadWith W C (arun W C O n) x t none

end TL
