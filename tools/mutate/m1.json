[
 {
  "id": "M01",
  "file": "Verif/Model/Loader.lean",
  "def": "indexFrom",
  "old": "    | .ok true => .ok i\n",
  "new": "    | .ok true => .ok (i + 1)\n",
  "edit": "index returns the position after the match (off by one)",
  "claims": [
   "C01",
   "C46"
  ],
  "claim": "index(T) is the first accepting handler"
 },
 {
  "id": "M02",
  "file": "Verif/Model/Loader.lean",
  "def": "indexFrom",
  "old": "if C.raiseconditionerrors then .error e else indexFrom",
  "new": "if !C.raiseconditionerrors then .error e else indexFrom",
  "edit": "raiseconditionerrors test inverted",
  "claims": [
   "C02"
  ],
  "claim": "a raising condition aborts iff raiseconditionerrors"
 },
 {
  "id": "M03",
  "file": "Verif/Model/Loader.lean",
  "def": "resolve",
  "old": "    | .ok h => do M.modify (fun s => { s with idx := aset s.idx t h }); pure h\n    | .error e => if e.isValue then M.throw missing",
  "new": "    | .ok h => do M.modify (fun s => { s with idx := aset s.idx t .anyload }); pure h\n    | .error e => if e.isValue then M.throw missing",
  "edit": "the cache remembers the wrong handler",
  "claims": [
   "C06",
   "C07",
   "C03"
  ],
  "claim": "cached handlers are the right ones"
 },
 {
  "id": "M04",
  "file": "Verif/Model/Loader.lean",
  "def": "registerName",
  "old": "      | some _ => s\n",
  "new": "      | some _ => { s with frefs := some (aset fr n t) }\n",
  "edit": "a known name is rebound",
  "claims": [
   "C08"
  ],
  "claim": "a name in frefs is never rebound"
 },
 {
  "id": "M05",
  "file": "Verif/Model/Loader.lean",
  "def": "loadWith",
  "old": "    if e.isTL then M.throw (e.push ⟨v, t, ann⟩) else M.throw (.plain .assertion))\n\n/-! ## Simple",
  "new": "    M.throw (e.push ⟨v, t, ann⟩))\n\n/-! ## Simple",
  "edit": "load forwards foreign exceptions",
  "claims": [
   "C04"
  ],
  "claim": "only TypedloadException or AssertionError leave load"
 },
 {
  "id": "M06",
  "file": "Verif/Model/Loader.lean",
  "def": "loadWith",
  "old": "M.throw (e.push ⟨v, t, ann⟩) else M.throw (.plain .assertion))\n\n/-! ## Simple",
  "new": "M.throw e else M.throw (.plain .assertion))\n\n/-! ## Simple",
  "edit": "load does not add to the trace",
  "claims": [
   "C31"
  ],
  "claim": "the first trace item carries value and type given to load"
 },
 {
  "id": "M07",
  "file": "Verif/Model/Loader.lean",
  "def": "forwardrefload",
  "old": "    | none => M.throw (mkExc .tlBase .frefDisabled v t)\n",
  "new": "    | none => pure v\n",
  "edit": "forward references disabled: value passed through",
  "claims": [
   "C08",
   "C03"
  ],
  "claim": "frefs=None raises"
 },
 {
  "id": "M08",
  "file": "Verif/Model/Loader.lean",
  "def": "literalload",
  "old": "if pyIn v vs then pure v else",
  "new": "if pyIn v (vs.drop 1) then pure v else",
  "edit": "first literal skipped",
  "claims": [
   "C26"
  ],
  "claim": "a value equal to an allowed literal loads"
 },
 {
  "id": "M09",
  "file": "Verif/Model/Loader.lean",
  "def": "literalload",
  "old": "if pyIn v vs then pure v else",
  "new": "if pyIn v vs then pure (vs.headD v) else",
  "edit": "returns the first literal instead of the value",
  "claims": [
   "C26",
   "C03"
  ],
  "claim": "Literal returns the value itself"
 },
 {
  "id": "M10",
  "file": "Verif/Model/Loader.lean",
  "def": "enumCall",
  "old": "((W.enm e).members.find? (fun m => pyEq m.2 v))",
  "new": "((W.enm e).members.reverse.find? (fun m => pyEq m.2 v))",
  "edit": "last member instead of first",
  "claims": [
   "C27"
  ],
  "claim": "value equal to a member loads to the first such member"
 },
 {
  "id": "M11",
  "file": "Verif/Model/Loader.lean",
  "def": "basicload",
  "old": "  if typeOf v ≠ t then\n",
  "new": "  if typeOf v ≠ t && v != .none then\n",
  "edit": "None passes as any basic type",
  "claims": [
   "C03",
   "C23"
  ],
  "claim": "result is an instance of the basic type"
 },
 {
  "id": "M12",
  "file": "Verif/Model/Loader.lean",
  "def": "basicload",
  "old": "else M.throw (mkExc .tlValue (.wrongType v t) v t)\n  else pure v\n\n/-- dataloader.py:799",
  "new": "else (match pyCall W t v with\n      | .ok r => pure r\n      | .error _ => M.throw (mkExc .tlValue (.wrongType v t) v t))\n  else pure v\n\n/-- dataloader.py:799",
  "edit": "casts although basiccast=False",
  "claims": [
   "C23"
  ],
  "claim": "basiccast=False never converts"
 },
 {
  "id": "M13",
  "file": "Verif/Model/Loader.lean",
  "def": "basicload",
  "old": "        else M.throw (mkExc .tlBase (.py e) v t)\n    else M.throw (mkExc .tlValue (.wrongType",
  "new": "        else M.throw (.plain e)\n    else M.throw (mkExc .tlValue (.wrongType",
  "edit": "other constructor exceptions not wrapped",
  "claims": [
   "C05",
   "C10"
  ],
  "claim": "load failures are TypedloadException"
 },
 {
  "id": "M14",
  "file": "Verif/Model/Loader.lean",
  "def": "noneload",
  "old": "if v = .none then pure .none",
  "new": "if v = .none ∨ v = .str \"\" then pure .none",
  "edit": "empty string accepted as None",
  "claims": [
   "C28"
  ],
  "claim": "None accepts only None"
 },
 {
  "id": "M15",
  "file": "Verif/Model/Loader.lean",
  "def": "newtypeload",
  "old": "  | .newtype _ t' => loadWith W C rec v t' none\n",
  "new": "  | .newtype _ _ => pure v\n",
  "edit": "NewType returns the value unchecked",
  "claims": [
   "C28",
   "C03"
  ],
  "claim": "NewType behaves as its base type"
 },
 {
  "id": "M16",
  "file": "Verif/Model/Loader.lean",
  "def": "iterElem",
  "old": "if isInst p x then pure x else rec h x et) else rec h x et\n  | .union",
  "new": "if isInst p x then pure x else pure x) else rec h x et\n  | .union",
  "edit": "elements of basic type not converted",
  "claims": [
   "C15",
   "C03"
  ],
  "claim": "every element has the element type"
 },
 {
  "id": "M17",
  "file": "Verif/Model/Loader.lean",
  "def": "iterElem",
  "old": "if typeOf x ∈ ts then pure x else rec h x et) else rec h x et\n  | _",
  "new": "if typeOf x ∉ ts then pure x else rec h x et) else rec h x et\n  | _",
  "edit": "test of the union fast path inverted",
  "claims": [
   "C15",
   "C03"
  ],
  "claim": "elements belong to the union"
 },
 {
  "id": "M18",
  "file": "Verif/Model/Loader.lean",
  "def": "iterElems",
  "old": "        | .ok acc' => iterElems W C rec h k et v t xs (i + 1) acc')",
  "new": "        | .ok acc' => iterElems W C rec h k et v t xs i acc')",
  "edit": "index not advanced",
  "claims": [
   "C15",
   "C31"
  ],
  "claim": "the error carries the index of the bad element"
 },
 {
  "id": "M19",
  "file": "Verif/Model/Loader.lean",
  "def": "collAdd",
  "old": "if k.isSet then (if W.hash x then .ok (setAdd acc x) else .error .type) else .ok (acc ++ [x])",
  "new": "if k.isSet then (if W.hash x then .ok (setAdd acc x) else .error .type) else .ok (x :: acc)",
  "edit": "elements prepended",
  "claims": [
   "C15"
  ],
  "claim": "order of elements"
 },
 {
  "id": "M20",
  "file": "Verif/Model/Loader.lean",
  "def": "iterload",
  "old": "  if v.isDict then M.throw (mkExc .tlType .dictAsIter v t) else\n",
  "new": "",
  "edit": "dictionaries accepted as iterables",
  "claims": [
   "C15"
  ],
  "claim": "dictionaries are refused"
 },
 {
  "id": "M21",
  "file": "Verif/Model/Loader.lean",
  "def": "tupleload",
  "old": "C.failonextra && xs.length > ts.length",
  "new": "C.failonextra && xs.length ≥ ts.length",
  "edit": "boundary: exact length refused under failonextra",
  "claims": [
   "C16"
  ],
  "claim": "tuple of the exact size loads"
 },
 {
  "id": "M22",
  "file": "Verif/Model/Loader.lean",
  "def": "tupleload",
  "old": "else if xs.length < ts.length then M.throw (mkExc .tlValue (.tooShort t) v t)\n",
  "new": "else if xs.length + 1 < ts.length then M.throw (mkExc .tlValue (.tooShort t) v t)\n",
  "edit": "boundary: one missing element accepted",
  "claims": [
   "C16",
   "C03"
  ],
  "claim": "shorter value refused"
 },
 {
  "id": "M23",
  "file": "Verif/Model/Loader.lean",
  "def": "tupleload",
  "old": "C.failonextra && xs.length > ts.length",
  "new": "xs.length > ts.length",
  "edit": "longer value refused without failonextra",
  "claims": [
   "C16"
  ],
  "claim": "tail ignored without failonextra"
 },
 {
  "id": "M24",
  "file": "Verif/Model/Loader.lean",
  "def": "tupElems",
  "old": "if C.isBasic u && typeOf x == u then pure x else rec h x u",
  "new": "if C.isBasic u then pure x else rec h x u",
  "edit": "basic positions not checked",
  "claims": [
   "C16",
   "C03"
  ],
  "claim": "element i has type i"
 },
 {
  "id": "M25",
  "file": "Verif/Model/Loader.lean",
  "def": "dictequivalence",
  "old": "if C.dictequivalence then .dict",
  "new": "if true then .dict",
  "edit": "dictequivalence option ignored",
  "claims": [
   "C29"
  ],
  "claim": "Namespace refused with dictequivalence=False"
 },
 {
  "id": "M26",
  "file": "Verif/Model/Loader.lean",
  "def": "dictSlow",
  "old": "    if W.hash k' then dictSlow W C rec kt vt rest (dset acc k' x') else",
  "new": "    if W.hash k' then dictSlow W C rec kt vt rest (dset acc k x') else",
  "edit": "the unloaded key is stored",
  "claims": [
   "C17",
   "C03"
  ],
  "claim": "keys are loaded"
 },
 {
  "id": "M27",
  "file": "Verif/Model/Loader.lean",
  "def": "dictFast",
  "old": "    if W.hash k' then dictFast W C rec kt vt keyF valF rest (dset acc k' x') else",
  "new": "    if W.hash k' then dictFast W C rec kt vt keyF valF rest (if dhas acc k' then acc else dset acc k' x') else",
  "edit": "first one wins",
  "claims": [
   "C17"
  ],
  "claim": "last equal key wins"
 },
 {
  "id": "M28",
  "file": "Verif/Model/Loader.lean",
  "def": "dictFast",
  "old": "    let x' ← if C.isBasic vt && isInstTy vt x then pure x else\n",
  "new": "    let x' ← if C.isBasic vt then pure x else\n",
  "edit": "basic values not checked",
  "claims": [
   "C17",
   "C03"
  ],
  "claim": "values are loaded"
 },
 {
  "id": "M29",
  "file": "Verif/Model/Loader.lean",
  "def": "mangleLoop",
  "old": "      if (namesmap.map (·.2)).contains n && (aget namesmap n).isNone then\n        if failonextra then .error .value else mangleLoop namesmap failonextra rest r\n      else match",
  "new": "      match",
  "edit": "Python name of a renamed field accepted",
  "claims": [
   "C22"
  ],
  "claim": "Python name not accepted"
 },
 {
  "id": "M30",
  "file": "Verif/Model/Loader.lean",
  "def": "mangleLoop",
  "old": "        | some n' => mangleLoop namesmap failonextra rest (dset r (.str n') x)\n",
  "new": "        | some n' => mangleLoop namesmap failonextra rest (dset (dset r (.str n') x) k x)\n",
  "edit": "renamed key kept as well",
  "claims": [
   "C20",
   "C22"
  ],
  "claim": "swapped names do not merge"
 },
 {
  "id": "M31",
  "file": "Verif/Model/Loader.lean",
  "def": "fillField",
  "old": "    | some d => .ok [(f.name, d)]\n    | none => if f.init",
  "new": "    | some _ => .ok [(f.name, .none)]\n    | none => if f.init",
  "edit": "default replaced by None",
  "claims": [
   "C21",
   "C03"
  ],
  "claim": "missing fields get the default"
 },
 {
  "id": "M32",
  "file": "Verif/Model/Loader.lean",
  "def": "objFields",
  "old": "      else objFields W C rec info v t rest acc\n    | _ =>",
  "new": "      else objFields W C rec info v t rest (aset acc n x)\n    | _ =>",
  "edit": "unknown keys are stored",
  "claims": [
   "C19",
   "C30"
  ],
  "claim": "unknown keys do not influence the result"
 },
 {
  "id": "M33",
  "file": "Verif/Model/Loader.lean",
  "def": "objFields",
  "old": "e.push ⟨v, t, some (.field n)⟩",
  "new": "e.push ⟨v, t, none⟩",
  "edit": "field annotation lost",
  "claims": [
   "C31"
  ],
  "claim": "trace locates the fault"
 },
 {
  "id": "M34",
  "file": "Verif/Model/Loader.lean",
  "def": "objloader",
  "old": "if !info.necessary.all (fun n => dhas kvs (.str n)) then",
  "new": "if !info.necessary.any (fun n => dhas kvs (.str n)) then",
  "edit": "any instead of all",
  "claims": [
   "C18"
  ],
  "claim": "missing required fields refused"
 },
 {
  "id": "M35",
  "file": "Verif/Model/Loader.lean",
  "def": "objloader",
  "old": "    else if C.failonextra && !(extraKeys info kvs).isEmpty then\n",
  "new": "    else if C.failonextra && (extraKeys info kvs).length > 1 then\n",
  "edit": "a single unknown key accepted",
  "claims": [
   "C20"
  ],
  "claim": "failonextra refuses unknown keys"
 },
 {
  "id": "M36",
  "file": "Verif/Model/Loader.lean",
  "def": "objloader",
  "old": "        if e.isType then M.throw (mkExc0 .tlType (.py e))\n        else if e.isValue",
  "new": "        if e.isValue",
  "edit": "TypeError of the constructor not wrapped",
  "claims": [
   "C05"
  ],
  "claim": "failures are TypedloadException"
 },
 {
  "id": "M37",
  "file": "Verif/Model/Loader.lean",
  "def": "namedtupleInfo",
  "old": "  necessary := (c.fields.filter (fun f => f.default.isNone)).map (·.name)\n  hints := c.fields.map (fun f => (f.name, f.ty))\n  transforms := []\n\n/-- dataloader.py:612-625 `_namedtupleload`",
  "new": "  necessary := []\n  hints := c.fields.map (fun f => (f.name, f.ty))\n  transforms := []\n\n/-- dataloader.py:612-625 `_namedtupleload`",
  "edit": "necessary fields of NamedTuple dropped",
  "claims": [
   "C18"
  ],
  "claim": "missing required field gives TypedloadValueError"
 },
 {
  "id": "M38",
  "file": "Verif/Model/Loader.lean",
  "def": "dataclassInfo",
  "old": "    | some n => if n = \"\" then acc else aset acc n f.name",
  "new": "    | some n => if n = \"\" then acc else aset acc f.name n",
  "edit": "transform map inverted",
  "claims": [
   "C22",
   "C44"
  ],
  "claim": "data key is the mangled name"
 },
 {
  "id": "M39",
  "file": "Verif/Model/Loader.lean",
  "def": "convType",
  "old": "    | t :: _ => .ok t\n",
  "new": "    | t :: _ => .ok (if cv.ret then .any else t)\n",
  "edit": "converter with return annotation is untyped",
  "claims": [
   "C37"
  ],
  "claim": "converter parameter type used"
 },
 {
  "id": "M40",
  "file": "Verif/Model/Loader.lean",
  "def": "typeddictInfo",
  "old": "f.required && !(f.notRequired && !rew)",
  "new": "f.required",
  "edit": "NotRequired ignored when listing necessary fields",
  "claims": [
   "C30"
  ],
  "claim": "NotRequired keys not required"
 },
 {
  "id": "M41",
  "file": "Verif/Model/Loader.lean",
  "def": "typeddictInfo",
  "old": "f.required && !(f.notRequired && !rew)",
  "new": "f.required && !(f.notRequired && rew)",
  "edit": "NotRequired honoured only from the second load on",
  "claims": [
   "C30",
   "C06"
  ],
  "claim": "repeated loads do not change what is required"
 },
 {
  "id": "M42",
  "file": "Verif/Model/Loader.lean",
  "def": "sortArgs",
  "old": "  ts.filter (fun t => !C.isBasic t) ++ ts.filter (fun t => C.isBasic t)",
  "new": "  ts.filter (fun t => C.isBasic t) ++ ts.filter (fun t => !C.isBasic t)",
  "edit": "basic members first",
  "claims": [
   "C11"
  ],
  "claim": "non-basic members tried first"
 },
 {
  "id": "M43",
  "file": "Verif/Model/Loader.lean",
  "def": "sortArgs",
  "old": "  ts.filter (fun t => !C.isBasic t) ++ ts.filter (fun t => C.isBasic t)",
  "new": "  ts.filter (fun t => !C.isBasic t) ++ (ts.filter (fun t => C.isBasic t)).take 1",
  "edit": "only one basic member tried",
  "claims": [
   "C10",
   "C11",
   "C12"
  ],
  "claim": "every member is tried"
 },
 {
  "id": "M44",
  "file": "Verif/Model/Loader.lean",
  "def": "bump",
  "old": "def bump (ts : List Ty) (t : Ty) : List Ty := t :: ts.erase t",
  "new": "def bump (ts : List Ty) (t : Ty) : List Ty := ts.erase t ++ [t]",
  "edit": "preferred member last",
  "claims": [
   "C11",
   "C50"
  ],
  "claim": "discriminated member tried first"
 },
 {
  "id": "M45",
  "file": "Verif/Model/Loader.lean",
  "def": "bump",
  "old": "def bump (ts : List Ty) (t : Ty) : List Ty := t :: ts.erase t",
  "new": "def bump (_ : List Ty) (t : Ty) : List Ty := [t]",
  "edit": "only the discriminated member is tried",
  "claims": [
   "C10",
   "C50",
   "C12"
  ],
  "claim": "a wrong discriminator does not refuse"
 },
 {
  "id": "M46",
  "file": "Verif/Model/Loader.lean",
  "def": "unionTry",
  "old": "        if C.uniondebugconflict then unionTry W C rec v t us (c + 1) x es\n",
  "new": "        if C.uniondebugconflict then unionTry W C rec v t us 1 x es\n",
  "edit": "conflict counter not incremented",
  "claims": [
   "C13"
  ],
  "claim": "ambiguity detected"
 },
 {
  "id": "M47",
  "file": "Verif/Model/Loader.lean",
  "def": "unionTry",
  "old": "unionTry W C rec v t us c r (es ++ [e.push ⟨v, t, some (.union u)⟩])",
  "new": "unionTry W C rec v t us c r [e.push ⟨v, t, some (.union u)⟩]",
  "edit": "only the last exception kept",
  "claims": [
   "C12"
  ],
  "claim": "one exception per member"
 },
 {
  "id": "M48",
  "file": "Verif/Model/Loader.lean",
  "def": "unionTry",
  "old": "        if e.isTL then unionTry W C",
  "new": "        if e.cls.isValue then unionTry W C",
  "edit": "only ValueErrors continue the search",
  "claims": [
   "C10"
  ],
  "claim": "a union accepts what any member accepts"
 },
 {
  "id": "M49",
  "file": "Verif/Model/Loader.lean",
  "def": "unionload",
  "old": "    if C.isBasic (typeOf v) && ts.contains (typeOf v) then pure v else do\n",
  "new": "    do\n",
  "edit": "shortcut for exact basic types removed",
  "claims": [
   "C11",
   "C14"
  ],
  "claim": "exact basic type returned unchanged"
 },
 {
  "id": "M50",
  "file": "Verif/Model/Loader.lean",
  "def": "enumHints",
  "old": "          match enumCall W e x with\n",
  "new": "          match enumCall W e v with\n",
  "edit": "looks up the original value instead of the loaded one",
  "claims": [
   "C27"
  ],
  "claim": "annotated types used"
 },
 {
  "id": "M51",
  "file": "Verif/Model/Loader.lean",
  "def": "enumload",
  "old": "    | none => enumHints W C rec v e (W.enm e).hints []\n",
  "new": "    | none => enumHints W C rec v e ((W.enm e).hints.drop 1) []\n",
  "edit": "first annotation skipped",
  "claims": [
   "C27"
  ],
  "claim": "every annotated type tried"
 },
 {
  "id": "M52",
  "file": "Verif/Model/Loader.lean",
  "def": "apiLoad",
  "old": "  load W C n v t (fresh rew)",
  "new": "  load W C n v t { (fresh rew) with frefs := none }",
  "edit": "forward references disabled in typedload.load",
  "claims": [
   "C47"
  ],
  "claim": "same as a fresh loader"
 },
 {
  "id": "M53",
  "file": "Verif/Model/Loader.lean",
  "def": "mkDisc",
  "old": "some (key, literalTable key data)",
  "new": "some (key, literalTable key data.reverse)",
  "edit": "table built in the wrong order",
  "claims": [
   "C11"
  ],
  "claim": "the last declared member owning a literal is selected"
 },
 {
  "id": "M54",
  "file": "Verif/Model/Loader.lean",
  "def": "commonKeys",
  "old": "ds.all (fun d' => (d'.map (·.1)).contains k)",
  "new": "ds.any (fun d' => (d'.map (·.1)).contains k)",
  "edit": "discriminator need not be in every member",
  "claims": [
   "C11"
  ],
  "claim": "shared discriminator"
 },
 {
  "id": "M55",
  "file": "Verif/Model/DateTime.lean",
  "def": "isLeap",
  "old": "y % 400 == 0",
  "new": "y % 1000 == 0",
  "edit": "wrong leap years",
  "claims": [
   "C33"
  ],
  "claim": "calendar constraints"
 },
 {
  "id": "M56",
  "file": "Verif/Model/DateTime.lean",
  "def": "validDate",
  "old": "1 ≤ m && m ≤ 12",
  "new": "0 ≤ m && m ≤ 12",
  "edit": "month 0 accepted",
  "claims": [
   "C33"
  ],
  "claim": "calendar constraints"
 },
 {
  "id": "M57",
  "file": "Verif/Model/DateTime.lean",
  "def": "tdSeconds",
  "old": "  | .int n => if validTimedelta (n * 1000000) then .ok (.timedelta (n * 1000000)) else .error .overflow\n  | .bool",
  "new": "  | .int n => if validTimedelta (n * 1000) then .ok (.timedelta (n * 1000)) else .error .overflow\n  | .bool",
  "edit": "milliseconds instead of seconds",
  "claims": [
   "C34"
  ],
  "claim": "n is n seconds"
 },
 {
  "id": "M58",
  "file": "Verif/Model/Loader.lean",
  "def": "patCompile",
  "old": "  | .str _ => (W.reCompile v).map (fun _ => .pattern v)\n",
  "new": "  | .str s => (W.reCompile v).map (fun _ => .pattern (.bytes []))\n",
  "edit": "pattern with another source",
  "claims": [
   "C35"
  ],
  "claim": "source is the value"
 },
 {
  "id": "M59",
  "file": "Verif/Model/Loader.lean",
  "def": "strconstructload",
  "old": "        else M.throw (mkExc .tlBase (.py e) v t)\n\n/-- dataloader.py:897",
  "new": "        else M.throw (.plain e)\n\n/-- dataloader.py:897",
  "edit": "other exceptions not wrapped",
  "claims": [
   "C36"
  ],
  "claim": "constructor exceptions become TypedloadException"
 },
 {
  "id": "M60",
  "file": "Verif/Model/TypeChecks.lean",
  "def": "is_optional",
  "old": "ts.length == 2 && ts.contains (.prim .none)",
  "new": "ts.contains (.prim .none)",
  "edit": "any union with None",
  "claims": [
   "C46"
  ],
  "claim": "is_optional"
 },
 {
  "id": "M61",
  "file": "Verif/Model/TypeChecks.lean",
  "def": "is_set",
  "old": "  | .coll k _ => k == .set\n",
  "new": "  | .coll k _ => k == .set || k == .frozenset\n",
  "edit": "frozenset is a set",
  "claims": [
   "C46"
  ],
  "claim": "one condition per type"
 },
 {
  "id": "M62",
  "file": "Verif/Model/Dumper.lean",
  "def": "defaultDHandlers",
  "old": "    (.isNamedtuple, .namedtuple),\n    (.isDataclass, .dataclass),\n    (.isIter, .iterator),\n",
  "new": "    (.isIter, .iterator),\n    (.isNamedtuple, .namedtuple),\n    (.isDataclass, .dataclass),\n",
  "edit": "NamedTuple dumped as list",
  "claims": [
   "C39",
   "C41"
  ],
  "claim": "NamedTuple fields appear by name"
 },
 {
  "id": "M63",
  "file": "Verif/Model/Dumper.lean",
  "def": "isDefault",
  "old": "  | some d => pyEq d x\n",
  "new": "  | some d => !pyEq d x\n",
  "edit": "inverted comparison with the default",
  "claims": [
   "C39"
  ],
  "claim": "only default-valued fields hidden"
 },
 {
  "id": "M64",
  "file": "Verif/Model/Dumper.lean",
  "def": "dumpNt",
  "old": "    if C.hidedefault && isDefault",
  "new": "    if isDefault",
  "edit": "hidedefault ignored for NamedTuple",
  "claims": [
   "C39"
  ],
  "claim": "with hidedefault=False every field appears"
 },
 {
  "id": "M65",
  "file": "Verif/Model/Dumper.lean",
  "def": "dumpFields",
  "old": "          | some g => (aget g.metadata C.mangleKey).getD f\n",
  "new": "          | some _ => f\n",
  "edit": "mangled name not used",
  "claims": [
   "C39"
  ],
  "claim": "fields appear under the mangled name"
 },
 {
  "id": "M66",
  "file": "Verif/Model/Dumper.lean",
  "def": "dumpAttrs",
  "old": "      else if C.hidedefault && (match f.default with\n          | some d => pyEq x d\n          | none => false)",
  "new": "      else if C.hidedefault && (match f.default with\n          | some d => pyEq x d\n          | none => x == .none)",
  "edit": "None hidden although no default",
  "claims": [
   "C39"
  ],
  "claim": "field without default appears"
 },
 {
  "id": "M67",
  "file": "Verif/Model/Dumper.lean",
  "def": "dumpDict",
  "old": "    if W.hash k' then dumpDict W rec rest (dset acc k' x')",
  "new": "    if W.hash k' then dumpDict W rec rest (dset acc k' x)",
  "edit": "values of dictionaries not dumped",
  "claims": [
   "C38"
  ],
  "claim": "plain data only"
 },
 {
  "id": "M68",
  "file": "Verif/Model/Dumper.lean",
  "def": "datetimedump",
  "old": "  | .date y m d => pure (.list [.int y, .int m, .int d])",
  "new": "  | .date y m d => pure (.list [.int y, .int d, .int m])",
  "edit": "day and month swapped",
  "claims": [
   "C33"
  ],
  "claim": "date round trip"
 },
 {
  "id": "M69",
  "file": "Verif/Model/Dumper.lean",
  "def": "datetimedump",
  "old": "    if tz.isSome then M.throw (.plain .notImplemented) else pure (.list [.int h",
  "new": "    if tz.isNone && tz.isSome then M.throw (.plain .notImplemented) else pure (.list [.int h",
  "edit": "timezone silently dropped",
  "claims": [
   "C33"
  ],
  "claim": "timezone-aware refused"
 },
 {
  "id": "M70",
  "file": "Verif/Model/Dumper.lean",
  "def": "dResolve",
  "old": "    | .ok h => do M.modify (fun s => { s with hc := aset s.hc (typeOf v) h }); pure h",
  "new": "    | .ok h => do M.modify (fun s => { s with hc := aset s.hc (.opaque \"object\") h }); pure h",
  "edit": "cache keyed wrongly",
  "claims": [
   "C41"
  ],
  "claim": "cached choice right"
 },
 {
  "id": "M71",
  "file": "Verif/Model/Exceptions.lean",
  "def": "subLoop",
  "old": "renderPath W (trace ++ i.trace.tail)",
  "new": "renderPath W i.trace.tail",
  "edit": "sub-exception path without the prefix",
  "claims": [
   "C32"
  ],
  "claim": "path from the root"
 },
 {
  "id": "M72",
  "file": "Verif/Model/Exceptions.lean",
  "def": "renderPath",
  "old": "if ps.isEmpty && p == \"None\" then \".\"",
  "new": "if p == \"None\" then \".\"",
  "edit": "path truncated",
  "claims": [
   "C32"
  ],
  "claim": "path"
 }
]