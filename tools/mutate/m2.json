[
 {
  "id": "N01",
  "file": "Verif/Model/Dumper.lean",
  "def": "dIndexFrom",
  "old": "    | .ok true => .ok i\n",
  "new": "    | .ok true => .ok (i + 1)\n",
  "edit": "off by one",
  "claims": [
   "C53"
  ],
  "claim": "index is the first match"
 },
 {
  "id": "N02",
  "file": "Verif/Model/Dumper.lean",
  "def": "dIndexFrom",
  "old": "if C.raiseconditionerrors then .error (.plain e)",
  "new": "if !C.raiseconditionerrors then .error (.plain e)",
  "edit": "raiseconditionerrors inverted",
  "claims": [
   "C53"
  ],
  "claim": "condition errors"
 },
 {
  "id": "N03",
  "file": "Verif/Model/Dumper.lean",
  "def": "dumpList",
  "old": "    pure (y :: ys)\n\n/-- Dump keys",
  "new": "    pure (ys ++ [y])\n\n/-- Dump keys",
  "edit": "order reversed",
  "claims": [
   "C40",
   "C42"
  ],
  "claim": "order of elements"
 },
 {
  "id": "N04",
  "file": "Verif/Model/Dumper.lean",
  "def": "dumpList",
  "old": "    let y ← rec x .any\n    let ys ← dumpList rec xs",
  "new": "    let y ← pure x\n    let ys ← dumpList rec xs",
  "edit": "elements not dumped",
  "claims": [
   "C38"
  ],
  "claim": "plain data only"
 },
 {
  "id": "N05",
  "file": "Verif/Model/Dumper.lean",
  "def": "iteratordump",
  "old": "if C.isBasic (iterItemTy t) && (C.handlers.head?",
  "new": "if (C.isBasic (iterItemTy t) || true) && (C.handlers.head?",
  "edit": "always copies",
  "claims": [
   "C38"
  ],
  "claim": "plain data only"
 },
 {
  "id": "N06",
  "file": "Verif/Model/Dumper.lean",
  "def": "iterItemTy",
  "old": "  | .tuple [t] => t\n",
  "new": "  | .tuple (t :: _) => t\n",
  "edit": "first position of a tuple taken as its element type",
  "claims": [
   "C38"
  ],
  "claim": "plain data only for Tuple[int, P] annotations"
 },
 {
  "id": "N07",
  "file": "Verif/Model/Dumper.lean",
  "def": "isDefault",
  "old": "  | some d => pyEq d x\n",
  "new": "  | some d => decide (d = x)\n",
  "edit": "identity instead of ==",
  "claims": [
   "C39"
  ],
  "claim": "hidden iff equal to the default"
 },
 {
  "id": "N08",
  "file": "Verif/Model/Dumper.lean",
  "def": "dumpNt",
  "old": "if C.hidedefault && isDefault",
  "new": "if isDefault",
  "edit": "hides although hidedefault=False",
  "claims": [
   "C39",
   "C42"
  ],
  "claim": "every field appears",
  "nth": 1
 },
 {
  "id": "N09",
  "file": "Verif/Model/Dumper.lean",
  "def": "dumpAttrs",
  "old": "      if !f.repr then",
  "new": "      if false then",
  "edit": "repr=False attributes dumped",
  "claims": [
   "C39"
  ],
  "claim": "repr=False fields skipped"
 },
 {
  "id": "N10",
  "file": "Verif/Model/Dumper.lean",
  "def": "dumpAttrs",
  "old": "(dset acc (.str ((aget f.metadata C.mangleKey).getD f.name)) y)",
  "new": "(dset acc (.str f.name) y)",
  "edit": "external name not used by attrs",
  "claims": [
   "C39",
   "C44"
  ],
  "claim": "renaming of attrs"
 },
 {
  "id": "N11",
  "file": "Verif/Model/Dumper.lean",
  "def": "datetimedump",
  "old": "  if C.isodates then",
  "new": "  if false then",
  "edit": "isodates ignored",
  "claims": [
   "C33"
  ],
  "claim": "isodates uses ISO strings"
 },
 {
  "id": "N12",
  "file": "Verif/Model/Dumper.lean",
  "def": "datetimedump",
  "old": "pure (.list [.int h, .int mi, .int s, .int us])\n  | .datetime",
  "new": "pure (.list [.int h, .int mi, .int s])\n  | .datetime",
  "edit": "microseconds of time dropped",
  "claims": [
   "C33",
   "C42"
  ],
  "claim": "times come back"
 },
 {
  "id": "N13",
  "file": "Verif/Model/Dumper.lean",
  "def": "dstep",
  "old": "      | some x => rec x .any\n",
  "new": "      | some x => pure x\n",
  "edit": "value of enum members not dumped",
  "claims": [
   "C38"
  ],
  "claim": "plain data only"
 },
 {
  "id": "N14",
  "file": "Verif/Model/Dumper.lean",
  "def": "dstep",
  "old": "      | some x => rec x .any\n",
  "new": "      | some _ => pure (.str n)\n",
  "edit": "enum members dumped by name",
  "claims": [
   "C27",
   "C42"
  ],
  "claim": "enum round trip"
 },
 {
  "id": "N15",
  "file": "Verif/Model/Dumper.lean",
  "def": "dstep",
  "old": "    | .timedelta us => pure (.float (W.totalSeconds us))",
  "new": "    | .timedelta us => pure (.int us)",
  "edit": "microseconds",
  "claims": [
   "C34",
   "C42"
  ],
  "claim": "timedelta round trip"
 },
 {
  "id": "N16",
  "file": "Verif/Model/Dumper.lean",
  "def": "dstep",
  "old": "    | .pattern src => pure src\n",
  "new": "    | .pattern src => pure (.pattern src)\n",
  "edit": "pattern returned as is",
  "claims": [
   "C35",
   "C38"
  ],
  "claim": "dump returns the source"
 },
 {
  "id": "N17",
  "file": "Verif/Model/Dumper.lean",
  "def": "dstep",
  "old": "  | .str => pure (.str (W.strOf v))",
  "new": "  | .str => pure v",
  "edit": "object returned as is",
  "claims": [
   "C36",
   "C38"
  ],
  "claim": "dump is str()"
 },
 {
  "id": "N18",
  "file": "Verif/Model/Dumper.lean",
  "def": "dstep",
  "old": "M.lift (W.dumpCustom i v t)",
  "new": "M.lift (W.dumpCustom i v .any)",
  "edit": "annotation not passed to user handler",
  "claims": [
   "C53"
  ],
  "claim": "user handler called with the annotation"
 },
 {
  "id": "N19",
  "file": "Verif/Model/Dumper.lean",
  "def": "defaultDHandlers",
  "old": "    (.isPattern, .pattern),\n    (.isStrconstructed, .str) ]",
  "new": "    (.isPattern, .pattern) ]",
  "edit": "no handler for strconstructed",
  "claims": [
   "C36",
   "C51",
   "C42"
  ],
  "claim": "strconstructed types are dumped"
 },
 {
  "id": "N20",
  "file": "Verif/Model/Dumper.lean",
  "def": "dumpDict",
  "old": "    let k' ← rec k .any\n    let x' ← rec x .any\n    if W.hash",
  "new": "    let k' ← pure k\n    let x' ← rec x .any\n    if W.hash",
  "edit": "keys not dumped",
  "claims": [
   "C38",
   "C42"
  ],
  "claim": "plain keys"
 },
 {
  "id": "N21",
  "file": "Verif/Model/Dumper.lean",
  "def": "dumpDict",
  "old": "if W.hash k' then dumpDict W rec rest (dset acc k' x') else M.throw (.plain .type)",
  "new": "dumpDict W rec rest (dset acc k' x')",
  "edit": "unhashable keys accepted",
  "claims": [
   "C38",
   "C52"
  ],
  "claim": "keys are basic"
 },
 {
  "id": "N22",
  "file": "Verif/Model/Dumper.lean",
  "def": "unableToDump",
  "old": "  | v => .mk .tlValue (.unableToDump v) [] v (some (typeOf v)) []",
  "new": "  | _ => .plain .value",
  "edit": "plain ValueError when no handler",
  "claims": [
   "C41",
   "C52"
  ],
  "claim": "TypedloadValueError for unsupported values"
 },
 {
  "id": "N23",
  "file": "Verif/Model/Dumper.lean",
  "def": "dataclassDesc",
  "old": "aset s.dc c (mkDataDesc (W.cls c))",
  "new": "aset s.dc (c + 1) (mkDataDesc (W.cls c))",
  "edit": "description cached under another class",
  "claims": [
   "C39",
   "C41"
  ],
  "claim": "history does not matter"
 },
 {
  "id": "N24",
  "file": "Verif/Model/Dumper.lean",
  "def": "mkDataDesc",
  "old": "  fields := cd.fields.map (·.name)\n",
  "new": "  fields := (cd.fields.filter (·.init)).map (·.name)\n",
  "edit": "init=False fields not dumped",
  "claims": [
   "C39"
  ],
  "claim": "every field appears"
 },
 {
  "id": "N25",
  "file": "Verif/Model/Dumper.lean",
  "def": "classDefaults",
  "old": "f.default.map (fun d => (f.name, d))",
  "new": "(f.default.filter (fun d => d != .none)).map (fun d => (f.name, d))",
  "edit": "default None not hidden",
  "claims": [
   "C39"
  ],
  "claim": "hidden iff equal to the default"
 },
 {
  "id": "N26",
  "file": "Verif/Model/Loader.lean",
  "def": "tupHandler",
  "old": "    | .ok h => pure h\n    | .error e => M.throw (.plain e)\n\n/-- dataloader.py:443-460",
  "new": "    | .ok h => pure h\n    | .error _ => pure .anyload\n\n/-- dataloader.py:443-460",
  "edit": "unsupported position types pass anything",
  "claims": [
   "C03",
   "C16"
  ],
  "claim": "positions have their type"
 },
 {
  "id": "N27",
  "file": "Verif/Model/Loader.lean",
  "def": "objItems",
  "old": "    if C.dictequivalence then\n      some",
  "new": "    if true then\n      some",
  "edit": "Namespace accepted although dictequivalence=False",
  "claims": [
   "C29"
  ],
  "claim": "refused with dictequivalence=False"
 },
 {
  "id": "N28",
  "file": "Verif/Model/Loader.lean",
  "def": "extraKeys",
  "old": "(fun k => !isFieldKey info.fields k)",
  "new": "(fun k => (typeOf k == .prim .str) && !isFieldKey info.fields k)",
  "edit": "non-string extra keys ignored",
  "claims": [
   "C20"
  ],
  "claim": "any unknown key is refused"
 },
 {
  "id": "N29",
  "file": "Verif/Model/Loader.lean",
  "def": "mangleOrRaise",
  "old": "    if e.isValue then M.throw (mkExc .tlValue (.py e) v t)\n    else if e.isAttr",
  "new": "    if e.isAttr",
  "edit": "ValueError of name mangling not converted",
  "claims": [
   "C20",
   "C05"
  ],
  "claim": "typed error for extra keys",
  "nth": 1
 },
 {
  "id": "N30",
  "file": "Verif/Model/Loader.lean",
  "def": "attrInfo",
  "old": "    | some n => aset acc n f.name\n    | none => acc) []\n\n/-- dataloader.py:857",
  "new": "    | some n => aset acc f.name n\n    | none => acc) []\n\n/-- dataloader.py:857",
  "edit": "transform map of attrs inverted",
  "claims": [
   "C22",
   "C44"
  ],
  "claim": "renaming of attrs"
 },
 {
  "id": "N31",
  "file": "Verif/Model/Loader.lean",
  "def": "attrHints",
  "old": "      | some cv => convType cv\n",
  "new": "      | some _ => .ok f.ty\n",
  "edit": "converter type ignored",
  "claims": [
   "C37"
  ],
  "claim": "data loaded into the parameter type"
 },
 {
  "id": "N32",
  "file": "Verif/Model/Loader.lean",
  "def": "unionTry",
  "old": "if C.uniondebugconflict then unionTry W C rec v t us (c + 1) x es",
  "new": "if C.uniondebugconflict && c == 0 && us.length > 1 then unionTry W C rec v t us (c + 1) x es",
  "edit": "last member not tried with uniondebugconflict",
  "claims": [
   "C13"
  ],
  "claim": "ambiguity detected"
 },
 {
  "id": "N33",
  "file": "Verif/Model/Loader.lean",
  "def": "unionload",
  "old": "else if c = 0 then M.throw (mkExcSubs .tlValue (.unionNone t) v t es)",
  "new": "else if c = 0 then pure v",
  "edit": "value returned when no member accepts",
  "claims": [
   "C03",
   "C09",
   "C12"
  ],
  "claim": "union result comes from a member"
 },
 {
  "id": "N34",
  "file": "Verif/Model/Loader.lean",
  "def": "unionload",
  "old": "    if c = 1 then pure r\n",
  "new": "    if c ≥ 1 then pure r\n",
  "edit": "conflicts ignored",
  "claims": [
   "C13"
  ],
  "claim": "two accepting members raise"
 },
 {
  "id": "N35",
  "file": "Verif/Model/Loader.lean",
  "def": "unionload",
  "old": "M.throw (mkExcSubs .tlValue (.unionNone t) v t es)",
  "new": "M.throw (mkExc .tlValue (.unionNone t) v t)",
  "edit": "sub-exceptions lost",
  "claims": [
   "C12"
  ],
  "claim": "one exception per member"
 },
 {
  "id": "N36",
  "file": "Verif/Model/Loader.lean",
  "def": "enumHints",
  "old": "      (fun ex => enumHints W C rec v e us (es ++ [ex]))",
  "new": "      (fun ex => M.throw ex)",
  "edit": "first failing annotation aborts",
  "claims": [
   "C27"
  ],
  "claim": "all annotated types tried"
 },
 {
  "id": "N37",
  "file": "Verif/Model/Loader.lean",
  "def": "enumload",
  "old": "    | some m => pure m\n    | none => enumHints W C rec v e (W.enm e).hints []",
  "new": "    | some _ => enumHints W C rec v e (W.enm e).hints []\n    | none => enumHints W C rec v e (W.enm e).hints []",
  "edit": "plain values not looked up",
  "claims": [
   "C27"
  ],
  "claim": "a member value loads"
 },
 {
  "id": "N38",
  "file": "Verif/Model/Loader.lean",
  "def": "dtParse",
  "old": "  | .str s => W.fromIso k s\n",
  "new": "  | .str _ => .error .value\n",
  "edit": "ISO strings refused",
  "claims": [
   "C33"
  ],
  "claim": "ISO round trip"
 },
 {
  "id": "N39",
  "file": "Verif/Model/DateTime.lean",
  "def": "dtCall",
  "old": "args.length < 3 ∨ args.length > 7",
  "new": "args.length < 2 ∨ args.length > 7",
  "edit": "datetime without day",
  "claims": [
   "C33"
  ],
  "claim": "lists of the wrong length refused"
 },
 {
  "id": "N40",
  "file": "Verif/Model/DateTime.lean",
  "def": "validTime",
  "old": "h ≤ 23",
  "new": "h ≤ 24",
  "edit": "hour 24",
  "claims": [
   "C33"
  ],
  "claim": "time ranges"
 },
 {
  "id": "N41",
  "file": "Verif/Model/DateTime.lean",
  "def": "daysInMonth",
  "old": "m == 4 || m == 6 || m == 9 || m == 11",
  "new": "m == 6 || m == 9 || m == 11",
  "edit": "April has 31 days",
  "claims": [
   "C33"
  ],
  "claim": "calendar"
 },
 {
  "id": "N42",
  "file": "Verif/Model/DateTime.lean",
  "def": "validTimedelta",
  "old": "us / 86400000000 ≤ 999999999",
  "new": "us / 86400000000 ≤ 1000000000",
  "edit": "range",
  "claims": [
   "C34"
  ],
  "claim": "out of range refused"
 },
 {
  "id": "N43",
  "file": "Verif/Model/Loader.lean",
  "def": "patternload",
  "old": "    if e = .reError then M.throw (mkExc .tlBase (.py e) v t)\n    else if",
  "new": "    if",
  "edit": "re.error not wrapped",
  "claims": [
   "C35",
   "C05"
  ],
  "claim": "TypedloadException for bad patterns"
 },
 {
  "id": "N44",
  "file": "Verif/Model/Loader.lean",
  "def": "forwardrefload",
  "old": "loadWith W C rec v t' (some (.forwardref n))",
  "new": "loadWith W C rec v t' none",
  "edit": "annotation of forward references lost",
  "claims": [
   "C31"
  ],
  "claim": "trace through forward references"
 },
 {
  "id": "N45",
  "file": "Verif/Model/Loader.lean",
  "def": "loadResolve",
  "old": "M.modify (fun s => registerName W t { s with idx := aset s.idx t h }); pure h",
  "new": "M.modify (fun s => { s with idx := aset s.idx t h }); pure h",
  "edit": "names never registered",
  "claims": [
   "C08"
  ],
  "claim": "loaded types are known by name"
 },
 {
  "id": "N46",
  "file": "Verif/Model/Loader.lean",
  "def": "resolve",
  "old": "if e.isValue then M.throw missing else M.throw (.plain e)\n\n/-- dataloader.py:290",
  "new": "M.throw (.plain e)\n\n/-- dataloader.py:290",
  "edit": "missing handler raises ValueError",
  "claims": [
   "C05",
   "C12"
  ],
  "claim": "typed errors"
 },
 {
  "id": "N47",
  "file": "Verif/Model/Loader.lean",
  "def": "elemError",
  "old": "  if e.isTL then e.push ⟨v, t, some (.index i)⟩\n",
  "new": "  if e.isTL then e.push ⟨v, t, some (.index (i + 1))⟩\n",
  "edit": "index off by one",
  "claims": [
   "C15",
   "C16",
   "C31"
  ],
  "claim": "index of the bad element"
 },
 {
  "id": "N48",
  "file": "Verif/Model/Loader.lean",
  "def": "elemError",
  "old": "  else mkExc0 .tlType .notTypedload\n",
  "new": "  else e\n",
  "edit": "other exceptions not wrapped",
  "claims": [
   "C05"
  ],
  "claim": "typed errors"
 },
 {
  "id": "N49",
  "file": "Verif/Model/Loader.lean",
  "def": "usesMap",
  "old": "  | .prim _ => !C.isBasic et\n",
  "new": "  | .prim _ => true\n",
  "edit": "StopIteration truncates lists of basic types",
  "claims": [
   "C15"
  ],
  "claim": "same length for basic element types"
 },
 {
  "id": "N50",
  "file": "Verif/Model/PyOps.lean",
  "def": "setAdd",
  "old": "if pyIn x xs then xs else xs ++ [x]",
  "new": "xs ++ [x]",
  "edit": "sets keep duplicates",
  "claims": [
   "C15",
   "C03"
  ],
  "claim": "sets are deduplicated"
 },
 {
  "id": "N51",
  "file": "Verif/Model/Loader.lean",
  "def": "dictSlow",
  "old": "loadWith W C rec x vt (some (.value x))",
  "new": "loadWith W C rec x vt (some (.value k))",
  "edit": "annotation of values shows the key",
  "claims": [
   "C31"
  ],
  "claim": "trace of dict values"
 },
 {
  "id": "N52",
  "file": "Verif/Model/Loader.lean",
  "def": "dictload",
  "old": "(fun e => if e.cls.isAttr then M.throw (mkExc .tlAttr .wrapped v' t) else M.throw e))",
  "new": "(fun e => M.throw e))",
  "edit": "AttributeError not wrapped",
  "claims": [
   "C05",
   "C29"
  ],
  "claim": "typed errors for non-dictionaries"
 },
 {
  "id": "N53",
  "file": "Verif/Model/Loader.lean",
  "def": "indexFrom",
  "old": "  | [], _ => .error .value\n",
  "new": "  | [], _ => .error .type\n",
  "edit": "TypeError when no condition matches",
  "claims": [
   "C01",
   "C04"
  ],
  "claim": "no handler: TypedloadTypeError"
 },
 {
  "id": "N54",
  "file": "Verif/Model/Exceptions.lean",
  "def": "annText",
  "old": "  | .index i => \"[\" ++ toString i ++ \"]\"\n",
  "new": "  | .index i => toString i\n",
  "edit": "index without brackets",
  "claims": [
   "C32"
  ],
  "claim": "path format"
 },
 {
  "id": "N55",
  "file": "Verif/Model/Exceptions.lean",
  "def": "render",
  "old": "if e.subs.isEmpty then .ok msg else",
  "new": "if true then .ok msg else",
  "edit": "sub-exceptions not listed",
  "claims": [
   "C32"
  ],
  "claim": "every sub-exception listed"
 },
 {
  "id": "N56",
  "file": "Verif/Model/Exceptions.lean",
  "def": "subLoop",
  "old": "(if i.subs.isEmpty then Except.ok \"\" else subexceptions W (indent + 1) i)",
  "new": "(Except.ok \"\" : Except ExcClass String)",
  "edit": "nested sub-exceptions not listed",
  "claims": [
   "C32"
  ],
  "claim": "nested sub-exceptions listed"
 },
 {
  "id": "N57",
  "file": "Verif/Model/Exceptions.lean",
  "def": "renderPath",
  "old": "if !ps.isEmpty && p == \"None\" then \".\".intercalate (\"\" :: ps)",
  "new": "if !ps.isEmpty && p == \"None\" then \".\".intercalate ps",
  "edit": "leading dot lost",
  "claims": [
   "C32"
  ],
  "claim": "path format"
 },
 {
  "id": "N58",
  "file": "Verif/Model/Loader.lean",
  "def": "enumCall",
  "old": "  if v ∈ (W.enm e).members.map (fun m => Val.enumv e m.1) then some v\n",
  "new": "  if (match v with | .enumv _ _ => true | _ => false) then some v\n",
  "edit": "members of other enums accepted",
  "claims": [
   "C27",
   "C03"
  ],
  "claim": "member of that enum"
 },
 {
  "id": "N59",
  "file": "Verif/Model/Loader.lean",
  "def": "dictequivalence",
  "old": ".dict (kvs.map (fun p => (.str p.1, p.2))) else v\n  | v => v",
  "new": ".dict ((kvs.drop 1).map (fun p => (.str p.1, p.2))) else v\n  | v => v",
  "edit": "first attribute lost",
  "claims": [
   "C29"
  ],
  "claim": "Namespace equals its dictionary"
 },
 {
  "id": "N60",
  "file": "Verif/Model/Loader.lean",
  "def": "tupleload",
  "old": "    if v.isDict then M.throw (mkExc .tlType .dictAsTuple v t) else\n",
  "new": "",
  "edit": "dictionaries accepted as tuples",
  "claims": [
   "C16"
  ],
  "claim": "dictionaries refused"
 },
 {
  "id": "N61",
  "file": "Verif/Model/Loader.lean",
  "def": "tupElems",
  "old": "    pure (y :: ys)\n  | _, _, _ => pure []",
  "new": "    pure (ys ++ [y])\n  | _, _, _ => pure []",
  "edit": "tuple reversed",
  "claims": [
   "C16",
   "C42"
  ],
  "claim": "positions"
 },
 {
  "id": "N62",
  "file": "Verif/Model/Loader.lean",
  "def": "fillField",
  "old": "    | none => if f.init then .error .type else .ok []",
  "new": "    | none => .ok [(f.name, .none)]",
  "edit": "missing arguments become None",
  "claims": [
   "C03",
   "C21"
  ],
  "claim": "fields come from data or defaults"
 },
 {
  "id": "N63",
  "file": "Verif/Model/Loader.lean",
  "def": "objFields",
  "old": "          let y ← M.rescue (rec h x ft) (fun e =>",
  "new": "          let y ← M.rescue (rec .anyload x ft) (fun e =>",
  "edit": "fields not loaded",
  "claims": [
   "C03",
   "C21"
  ],
  "claim": "fields have their type"
 },
 {
  "id": "N64",
  "file": "Verif/Model/Loader.lean",
  "def": "dataclassInfo",
  "old": "(fun f => f.init && f.default.isNone)",
  "new": "(fun f => f.default.isNone)",
  "edit": "init=False fields required",
  "claims": [
   "C21"
  ],
  "claim": "objects load without init=False fields"
 },
 {
  "id": "N65",
  "file": "Verif/Model/Loader.lean",
  "def": "dataclassCached",
  "old": "objc := aset s.objc c (dataclassInfo C (W.cls c)) }",
  "new": "objc := aset s.objc (c + 1) (dataclassInfo C (W.cls c)) }",
  "edit": "description cached under another class",
  "claims": [
   "C06",
   "C07"
  ],
  "claim": "cached descriptions are right"
 },
 {
  "id": "N66",
  "file": "Verif/Model/Loader.lean",
  "def": "discCached",
  "old": "disc := aset s.disc (.union ts) (mkDisc W s.tdRew ts) }",
  "new": "disc := aset s.disc (.union ts) none }",
  "edit": "discriminator forgotten",
  "claims": [
   "C06",
   "C07",
   "C50"
  ],
  "claim": "cached discriminators are right"
 },
 {
  "id": "N67",
  "file": "Verif/Model/Loader.lean",
  "def": "step",
  "old": "  | .custom i => M.lift (W.customLoad i v t)",
  "new": "  | .custom i => M.lift (W.customLoad i v .any)",
  "edit": "type not passed to user handlers",
  "claims": [
   "C01",
   "C54"
  ],
  "claim": "user handlers called with the type"
 },
 {
  "id": "N68",
  "file": "Verif/Model/Loader.lean",
  "def": "iterElem",
  "old": "if C.isBasic et then (if isInst p x then pure x else rec h x et) else rec h x et\n",
  "new": "if C.isBasic et then rec h x et else rec h x et\n",
  "edit": "no bypass for instances",
  "claims": [
   "C54"
  ],
  "claim": "documented bypass (counterexample)"
 },
 {
  "id": "N69",
  "file": "Verif/Model/Loader.lean",
  "def": "registerName",
  "old": "  | some fr => match W.tyName t with",
  "new": "  | some fr => match (match t with | .obj _ => W.tyName t | _ => none) with",
  "edit": "only classes registered by name",
  "claims": [
   "C08"
  ],
  "claim": "loaded types are known by name"
 },
 {
  "id": "N70",
  "file": "Verif/Model/Loader.lean",
  "def": "basicload",
  "old": "  if typeOf v ≠ t then\n",
  "new": "  if typeOf v ≠ t && !(t == .prim .float && typeOf v == .prim .int) then\n",
  "edit": "ints pass as floats",
  "claims": [
   "C03",
   "C23"
  ],
  "claim": "exact type"
 },
 {
  "id": "N71",
  "file": "Verif/Model/Loader.lean",
  "def": "tupElems",
  "old": "if C.isBasic u && typeOf x == u then",
  "new": "if C.isBasic u && isInstTy u x then",
  "edit": "isinstance instead of exact type",
  "claims": [
   "C16"
  ],
  "claim": "bool is not an int in tuples"
 },
 {
  "id": "N72",
  "file": "Verif/Model/Loader.lean",
  "def": "strconstructload",
  "old": "  match pyCall W t v with\n  | .ok x => pure x\n  | .error e =>\n    if e.isValue then M.throw (mkExc .tlValue (.py e) v t)\n    else if e.isType then M.throw (mkExc .tlType (.py e) v t)\n    else M.throw (mkExc .tlBase",
  "new": "  match pyCall W t v with\n  | .ok x => pure x\n  | .error e =>\n    if e.isValue then M.throw (mkExc .tlType (.py e) v t)\n    else if e.isType then M.throw (mkExc .tlType (.py e) v t)\n    else M.throw (mkExc .tlBase",
  "edit": "ValueError becomes TypeError",
  "claims": [
   "C36"
  ],
  "claim": "corresponding exception"
 }
]