[
 {
  "id": "P01",
  "file": "Verif/Model/Loader.lean",
  "def": "unionOrder",
  "old": "match dget table ((dget kvs (.str key)).getD .none) with",
  "new": "match dget table ((kvs.head?.map (·.2)).getD .none) with",
  "edit": "the value of the first key is looked up instead of that of the discriminator",
  "claims": [
   "C11"
  ],
  "claim": "the discriminated member is tried first"
 },
 {
  "id": "P02",
  "file": "Verif/Model/Loader.lean",
  "def": "literalTable",
  "old": "dset acc l p.1) acc) []",
  "new": "if dhas acc l then acc else dset acc l p.1) acc) []",
  "edit": "first member with a literal wins instead of the last",
  "claims": [
   "C11"
  ],
  "claim": "which member is preferred when a literal occurs twice"
 },
 {
  "id": "P03",
  "file": "Verif/Model/TypeChecks.lean",
  "def": "discriminatorliterals",
  "old": "if f.notRequired && !rew.contains c || !f.declared then none",
  "new": "if f.notRequired && !rew.contains c then none",
  "edit": "inherited literals are discriminators",
  "claims": [
   "C11"
  ],
  "claim": "inherited fields are not discriminators"
 },
 {
  "id": "P04",
  "file": "Verif/Model/TypeChecks.lean",
  "def": "literalvalues",
  "old": "some (vs.foldl setAdd [])",
  "new": "some (vs.take 1)",
  "edit": "only the first value of a Literal is a discriminator",
  "claims": [
   "C11"
  ],
  "claim": "every value of the literal designates the member"
 },
 {
  "id": "P05",
  "file": "Verif/Model/Loader.lean",
  "def": "commonKeys",
  "old": "ds.all",
  "new": "ds.any",
  "edit": "a key of any other member is enough",
  "claims": [
   "C11"
  ],
  "claim": "discriminator must be in all members"
 },
 {
  "id": "P06",
  "file": "Verif/Model/Loader.lean",
  "def": "unionTry",
  "old": "else pure (c + 1, x, es))",
  "new": "else unionTry W C rec v t us (c + 1) x es)",
  "edit": "all members tried without uniondebugconflict",
  "claims": [
   "C09",
   "C10",
   "C13"
  ],
  "claim": "first success ends the search"
 },
 {
  "id": "P07",
  "file": "Verif/Model/Loader.lean",
  "def": "unionTry",
  "old": "if C.uniondebugconflict then unionTry W C rec v t us (c + 1) x es",
  "new": "if C.uniondebugconflict then unionTry W C rec v t us (c + 1) r es",
  "edit": "result lost with uniondebugconflict",
  "claims": [
   "C13",
   "C09",
   "C03"
  ],
  "claim": "the only result is returned"
 },
 {
  "id": "P08",
  "file": "Verif/Model/Loader.lean",
  "def": "unionTry",
  "old": "(es ++ [e.push ⟨v, t, some (.union u)⟩])",
  "new": "(es ++ [e])",
  "edit": "attempts not annotated with the member",
  "claims": [
   "C12",
   "C31"
  ],
  "claim": "each attempt names its member"
 },
 {
  "id": "P09",
  "file": "Verif/Model/Loader.lean",
  "def": "unionTry",
  "old": "if e.isTL then unionTry",
  "new": "if e.isTL || e.cls.isValue then unionTry",
  "edit": "ValueErrors of a member are swallowed",
  "claims": [
   "C04",
   "C12"
  ],
  "claim": "only typedload errors of members are collected"
 },
 {
  "id": "P10",
  "file": "Verif/Model/Loader.lean",
  "def": "unionOrder",
  "old": "if table.isEmpty then",
  "new": "if table.isEmpty || C.uniondebugconflict then",
  "edit": "no discrimination with uniondebugconflict",
  "claims": [
   "C11"
  ],
  "claim": "order of the members"
 },
 {
  "id": "P11",
  "file": "Verif/Model/Loader.lean",
  "def": "pick",
  "old": "| some p => .ok p.2\n",
  "new": "| some p => .ok (C.handlers.headD p).2\n",
  "edit": "the first handler is always used",
  "claims": [
   "C01",
   "C03"
  ],
  "claim": "first matching handler"
 },
 {
  "id": "P12",
  "file": "Verif/Model/Loader.lean",
  "def": "resolve",
  "old": "M.modify (fun s => { s with idx := aset s.idx t h }); pure h\n    | .error e => if e.isValue then M.throw missing",
  "new": "M.modify (fun s => { s with idx := aset s.idx t .anyload }); pure h\n    | .error e => if e.isValue then M.throw missing",
  "edit": "another handler is stored in the cache",
  "claims": [
   "C06",
   "C07"
  ],
  "claim": "cached handler choices are right"
 },
 {
  "id": "P13",
  "file": "Verif/Model/Loader.lean",
  "def": "dataclassCached",
  "old": "aset s.objc c (dataclassInfo C (W.cls c)) })",
  "new": "aset s.objc c { dataclassInfo C (W.cls c) with necessary := [] } })",
  "edit": "cached description without the necessary fields",
  "claims": [
   "C06",
   "C18"
  ],
  "claim": "necessary fields are checked by every load"
 },
 {
  "id": "P14",
  "file": "Verif/Model/Loader.lean",
  "def": "typeddictload",
  "old": "M.modify (rewriteAnnotations W c)",
  "new": "M.modify (fun s => rewriteAnnotations W c { s with objc := aset s.objc c (typeddictInfo (W.cls c) false) })",
  "edit": "TypedDict description stored in the dataclass cache",
  "claims": [
   "C06",
   "C07"
  ],
  "claim": "caches hold right descriptions"
 },
 {
  "id": "P15",
  "file": "Verif/Model/Loader.lean",
  "def": "registerName",
  "old": "| some fr => match W.tyName t with\n    | none => s",
  "new": "| some fr => match W.tyName t with\n    | none => { s with frefs := none }",
  "edit": "types without a name disable forward references",
  "claims": [
   "C08"
  ],
  "claim": "registry keeps names"
 },
 {
  "id": "P16",
  "file": "Verif/Model/Loader.lean",
  "def": "anyload",
  "old": "def anyload (v : Val) : L Val := pure v",
  "new": "def anyload (v : Val) : L Val := pure (match v with | .seq .tuple xs => .list xs | v => v)",
  "edit": "Any converts tuples to lists",
  "claims": [
   "C28"
  ],
  "claim": "Any returns the value"
 },
 {
  "id": "P17",
  "file": "Verif/Model/Loader.lean",
  "def": "datetimeload",
  "old": "      else if e.isValue then M.throw (mkExc .tlValue (.py e) v t)\n      else M.throw (.plain e)\n  | _ => M.throw (.plain .attr)\n\n/-- `re",
  "new": "      else M.throw (.plain e)\n  | _ => M.throw (.plain .attr)\n\n/-- `re",
  "edit": "ValueErrors of the date constructors not wrapped",
  "claims": [
   "C05",
   "C33"
  ],
  "claim": "bad dates raise TypedloadException"
 },
 {
  "id": "P18",
  "file": "Verif/Model/Loader.lean",
  "def": "timedeltaload",
  "old": "match tdSeconds W v with",
  "new": "match tdDays W v with",
  "edit": "days instead of seconds",
  "claims": [
   "C34"
  ],
  "claim": "numbers are seconds"
 },
 {
  "id": "P19",
  "file": "Verif/Model/Loader.lean",
  "def": "newtypeload",
  "old": "loadWith W C rec v t' none",
  "new": "loadWith W C rec v t none",
  "edit": "NewType loads itself",
  "claims": [
   "C28",
   "C45"
  ],
  "claim": "NewType loads its base"
 },
 {
  "id": "P20",
  "file": "Verif/Model/Loader.lean",
  "def": "literalload",
  "old": ".tlValue (.notLiteral t)",
  "new": ".tlType (.notLiteral t)",
  "edit": "wrong exception class",
  "claims": [
   "C26"
  ],
  "claim": "Literal failures are TypedloadValueError"
 },
 {
  "id": "P21",
  "file": "Verif/Model/Loader.lean",
  "def": "noneload",
  "old": ".tlValue .notNone",
  "new": ".tlType .notNone",
  "edit": "wrong exception class",
  "claims": [
   "C28"
  ],
  "claim": "None failures"
 },
 {
  "id": "P22",
  "file": "Verif/Model/Loader.lean",
  "def": "basicload",
  "old": "if e.isValue then M.throw (mkExc .tlValue (.py e) v t)\n        else if e.isType",
  "new": "if e.isType then M.throw (mkExc .tlValue (.py e) v t)\n        else if e.isType",
  "edit": "TypeError of a constructor becomes TypedloadValueError",
  "claims": [
   "C05"
  ],
  "claim": "class of the exception"
 },
 {
  "id": "P23",
  "file": "Verif/Model/Loader.lean",
  "def": "pyCall",
  "old": "| .newtype _ _ => .ok v\n",
  "new": "| .newtype _ _ => .ok .none\n",
  "edit": "NewType called returns None (unreachable in practice except the mixed handlers)",
  "claims": [
   "C17"
  ],
  "claim": "-"
 },
 {
  "id": "P24",
  "file": "Verif/Model/Loader.lean",
  "def": "enumCall",
  "old": "find? (fun m => pyEq m.2 v)",
  "new": "find? (fun m => m.2 == v)",
  "edit": "identity instead of == in the lookup of Enum values",
  "claims": [
   "C27"
  ],
  "claim": "1.0 finds the member 1"
 },
 {
  "id": "P25",
  "file": "Verif/Model/Loader.lean",
  "def": "patternload",
  "old": "if e = .reError then M.throw (mkExc .tlBase (.py e) v t)",
  "new": "if e = .reError then pure (.pattern v)",
  "edit": "bad patterns accepted",
  "claims": [
   "C35"
  ],
  "claim": "patterns are compiled"
 },
 {
  "id": "P26",
  "file": "Verif/Model/Loader.lean",
  "def": "mkExc",
  "old": ".mk c m [] v (some t) []",
  "new": ".mk c m [] .none (some t) []",
  "edit": "errors without the value",
  "claims": [
   "C31"
  ],
  "claim": "the exception has the value"
 },
 {
  "id": "P27",
  "file": "Verif/Model/Loader.lean",
  "def": "mkExcSubs",
  "old": ".mk c m [] v (some t) es",
  "new": ".mk c m [] v none es",
  "edit": "union errors without the type",
  "claims": [
   "C31",
   "C12"
  ],
  "claim": "the exception has the type"
 },
 {
  "id": "P28",
  "file": "Verif/Model/Loader.lean",
  "def": "elemError",
  "old": "else if e.cls.isType then mkExc .tlType (.py e.cls) v t",
  "new": "else if e.cls.isType then e",
  "edit": "TypeErrors of elements not wrapped",
  "claims": [
   "C05"
  ],
  "claim": "errors of elements are wrapped"
 },
 {
  "id": "P29",
  "file": "Verif/Model/Loader.lean",
  "def": "tupleload",
  "old": "M.throw (mkExc .tlValue (.tooShort t) v t)",
  "new": "M.throw (mkExc .tlType (.tooShort t) v t)",
  "edit": "class of the exception for short tuples",
  "claims": [
   "C16"
  ],
  "claim": "short tuples raise ValueError"
 },
 {
  "id": "P30",
  "file": "Verif/Model/Loader.lean",
  "def": "tupElems",
  "old": "| _, _, _ => pure []",
  "new": "| xs, _, _ => pure xs",
  "edit": "extra elements of tuples kept",
  "claims": [
   "C16",
   "C03"
  ],
  "claim": "extra elements dropped"
 },
 {
  "id": "P31",
  "file": "Verif/Model/Loader.lean",
  "def": "items",
  "old": "| _ => none\n\n/-- dataloader.py:388",
  "new": "| .ns kvs => some (kvs.map (fun p => (.str p.1, p.2)))\n  | _ => none\n\n/-- dataloader.py:388",
  "edit": "Namespace has items",
  "claims": [
   "C29"
  ],
  "claim": "dictequivalence off: Namespace refused"
 },
 {
  "id": "P32",
  "file": "Verif/Model/Loader.lean",
  "def": "dictload",
  "old": "(fun e => if e.cls.isAttr then M.throw (mkExc .tlAttr .wrapped v' t) else M.throw e))",
  "new": "(fun _ => pure (.dict [])))",
  "edit": "failing dictionaries are empty",
  "claims": [
   "C17",
   "C03"
  ],
  "claim": "a failing pair fails the dictionary"
 },
 {
  "id": "P33",
  "file": "Verif/Model/Loader.lean",
  "def": "dictSlow",
  "old": "some (.key k)",
  "new": "some (.key x)",
  "edit": "annotation of keys shows the value",
  "claims": [
   "C31"
  ],
  "claim": "the trace shows the key"
 },
 {
  "id": "P34",
  "file": "Verif/Model/Loader.lean",
  "def": "dictValueHandler",
  "old": "pure (h, none)",
  "new": "pure (h, some h)",
  "edit": "the bug of the first pass repaired halfway: handler of the values used for keys",
  "claims": [
   "C17"
  ],
  "claim": "-"
 },
 {
  "id": "P35",
  "file": "Verif/Model/Loader.lean",
  "def": "dictValueHandler",
  "old": "pure (h, none)",
  "new": "pure (keyF, some h)",
  "edit": "the real code repaired (not a bug: should break only counterexamples)",
  "claims": [
   "C17"
  ],
  "claim": "-"
 },
 {
  "id": "P36",
  "file": "Verif/Model/Loader.lean",
  "def": "mangleLoop",
  "old": "mangleLoop namesmap failonextra rest (dset r (.str n') x)",
  "new": "mangleLoop namesmap failonextra rest r",
  "edit": "renamed keys lost",
  "claims": [
   "C22",
   "C44"
  ],
  "claim": "renamed keys are used"
 },
 {
  "id": "P37",
  "file": "Verif/Model/Loader.lean",
  "def": "mangle_names",
  "old": "if namesmap.isEmpty then .ok v else\n",
  "new": "",
  "edit": "values without items refused even without renaming, Namespace refused",
  "claims": [
   "C29"
  ],
  "claim": "-"
 },
 {
  "id": "P38",
  "file": "Verif/Model/Loader.lean",
  "def": "fillFields",
  "old": "| .ok ps => .ok (p ++ ps)",
  "new": "| .ok ps => .ok (ps ++ p)",
  "edit": "fields in reverse order",
  "claims": [
   "C21",
   "C03"
  ],
  "claim": "fields in declaration order"
 },
 {
  "id": "P39",
  "file": "Verif/Model/Loader.lean",
  "def": "isInitArg",
  "old": "f.name == n && f.init &&",
  "new": "f.name == n &&",
  "edit": "init=False fields accepted as arguments",
  "claims": [
   "C21"
  ],
  "claim": "init=False fields cannot be given"
 },
 {
  "id": "P40",
  "file": "Verif/Model/Loader.lean",
  "def": "construct",
  "old": "(W.initHook cid fs).map (.inst cid)",
  "new": ".ok (.inst cid fs)",
  "edit": "__post_init__ not run",
  "claims": [
   "C21"
  ],
  "claim": "constructor hook runs"
 },
 {
  "id": "P41",
  "file": "Verif/Model/Loader.lean",
  "def": "objFields",
  "old": "objFields W C rec info v t rest (aset acc n y)",
  "new": "objFields W C rec info v t rest ((n, y) :: acc)",
  "edit": "parameters prepended",
  "claims": [
   "C21",
   "C49"
  ],
  "claim": "order of the keys of a TypedDict",
  "nth": 1
 },
 {
  "id": "P42",
  "file": "Verif/Model/Loader.lean",
  "def": "objloader",
  "old": "else if C.failonextra && !(extraKeys info kvs).isEmpty then",
  "new": "else if !(extraKeys info kvs).isEmpty && kvs.length > 100 then",
  "edit": "failonextra only for big data",
  "claims": [
   "C20"
  ],
  "claim": "unknown keys refused"
 },
 {
  "id": "P43",
  "file": "Verif/Model/Loader.lean",
  "def": "objloader",
  "old": "if e.isType then M.throw (mkExc0 .tlType (.py e))\n        else if e.isValue then M.throw (mkExc0 .tlValue (.py e))",
  "new": "if e.isType then M.throw (mkExc0 .tlType (.py e))",
  "edit": "ValueError of the constructor not wrapped",
  "claims": [
   "C05"
  ],
  "claim": "constructor errors wrapped"
 },
 {
  "id": "P44",
  "file": "Verif/Model/Loader.lean",
  "def": "typeddictInfo",
  "old": "f.required && !(f.notRequired && !rew)",
  "new": "f.required || !(f.notRequired && !rew)",
  "edit": "total=False ignored",
  "claims": [
   "C30"
  ],
  "claim": "optional keys may be missing"
 },
 {
  "id": "P45",
  "file": "Verif/Model/Loader.lean",
  "def": "attrInfo",
  "old": "W.attrsSentinel && f.default.isNone && f.init",
  "new": "f.init",
  "edit": "attributes with defaults required",
  "claims": [
   "C21",
   "C18"
  ],
  "claim": "defaults used"
 },
 {
  "id": "P46",
  "file": "Verif/Model/Loader.lean",
  "def": "attrHints",
  "old": ".ok ((f.name, t) :: r)",
  "new": ".ok ((f.name, f.ty) :: r)",
  "edit": "converter type ignored",
  "claims": [
   "C37"
  ],
  "claim": "converter parameter type used"
 },
 {
  "id": "P47",
  "file": "Verif/Model/Loader.lean",
  "def": "attrload",
  "old": "objloader W C rec (attrInfo W C (W.cls c).fields hints) v' c",
  "new": "objloader W C rec (attrInfo W C (W.cls c).fields hints) v c",
  "edit": "renaming of attrs ignored",
  "claims": [
   "C22",
   "C44"
  ],
  "claim": "renaming"
 },
 {
  "id": "P48",
  "file": "Verif/Model/Loader.lean",
  "def": "extraKeys",
  "old": "(kvs.map (·.1)).filter (fun k => !isFieldKey info.fields k)",
  "new": "(kvs.map (·.1)).filter (fun k => !isFieldKey info.necessary k)",
  "edit": "optional fields count as unknown",
  "claims": [
   "C20"
  ],
  "claim": "only unknown keys refused"
 },
 {
  "id": "P49",
  "file": "Verif/Model/PyOps.lean",
  "def": "Num.eq",
  "old": "| .int a, .flt f => PF.eq (PF.ofInt a) f",
  "new": "| .int _, .flt _ => false",
  "edit": "1 == 1.0 is false",
  "claims": [
   "C26"
  ],
  "claim": "Literal compares with =="
 },
 {
  "id": "P50",
  "file": "Verif/Model/PyOps.lean",
  "def": "hashable",
  "old": "| .list => false\n",
  "new": "| .list => true\n",
  "edit": "lists are hashable",
  "claims": [
   "C15"
  ],
  "claim": "sets of lists refused"
 },
 {
  "id": "P51",
  "file": "Verif/Model/PyOps.lean",
  "def": "dset",
  "old": "then (k', v) :: rest else",
  "new": "then (k', v') :: rest else",
  "edit": "first value wins",
  "claims": [
   "C17"
  ],
  "claim": "last value wins",
  "nth": 1
 },
 {
  "id": "P52",
  "file": "Verif/Model/PyOps.lean",
  "def": "typeOf",
  "old": "| .bool _ => .prim .bool",
  "new": "| .bool _ => .prim .int",
  "edit": "type(True) is int",
  "claims": [
   "C24"
  ],
  "claim": "-"
 },
 {
  "id": "P53",
  "file": "Verif/Model/PyOps.lean",
  "def": "isInst",
  "old": "| .bool _ => p == .bool || p == .int",
  "new": "| .bool _ => p == .bool",
  "edit": "isinstance(True, int) false",
  "claims": [
   "C15"
  ],
  "claim": "bypass for bool"
 },
 {
  "id": "P54",
  "file": "Verif/Model/PyOps.lean",
  "def": "pyIter",
  "old": "| .nt _ fs => some (fs.map (·.2))\n  | _ => none",
  "new": "| _ => none",
  "edit": "NamedTuples not iterable",
  "claims": [
   "C15"
  ],
  "claim": "iterables"
 },
 {
  "id": "P55",
  "file": "Verif/Model/PyOps.lean",
  "def": "pyIter",
  "old": "some (kvs.map (·.1))",
  "new": "some (kvs.map (·.2))",
  "edit": "iterating over a dict yields values",
  "claims": [
   "C33"
  ],
  "claim": "-"
 },
 {
  "id": "P56",
  "file": "Verif/Model/PyOps.lean",
  "def": "aset",
  "old": "if k' = k then (k', v) :: rest",
  "new": "if k' = k then (k', v') :: rest",
  "edit": "assignment keeps the old value",
  "claims": [
   "C06"
  ],
  "claim": "-"
 },
 {
  "id": "P57",
  "file": "Verif/Model/Dumper.lean",
  "def": "iterContents",
  "old": "| .seq _ xs => xs\n",
  "new": "| .seq _ xs => xs.reverse\n",
  "edit": "sequences dumped in reverse",
  "claims": [
   "C40",
   "C42"
  ],
  "claim": "order kept"
 },
 {
  "id": "P58",
  "file": "Verif/Model/Dumper.lean",
  "def": "dEvalCond",
  "old": "| .isDate, v => .ok (match v with\n      | .date .. => true\n      | .time .. => true",
  "new": "| .isDate, v => .ok (match v with\n      | .date .. => true",
  "edit": "no handler for time",
  "claims": [
   "C33",
   "C51",
   "C42"
  ],
  "claim": "time objects dumped"
 },
 {
  "id": "P59",
  "file": "Verif/Model/Dumper.lean",
  "def": "dPick",
  "old": "| some p => .ok p.2\n",
  "new": "| some p => .ok (C.handlers.headD p).2\n",
  "edit": "first handler always",
  "claims": [
   "C41",
   "C53",
   "C38"
  ],
  "claim": "first matching handler"
 },
 {
  "id": "P60",
  "file": "Verif/Model/Dumper.lean",
  "def": "dResolve",
  "old": "aset s.hc (typeOf v) h }); pure h",
  "new": "aset s.hc (typeOf v) .identity }); pure h",
  "edit": "wrong handler in the cache of the dumper",
  "claims": [
   "C41"
  ],
  "claim": "cached handlers right"
 },
 {
  "id": "P61",
  "file": "Verif/Model/Dumper.lean",
  "def": "dumpFields",
  "old": "rec x ((aget hints f).getD .any)",
  "new": "rec x .any",
  "edit": "annotation of fields not passed",
  "claims": [
   "C53"
  ],
  "claim": "annotation passed to user handlers"
 },
 {
  "id": "P62",
  "file": "Verif/Model/Dumper.lean",
  "def": "dumpFields",
  "old": "if C.hidedefault && isDefault defaults f x then",
  "new": "if C.hidedefault || isDefault defaults f x then",
  "edit": "everything hidden",
  "claims": [
   "C39",
   "C42"
  ],
  "claim": "hidedefault omits only defaults"
 },
 {
  "id": "P63",
  "file": "Verif/Model/Dumper.lean",
  "def": "dumpDict",
  "old": "dumpDict W rec rest (dset acc k' x')",
  "new": "dumpDict W rec rest ((k', x') :: acc)",
  "edit": "duplicate dumped keys kept",
  "claims": [
   "C38",
   "C40"
  ],
  "claim": "dump of a dictionary is a dictionary"
 },
 {
  "id": "P64",
  "file": "Verif/Model/Dumper.lean",
  "def": "dstep",
  "old": "| .pattern src => pure src",
  "new": "| .pattern src => pure (.str (W.strOf src))",
  "edit": "bytes patterns dumped as text",
  "claims": [
   "C35"
  ],
  "claim": "pattern source"
 },
 {
  "id": "P65",
  "file": "Verif/Model/Dumper.lean",
  "def": "dstep",
  "old": "| .enumv e n => match aget (W.enm e).members n with",
  "new": "| .enumv e _ => match (W.enm e).members.head?.map (·.2) with",
  "edit": "first member dumped",
  "claims": [
   "C27",
   "C42"
  ],
  "claim": "value of the member"
 },
 {
  "id": "P66",
  "file": "Verif/Model/TypeChecks.lean",
  "def": "evalCond",
  "old": "| .isAttrs, t => .ok (is_attrs W t)",
  "new": "| .isAttrs, t => .ok (is_dataclass W t)",
  "edit": "is_attrs tests for dataclasses",
  "claims": [
   "C01"
  ],
  "claim": "-"
 },
 {
  "id": "P67",
  "file": "Verif/Model/TypeChecks.lean",
  "def": "evalCond",
  "old": "| .isTimedelta, t => .ok (t == .timedelta)",
  "new": "| .isTimedelta, _ => .ok false",
  "edit": "no timedelta",
  "claims": [
   "C34"
  ],
  "claim": "timedelta supported"
 },
 {
  "id": "P68",
  "file": "Verif/Model/TypeChecks.lean",
  "def": "is_tuple",
  "old": "| .coll k _ => k == .tuple\n",
  "new": "| .coll _ _ => false\n",
  "edit": "Tuple[t, ...] is not a tuple",
  "claims": [
   "C46",
   "C15"
  ],
  "claim": "predicate"
 },
 {
  "id": "P69",
  "file": "Verif/Model/TypeChecks.lean",
  "def": "is_newtype",
  "old": "| .newtype _ _ => true",
  "new": "| .newtype _ _ => false",
  "edit": "NewType unsupported",
  "claims": [
   "C46",
   "C28"
  ],
  "claim": "predicate"
 },
 {
  "id": "P70",
  "file": "Verif/Model/TypeChecks.lean",
  "def": "uniontypes",
  "old": "| .union ts => some ts",
  "new": "| .union ts => some (ts.drop 1)",
  "edit": "uniontypes loses the first",
  "claims": [
   "C46"
  ],
  "claim": "uniontypes"
 },
 {
  "id": "P71",
  "file": "Verif/Model/Exceptions.lean",
  "def": "firstLine",
  "old": "indentOf indent ++ W.strMsg e.msg",
  "new": "W.strMsg e.msg",
  "edit": "no indentation",
  "claims": [
   "C32"
  ],
  "claim": "-"
 },
 {
  "id": "P72",
  "file": "Verif/Model/Exceptions.lean",
  "def": "subLoop",
  "old": "renderPath W (trace ++ i.trace.tail)",
  "new": "renderPath W (trace ++ i.trace)",
  "edit": "path of sub-exceptions repeats the common item",
  "claims": [
   "C32"
  ],
  "claim": "path of sub-exceptions"
 },
 {
  "id": "P73",
  "file": "Verif/Model/Exceptions.lean",
  "def": "subLoop",
  "old": "| .ok tl => .ok (head ++ sub ++ tl)",
  "new": "| .ok _ => .ok (head ++ sub)",
  "edit": "only the first sub-exception",
  "claims": [
   "C32"
  ],
  "claim": "all sub-exceptions listed"
 },
 {
  "id": "P74",
  "file": "Verif/Model/Exceptions.lean",
  "def": "render",
  "old": "++ renderPath W e.trace\n",
  "new": "++ renderPath W (e.trace.take 1)\n",
  "edit": "path truncated",
  "claims": [
   "C32"
  ],
  "claim": "-"
 },
 {
  "id": "P75",
  "file": "Verif/Model/Threads.lean",
  "def": "T.dataclassCached",
  "old": "    write (fun s => { s with objc := aset s.objc c (dataclassInfo C (W.cls c)) })\n",
  "new": "    write (fun s => { s with objc := aset s.objc c { dataclassInfo C (W.cls c) with necessary := [], transforms := [] } })\n    write (fun s => { s with objc := aset s.objc c (dataclassInfo C (W.cls c)) })\n",
  "edit": "an incomplete description is visible to other threads",
  "claims": [
   "C59",
   "C60"
  ],
  "claim": "shared loader right"
 },
 {
  "id": "P76",
  "file": "Verif/Model/Threads.lean",
  "def": "T.discCached",
  "old": "    let s ← read\n    write (fun s'",
  "new": "    write (fun s => { s with disc := aset s.disc (.union (W.unionKey ts)) (some (\"\", [])) })\n    let s ← read\n    write (fun s'",
  "edit": "an empty discriminator is visible to other threads",
  "claims": [
   "C59"
  ],
  "claim": "shared loader right"
 },
 {
  "id": "P77",
  "file": "Verif/Model/Threads.lean",
  "def": "T.register",
  "old": "| some _ => pure ()\n        | none => write",
  "new": "| some _ => raise (.plain .key)\n        | none => write",
  "edit": "names registered by another thread raise",
  "claims": [
   "C59",
   "C60"
  ],
  "claim": "shared loader right"
 },
 {
  "id": "P78",
  "file": "Verif/Model/Threads.lean",
  "def": "T.register",
  "old": "write (fun s => { s with frefs := s.frefs.map (fun fr => aset fr n t) })",
  "new": "write (fun s => { s with frefs := some [(n, t)] })",
  "edit": "registry overwritten",
  "claims": [
   "C59",
   "C60"
  ],
  "claim": "names registered by others are kept"
 },
 {
  "id": "P79",
  "file": "Verif/Model/Threads.lean",
  "def": "T.resolve",
  "old": "do write (fun s => { s with idx := aset s.idx t h }); pure h\n    | .error e => if e.isValue then raise missing",
  "new": "do write (fun s => { s with idx := aset s.idx t h }); (do let s ← read; pure ((s.idx.getLast?.map (·.2)).getD h))\n    | .error e => if e.isValue then raise missing",
  "edit": "the handler last stored, maybe by another thread, is used",
  "claims": [
   "C59",
   "C60"
  ],
  "claim": "shared loader right"
 },
 {
  "id": "P80",
  "file": "Verif/Model/Threads.lean",
  "def": "T.loadResolve",
  "old": "      write (fun s => { s with idx := aset s.idx t h })\n      register W t",
  "new": "      register W t\n      write (fun s => { s with idx := aset s.idx t h })",
  "edit": "order of registration and caching swapped (not a bug)",
  "claims": [
   "C59"
  ],
  "claim": "-"
 },
 {
  "id": "P81",
  "file": "Verif/Model/Loader.lean",
  "def": "typeddictload",
  "old": "objloader W C rec (typeddictInfo (W.cls c) (s.tdRew.contains c)) v c",
  "new": "(do let s' ← M.get; objloader W C rec (typeddictInfo (W.cls c) (s'.tdRew.contains c)) v c)",
  "edit": "the annotations are read after they were rewritten",
  "claims": [
   "C30"
  ],
  "claim": "NotRequired keys may be missing"
 }
]