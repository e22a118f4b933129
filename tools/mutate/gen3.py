#!/usr/bin/env python3
"""Third round of mutations: helpers, Python operations, caches, exceptions, threads."""
import json
L='Verif/Model/Loader.lean'; D='Verif/Model/Dumper.lean'; P='Verif/Model/PyOps.lean'; T='Verif/Model/Threads.lean'
K='Verif/Model/TypeChecks.lean'; X='Verif/Model/Exceptions.lean'; DT='Verif/Model/DateTime.lean'; W='Verif/Model/World.lean'
ms=[]
def m(file,d,old,new,edit,claims,claim,**kw):
    ms.append(dict(id='P%02d'%(len(ms)+1),file=file,**{'def':d},old=old,new=new,edit=edit,claims=claims.split(','),claim=claim,**kw))
# --- unions and discriminators
m(L,'unionOrder','match dget table ((dget kvs (.str key)).getD .none) with','match dget table ((kvs.head?.map (·.2)).getD .none) with','the value of the first key is looked up instead of that of the discriminator','C11','the discriminated member is tried first')
m(L,'literalTable','dset acc l p.1) acc) []','if dhas acc l then acc else dset acc l p.1) acc) []','first member with a literal wins instead of the last','C11','which member is preferred when a literal occurs twice')
m(K,'discriminatorliterals','if f.notRequired && !rew.contains c || !f.declared then none','if f.notRequired && !rew.contains c then none','inherited literals are discriminators','C11','inherited fields are not discriminators')
m(K,'literalvalues','some (vs.foldl setAdd [])','some (vs.take 1)','only the first value of a Literal is a discriminator','C11','every value of the literal designates the member')
m(L,'commonKeys','ds.all','ds.any','a key of any other member is enough','C11','discriminator must be in all members')
m(L,'unionTry','else pure (c + 1, x, es))','else unionTry W C rec v t us (c + 1) x es)','all members tried without uniondebugconflict','C09,C10,C13','first success ends the search')
m(L,'unionTry','if C.uniondebugconflict then unionTry W C rec v t us (c + 1) x es','if C.uniondebugconflict then unionTry W C rec v t us (c + 1) r es','result lost with uniondebugconflict','C13,C09,C03','the only result is returned')
m(L,'unionTry','(es ++ [e.push ⟨v, t, some (.union u)⟩])','(es ++ [e])','attempts not annotated with the member','C12,C31','each attempt names its member')
m(L,'unionTry','if e.isTL then unionTry','if e.isTL || e.cls.isValue then unionTry','ValueErrors of a member are swallowed','C04,C12','only typedload errors of members are collected')
m(L,'unionOrder','if table.isEmpty then','if table.isEmpty || C.uniondebugconflict then','no discrimination with uniondebugconflict','C11','order of the members')
# --- pick, resolve, caches
m(L,'pick','| some p => .ok p.2\n','| some p => .ok (C.handlers.headD p).2\n','the first handler is always used','C01,C03','first matching handler')
m(L,'resolve','M.modify (fun s => { s with idx := aset s.idx t h }); pure h\n    | .error e => if e.isValue then M.throw missing','M.modify (fun s => { s with idx := aset s.idx t .anyload }); pure h\n    | .error e => if e.isValue then M.throw missing','another handler is stored in the cache','C06,C07','cached handler choices are right')
m(L,'dataclassCached','aset s.objc c (dataclassInfo C (W.cls c)) })','aset s.objc c { dataclassInfo C (W.cls c) with necessary := [] } })','cached description without the necessary fields','C06,C18','necessary fields are checked by every load')
m(L,'typeddictload','M.modify (rewriteAnnotations W c)','M.modify (fun s => rewriteAnnotations W c { s with objc := aset s.objc c (typeddictInfo (W.cls c) false) })','TypedDict description stored in the dataclass cache','C06,C07','caches hold right descriptions')
m(L,'registerName','| some fr => match W.tyName t with\n    | none => s','| some fr => match W.tyName t with\n    | none => { s with frefs := none }','types without a name disable forward references','C08','registry keeps names')
# --- simple handlers
m(L,'anyload','def anyload (v : Val) : L Val := pure v','def anyload (v : Val) : L Val := pure (match v with | .seq .tuple xs => .list xs | v => v)','Any converts tuples to lists','C28','Any returns the value')
m(L,'datetimeload','      else if e.isValue then M.throw (mkExc .tlValue (.py e) v t)\n      else M.throw (.plain e)\n  | _ => M.throw (.plain .attr)\n\n/-- `re','      else M.throw (.plain e)\n  | _ => M.throw (.plain .attr)\n\n/-- `re','ValueErrors of the date constructors not wrapped','C05,C33','bad dates raise TypedloadException')
m(L,'timedeltaload','match tdSeconds W v with','match tdDays W v with','days instead of seconds','C34','numbers are seconds')
m(L,'newtypeload','loadWith W C rec v t\' none','loadWith W C rec v t none','NewType loads itself','C28,C45','NewType loads its base')
m(L,'literalload','.tlValue (.notLiteral t)','.tlType (.notLiteral t)','wrong exception class','C26','Literal failures are TypedloadValueError')
m(L,'noneload','.tlValue .notNone','.tlType .notNone','wrong exception class','C28','None failures')
m(L,'basicload','if e.isValue then M.throw (mkExc .tlValue (.py e) v t)\n        else if e.isType','if e.isType then M.throw (mkExc .tlValue (.py e) v t)\n        else if e.isType','TypeError of a constructor becomes TypedloadValueError','C05','class of the exception',)
m(L,'pyCall','| .newtype _ _ => .ok v\n','| .newtype _ _ => .ok .none\n','NewType called returns None (unreachable in practice except the mixed handlers)','C17','-')
m(L,'enumCall','find? (fun m => pyEq m.2 v)','find? (fun m => m.2 == v)','identity instead of == in the lookup of Enum values','C27','1.0 finds the member 1')
m(L,'patternload','if e = .reError then M.throw (mkExc .tlBase (.py e) v t)','if e = .reError then pure (.pattern v)','bad patterns accepted','C35','patterns are compiled')
m(L,'mkExc','.mk c m [] v (some t) []','.mk c m [] .none (some t) []','errors without the value','C31','the exception has the value')
m(L,'mkExcSubs','.mk c m [] v (some t) es','.mk c m [] v none es','union errors without the type','C31,C12','the exception has the type')
# --- containers
m(L,'elemError','else if e.cls.isType then mkExc .tlType (.py e.cls) v t','else if e.cls.isType then e','TypeErrors of elements not wrapped','C05','errors of elements are wrapped')
m(L,'tupleload','M.throw (mkExc .tlValue (.tooShort t) v t)','M.throw (mkExc .tlType (.tooShort t) v t)','class of the exception for short tuples','C16','short tuples raise ValueError')
m(L,'tupElems','| _, _, _ => pure []','| xs, _, _ => pure xs','extra elements of tuples kept','C16,C03','extra elements dropped')
m(L,'items','| _ => none\n\n/-- dataloader.py:388','| .ns kvs => some (kvs.map (fun p => (.str p.1, p.2)))\n  | _ => none\n\n/-- dataloader.py:388','Namespace has items','C29','dictequivalence off: Namespace refused')
m(L,'dictload','(fun e => if e.cls.isAttr then M.throw (mkExc .tlAttr .wrapped v\' t) else M.throw e))','(fun _ => pure (.dict [])))','failing dictionaries are empty','C17,C03','a failing pair fails the dictionary')
m(L,'dictSlow','some (.key k)','some (.key x)','annotation of keys shows the value','C31','the trace shows the key')
m(L,'dictValueHandler','pure (h, none)','pure (h, some h)','the bug of the first pass repaired halfway: handler of the values used for keys','C17','-')
m(L,'dictValueHandler','pure (h, none)','pure (keyF, some h)','the real code repaired (not a bug: should break only counterexamples)','C17','-')
# --- objects
m(L,'mangleLoop','mangleLoop namesmap failonextra rest (dset r (.str n\') x)','mangleLoop namesmap failonextra rest r','renamed keys lost','C22,C44','renamed keys are used')
m(L,'mangle_names','if namesmap.isEmpty then .ok v else\n','','values without items refused even without renaming, Namespace refused','C29','-')
m(L,'fillFields','| .ok ps => .ok (p ++ ps)','| .ok ps => .ok (ps ++ p)','fields in reverse order','C21,C03','fields in declaration order')
m(L,'isInitArg','f.name == n && f.init &&','f.name == n &&','init=False fields accepted as arguments','C21','init=False fields cannot be given')
m(L,'construct','(W.initHook cid fs).map (.inst cid)','.ok (.inst cid fs)','__post_init__ not run','C21','constructor hook runs')
m(L,'objFields','objFields W C rec info v t rest (aset acc n y)','objFields W C rec info v t rest ((n, y) :: acc)','parameters prepended','C21,C49','order of the keys of a TypedDict',nth=1)
m(L,'objloader','else if C.failonextra && !(extraKeys info kvs).isEmpty then','else if !(extraKeys info kvs).isEmpty && kvs.length > 100 then','failonextra only for big data','C20','unknown keys refused')
m(L,'objloader','if e.isType then M.throw (mkExc0 .tlType (.py e))\n        else if e.isValue then M.throw (mkExc0 .tlValue (.py e))','if e.isType then M.throw (mkExc0 .tlType (.py e))','ValueError of the constructor not wrapped','C05','constructor errors wrapped')
m(L,'typeddictInfo','f.required && !(f.notRequired && !rew)','f.required || !(f.notRequired && !rew)','total=False ignored','C30','optional keys may be missing')
m(L,'attrInfo','W.attrsSentinel && f.default.isNone && f.init','f.init','attributes with defaults required','C21,C18','defaults used')
m(L,'attrHints','.ok ((f.name, t) :: r)','.ok ((f.name, f.ty) :: r)','converter type ignored','C37','converter parameter type used')
m(L,'attrload','objloader W C rec (attrInfo W C (W.cls c).fields hints) v\' c','objloader W C rec (attrInfo W C (W.cls c).fields hints) v c','renaming of attrs ignored','C22,C44','renaming')
m(L,'extraKeys','(kvs.map (·.1)).filter (fun k => !isFieldKey info.fields k)','(kvs.map (·.1)).filter (fun k => !isFieldKey info.necessary k)','optional fields count as unknown','C20','only unknown keys refused')
# --- Python operations
m(P,'Num.eq','| .int a, .flt f => PF.eq (PF.ofInt a) f','| .int _, .flt _ => false','1 == 1.0 is false','C26','Literal compares with ==')
m(P,'hashable','| .list => false\n','| .list => true\n','lists are hashable','C15','sets of lists refused')
m(P,'dset','then (k\', v) :: rest else','then (k\', v\') :: rest else','first value wins','C17','last value wins',nth=1)
m(P,'typeOf','| .bool _ => .prim .bool','| .bool _ => .prim .int','type(True) is int','C24','-')
m(P,'isInst','| .bool _ => p == .bool || p == .int','| .bool _ => p == .bool','isinstance(True, int) false','C15','bypass for bool')
m(P,'pyIter','| .nt _ fs => some (fs.map (·.2))\n  | _ => none','| _ => none','NamedTuples not iterable','C15','iterables')
m(P,'pyIter','some (kvs.map (·.1))','some (kvs.map (·.2))','iterating over a dict yields values','C33','-')
m(P,'aset','if k\' = k then (k\', v) :: rest','if k\' = k then (k\', v\') :: rest','assignment keeps the old value','C06','-')
# --- dumper
m(D,'iterContents','| .seq _ xs => xs\n','| .seq _ xs => xs.reverse\n','sequences dumped in reverse','C40,C42','order kept')
m(D,'dEvalCond','| .isDate, v => .ok (match v with\n      | .date .. => true\n      | .time .. => true','| .isDate, v => .ok (match v with\n      | .date .. => true','no handler for time','C33,C51,C42','time objects dumped')
m(D,'dPick','| some p => .ok p.2\n','| some p => .ok (C.handlers.headD p).2\n','first handler always','C41,C53,C38','first matching handler')
m(D,'dResolve','aset s.hc (typeOf v) h }); pure h','aset s.hc (typeOf v) .identity }); pure h','wrong handler in the cache of the dumper','C41','cached handlers right')
m(D,'dumpFields','rec x ((aget hints f).getD .any)','rec x .any','annotation of fields not passed','C53','annotation passed to user handlers')
m(D,'dumpFields','if C.hidedefault && isDefault defaults f x then','if C.hidedefault || isDefault defaults f x then','everything hidden','C39,C42','hidedefault omits only defaults')
m(D,'dumpDict','dumpDict W rec rest (dset acc k\' x\')','dumpDict W rec rest ((k\', x\') :: acc)','duplicate dumped keys kept','C38,C40','dump of a dictionary is a dictionary')
m(D,'dstep','| .pattern src => pure src','| .pattern src => pure (.str (W.strOf src))','bytes patterns dumped as text','C35','pattern source')
m(D,'dstep','| .enumv e n => match aget (W.enm e).members n with','| .enumv e _ => match (W.enm e).members.head?.map (·.2) with','first member dumped','C27,C42','value of the member')
# --- type checks, conditions
m(K,'evalCond','| .isAttrs, t => .ok (is_attrs W t)','| .isAttrs, t => .ok (is_dataclass W t)','is_attrs tests for dataclasses','C01','-')
m(K,'evalCond','| .isTimedelta, t => .ok (t == .timedelta)','| .isTimedelta, _ => .ok false','no timedelta','C34','timedelta supported')
m(K,'is_tuple','| .coll k _ => k == .tuple\n','| .coll _ _ => false\n','Tuple[t, ...] is not a tuple','C46,C15','predicate')
m(K,'is_newtype','| .newtype _ _ => true','| .newtype _ _ => false','NewType unsupported','C46,C28','predicate')
m(K,'uniontypes','| .union ts => some ts','| .union ts => some (ts.drop 1)','uniontypes loses the first','C46','uniontypes')
# --- exceptions
m(X,'firstLine','indentOf indent ++ W.strMsg e.msg','W.strMsg e.msg','no indentation','C32','-')
m(X,'subLoop','renderPath W (trace ++ i.trace.tail)','renderPath W (trace ++ i.trace)','path of sub-exceptions repeats the common item','C32','path of sub-exceptions')
m(X,'subLoop','| .ok tl => .ok (head ++ sub ++ tl)','| .ok _ => .ok (head ++ sub)','only the first sub-exception','C32','all sub-exceptions listed')
m(X,'render','++ renderPath W e.trace\n','++ renderPath W (e.trace.take 1)\n','path truncated','C32','-')
# --- threads
m(T,'T.dataclassCached','    write (fun s => { s with objc := aset s.objc c (dataclassInfo C (W.cls c)) })\n','    write (fun s => { s with objc := aset s.objc c { dataclassInfo C (W.cls c) with necessary := [], transforms := [] } })\n    write (fun s => { s with objc := aset s.objc c (dataclassInfo C (W.cls c)) })\n','an incomplete description is visible to other threads','C59,C60','shared loader right')
m(T,'T.discCached','    let s ← read\n    write (fun s\'','    write (fun s => { s with disc := aset s.disc (.union (W.unionKey ts)) (some ("", [])) })\n    let s ← read\n    write (fun s\'','an empty discriminator is visible to other threads','C59','shared loader right')
m(T,'T.register','| some _ => pure ()\n        | none => write','| some _ => raise (.plain .key)\n        | none => write','names registered by another thread raise','C59,C60','shared loader right')
m(T,'T.register','write (fun s => { s with frefs := s.frefs.map (fun fr => aset fr n t) })','write (fun s => { s with frefs := some [(n, t)] })','registry overwritten','C59,C60','names registered by others are kept')
m(T,'T.resolve','do write (fun s => { s with idx := aset s.idx t h }); pure h\n    | .error e => if e.isValue then raise missing','do write (fun s => { s with idx := aset s.idx t h }); (do let s ← read; pure ((s.idx.getLast?.map (·.2)).getD h))\n    | .error e => if e.isValue then raise missing','the handler last stored, maybe by another thread, is used','C59,C60','shared loader right')
m(T,'T.loadResolve','      write (fun s => { s with idx := aset s.idx t h })\n      register W t','      register W t\n      write (fun s => { s with idx := aset s.idx t h })','order of registration and caching swapped (not a bug)','C59','-')
m(L,'typeddictload','objloader W C rec (typeddictInfo (W.cls c) (s.tdRew.contains c)) v c','(do let s\' ← M.get; objloader W C rec (typeddictInfo (W.cls c) (s\'.tdRew.contains c)) v c)','the annotations are read after they were rewritten','C30','NotRequired keys may be missing')
json.dump(ms,open('/verif/tools/mutate/m3.json','w'),indent=1,ensure_ascii=False)
print(len(ms))
