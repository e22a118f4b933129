import json
L='Verif/Model/Loader.lean'; D='Verif/Model/Dumper.lean'; T='Verif/Model/TypeChecks.lean'; X='Verif/Model/Exceptions.lean'; DT='Verif/Model/DateTime.lean'; P='Verif/Model/PyOps.lean'
M=[]
def m(file,defn,old,new,edit,claims,claim,**kw):
    M.append(dict(id='N%02d'%(len(M)+1),file=file,**{'def':defn},old=old,new=new,edit=edit,claims=claims.split(),claim=claim,**kw))
m(D,'dIndexFrom','    | .ok true => .ok i\n','    | .ok true => .ok (i + 1)\n','off by one','C53','index is the first match')
m(D,'dIndexFrom','if C.raiseconditionerrors then .error (.plain e)','if !C.raiseconditionerrors then .error (.plain e)','raiseconditionerrors inverted','C53','condition errors')
m(D,'dumpList','    pure (y :: ys)\n\n/-- Dump keys','    pure (ys ++ [y])\n\n/-- Dump keys','order reversed','C40 C42','order of elements')
m(D,'dumpList','    let y ← rec x .any\n    let ys ← dumpList rec xs','    let y ← pure x\n    let ys ← dumpList rec xs','elements not dumped','C38','plain data only')
m(D,'iteratordump','if C.isBasic (iterItemTy t) && (C.handlers.head?','if (C.isBasic (iterItemTy t) || true) && (C.handlers.head?','always copies','C38','plain data only')
m(D,'iterItemTy','  | .tuple [t] => t\n','  | .tuple (t :: _) => t\n','first position of a tuple taken as its element type','C38','plain data only for Tuple[int, P] annotations')
m(D,'isDefault','  | some d => pyEq d x\n','  | some d => decide (d = x)\n','identity instead of ==','C39','hidden iff equal to the default')
m(D,'dumpNt','if C.hidedefault && isDefault','if isDefault','hides although hidedefault=False','C39 C42','every field appears',nth=1)
m(D,'dumpAttrs','      if !f.repr then','      if false then','repr=False attributes dumped','C39','repr=False fields skipped')
m(D,'dumpAttrs','(dset acc (.str ((aget f.metadata C.mangleKey).getD f.name)) y)','(dset acc (.str f.name) y)','external name not used by attrs','C39 C44','renaming of attrs')
m(D,'datetimedump','  if C.isodates then','  if false then','isodates ignored','C33','isodates uses ISO strings')
m(D,'datetimedump','pure (.list [.int h, .int mi, .int s, .int us])\n  | .datetime','pure (.list [.int h, .int mi, .int s])\n  | .datetime','microseconds of time dropped','C33 C42','times come back')
m(D,'dstep','      | some x => rec x .any\n','      | some x => pure x\n','value of enum members not dumped','C38','plain data only')
m(D,'dstep','      | some x => rec x .any\n','      | some _ => pure (.str n)\n','enum members dumped by name','C27 C42','enum round trip')
m(D,'dstep','    | .timedelta us => pure (.float (W.totalSeconds us))','    | .timedelta us => pure (.int us)','microseconds','C34 C42','timedelta round trip')
m(D,'dstep','    | .pattern src => pure src\n','    | .pattern src => pure (.pattern src)\n','pattern returned as is','C35 C38','dump returns the source')
m(D,'dstep','  | .str => pure (.str (W.strOf v))','  | .str => pure v','object returned as is','C36 C38','dump is str()')
m(D,'dstep','M.lift (W.dumpCustom i v t)','M.lift (W.dumpCustom i v .any)','annotation not passed to user handler','C53','user handler called with the annotation')
m(D,'defaultDHandlers','    (.isPattern, .pattern),\n    (.isStrconstructed, .str) ]','    (.isPattern, .pattern) ]','no handler for strconstructed','C36 C51 C42','strconstructed types are dumped')
m(D,'dumpDict','    let k\' ← rec k .any\n    let x\' ← rec x .any\n    if W.hash','    let k\' ← pure k\n    let x\' ← rec x .any\n    if W.hash','keys not dumped','C38 C42','plain keys')
m(D,'dumpDict','if W.hash k\' then dumpDict W rec rest (dset acc k\' x\') else M.throw (.plain .type)','dumpDict W rec rest (dset acc k\' x\')','unhashable keys accepted','C38 C52','keys are basic')
m(D,'unableToDump','  | v => .mk .tlValue (.unableToDump v) [] v (some (typeOf v)) []','  | _ => .plain .value','plain ValueError when no handler','C41 C52','TypedloadValueError for unsupported values')
m(D,'dataclassDesc','aset s.dc c (mkDataDesc (W.cls c))','aset s.dc (c + 1) (mkDataDesc (W.cls c))','description cached under another class','C39 C41','history does not matter')
m(D,'mkDataDesc','  fields := cd.fields.map (·.name)\n','  fields := (cd.fields.filter (·.init)).map (·.name)\n','init=False fields not dumped','C39','every field appears')
m(D,'classDefaults','f.default.map (fun d => (f.name, d))','(f.default.filter (fun d => d != .none)).map (fun d => (f.name, d))','default None not hidden','C39','hidden iff equal to the default')
m(L,'tupHandler','    | .ok h => pure h\n    | .error e => M.throw (.plain e)\n\n/-- dataloader.py:443-460','    | .ok h => pure h\n    | .error _ => pure .anyload\n\n/-- dataloader.py:443-460','unsupported position types pass anything','C03 C16','positions have their type')
m(L,'objItems','    if C.dictequivalence then\n      some','    if true then\n      some','Namespace accepted although dictequivalence=False','C29','refused with dictequivalence=False')
m(L,'extraKeys','(fun k => !isFieldKey info.fields k)','(fun k => (typeOf k == .prim .str) && !isFieldKey info.fields k)','non-string extra keys ignored','C20','any unknown key is refused')
m(L,'mangleOrRaise','    if e.isValue then M.throw (mkExc .tlValue (.py e) v t)\n    else if e.isAttr','    if e.isAttr','ValueError of name mangling not converted','C20 C05','typed error for extra keys',nth=1)
m(L,'attrInfo','    | some n => aset acc n f.name\n    | none => acc) []\n\n/-- dataloader.py:857','    | some n => aset acc f.name n\n    | none => acc) []\n\n/-- dataloader.py:857','transform map of attrs inverted','C22 C44','renaming of attrs')
m(L,'attrHints','      | some cv => convType cv\n','      | some _ => .ok f.ty\n','converter type ignored','C37','data loaded into the parameter type')
m(L,'unionTry','if C.uniondebugconflict then unionTry W C rec v t us (c + 1) x es','if C.uniondebugconflict && c == 0 && us.length > 1 then unionTry W C rec v t us (c + 1) x es','last member not tried with uniondebugconflict','C13','ambiguity detected')
m(L,'unionload','else if c = 0 then M.throw (mkExcSubs .tlValue (.unionNone t) v t es)','else if c = 0 then pure v','value returned when no member accepts','C03 C09 C12','union result comes from a member')
m(L,'unionload','    if c = 1 then pure r\n','    if c ≥ 1 then pure r\n','conflicts ignored','C13','two accepting members raise')
m(L,'unionload','M.throw (mkExcSubs .tlValue (.unionNone t) v t es)','M.throw (mkExc .tlValue (.unionNone t) v t)','sub-exceptions lost','C12','one exception per member')
m(L,'enumHints','      (fun ex => enumHints W C rec v e us (es ++ [ex]))','      (fun ex => M.throw ex)','first failing annotation aborts','C27','all annotated types tried')
m(L,'enumload','    | some m => pure m\n    | none => enumHints W C rec v e (W.enm e).hints []','    | some _ => enumHints W C rec v e (W.enm e).hints []\n    | none => enumHints W C rec v e (W.enm e).hints []','plain values not looked up','C27','a member value loads')
m(L,'dtParse','  | .str s => W.fromIso k s\n','  | .str _ => .error .value\n','ISO strings refused','C33','ISO round trip')
m(DT,'dtCall','args.length < 3 ∨ args.length > 7','args.length < 2 ∨ args.length > 7','datetime without day','C33','lists of the wrong length refused')
m(DT,'validTime','h ≤ 23','h ≤ 24','hour 24','C33','time ranges')
m(DT,'daysInMonth','m == 4 || m == 6 || m == 9 || m == 11','m == 6 || m == 9 || m == 11','April has 31 days','C33','calendar')
m(DT,'validTimedelta','us / 86400000000 ≤ 999999999','us / 86400000000 ≤ 1000000000','range','C34','out of range refused')
m(L,'patternload','    if e = .reError then M.throw (mkExc .tlBase (.py e) v t)\n    else if','    if','re.error not wrapped','C35 C05','TypedloadException for bad patterns')
m(L,'forwardrefload','loadWith W C rec v t\' (some (.forwardref n))','loadWith W C rec v t\' none','annotation of forward references lost','C31','trace through forward references')
m(L,'loadResolve','M.modify (fun s => registerName W t { s with idx := aset s.idx t h }); pure h','M.modify (fun s => { s with idx := aset s.idx t h }); pure h','names never registered','C08','loaded types are known by name')
m(L,'resolve','if e.isValue then M.throw missing else M.throw (.plain e)\n\n/-- dataloader.py:290','M.throw (.plain e)\n\n/-- dataloader.py:290','missing handler raises ValueError','C05 C12','typed errors')
m(L,'elemError','  if e.isTL then e.push ⟨v, t, some (.index i)⟩\n','  if e.isTL then e.push ⟨v, t, some (.index (i + 1))⟩\n','index off by one','C15 C16 C31','index of the bad element')
m(L,'elemError','  else mkExc0 .tlType .notTypedload\n','  else e\n','other exceptions not wrapped','C05','typed errors')
m(L,'usesMap','  | .prim _ => !C.isBasic et\n','  | .prim _ => true\n','StopIteration truncates lists of basic types','C15','same length for basic element types')
m(P,'setAdd','if pyIn x xs then xs else xs ++ [x]','xs ++ [x]','sets keep duplicates','C15 C03','sets are deduplicated')
m(L,'dictSlow','loadWith W C rec x vt (some (.value x))','loadWith W C rec x vt (some (.value k))','annotation of values shows the key','C31','trace of dict values')
m(L,'dictload','(fun e => if e.cls.isAttr then M.throw (mkExc .tlAttr .wrapped v\' t) else M.throw e))','(fun e => M.throw e))','AttributeError not wrapped','C05 C29','typed errors for non-dictionaries')
m(L,'indexFrom','  | [], _ => .error .value\n','  | [], _ => .error .type\n','TypeError when no condition matches','C01 C04','no handler: TypedloadTypeError')
m(X,'annText','  | .index i => "[" ++ toString i ++ "]"\n','  | .index i => toString i\n','index without brackets','C32','path format')
m(X,'render','if e.subs.isEmpty then .ok msg else','if true then .ok msg else','sub-exceptions not listed','C32','every sub-exception listed')
m(X,'subLoop','(if i.subs.isEmpty then Except.ok "" else subexceptions W (indent + 1) i)','(Except.ok "" : Except ExcClass String)','nested sub-exceptions not listed','C32','nested sub-exceptions listed')
m(X,'renderPath','if !ps.isEmpty && p == "None" then ".".intercalate ("" :: ps)','if !ps.isEmpty && p == "None" then ".".intercalate ps','leading dot lost','C32','path format')
m(L,'enumCall','  if v ∈ (W.enm e).members.map (fun m => Val.enumv e m.1) then some v\n','  if (match v with | .enumv _ _ => true | _ => false) then some v\n','members of other enums accepted','C27 C03','member of that enum')
m(L,'dictequivalence','.dict (kvs.map (fun p => (.str p.1, p.2))) else v\n  | v => v','.dict ((kvs.drop 1).map (fun p => (.str p.1, p.2))) else v\n  | v => v','first attribute lost','C29','Namespace equals its dictionary')
m(L,'tupleload','    if v.isDict then M.throw (mkExc .tlType .dictAsTuple v t) else\n','','dictionaries accepted as tuples','C16','dictionaries refused')
m(L,'tupElems','    pure (y :: ys)\n  | _, _, _ => pure []','    pure (ys ++ [y])\n  | _, _, _ => pure []','tuple reversed','C16 C42','positions')
m(L,'fillField','    | none => if f.init then .error .type else .ok []','    | none => .ok [(f.name, .none)]','missing arguments become None','C03 C21','fields come from data or defaults')
m(L,'objFields','          let y ← M.rescue (rec h x ft) (fun e =>','          let y ← M.rescue (rec .anyload x ft) (fun e =>','fields not loaded','C03 C21','fields have their type')
m(L,'dataclassInfo','(fun f => f.init && f.default.isNone)','(fun f => f.default.isNone)','init=False fields required','C21','objects load without init=False fields')
m(L,'dataclassCached','objc := aset s.objc c (dataclassInfo C (W.cls c)) }','objc := aset s.objc (c + 1) (dataclassInfo C (W.cls c)) }','description cached under another class','C06 C07','cached descriptions are right')
m(L,'discCached','disc := aset s.disc (.union ts) (mkDisc W s.tdRew ts) }','disc := aset s.disc (.union ts) none }','discriminator forgotten','C06 C07 C50','cached discriminators are right')
m(L,'step','  | .custom i => M.lift (W.customLoad i v t)','  | .custom i => M.lift (W.customLoad i v .any)','type not passed to user handlers','C01 C54','user handlers called with the type')
m(L,'iterElem','if C.isBasic et then (if isInst p x then pure x else rec h x et) else rec h x et\n','if C.isBasic et then rec h x et else rec h x et\n','no bypass for instances','C54','documented bypass (counterexample)')
m(L,'registerName','  | some fr => match W.tyName t with','  | some fr => match (match t with | .obj _ => W.tyName t | _ => none) with','only classes registered by name','C08','loaded types are known by name')
m(L,'basicload','  if typeOf v ≠ t then\n','  if typeOf v ≠ t && !(t == .prim .float && typeOf v == .prim .int) then\n','ints pass as floats','C03 C23','exact type')
m(L,'tupElems','if C.isBasic u && typeOf x == u then','if C.isBasic u && isInstTy u x then','isinstance instead of exact type','C16','bool is not an int in tuples')
m(L,'strconstructload','  match pyCall W t v with\n  | .ok x => pure x\n  | .error e =>\n    if e.isValue then M.throw (mkExc .tlValue (.py e) v t)\n    else if e.isType then M.throw (mkExc .tlType (.py e) v t)\n    else M.throw (mkExc .tlBase','  match pyCall W t v with\n  | .ok x => pure x\n  | .error e =>\n    if e.isValue then M.throw (mkExc .tlType (.py e) v t)\n    else if e.isType then M.throw (mkExc .tlType (.py e) v t)\n    else M.throw (mkExc .tlBase','ValueError becomes TypeError','C36','corresponding exception')
json.dump(M,open('/verif/tools/mutate/m2.json','w'),indent=1,ensure_ascii=False)
print(len(M))
import os
for x in M:
    s=open('/verif/lean/'+x['file']).read(); k=s.count(x['old'])
    if k!=1 and 'nth' not in x: print(x['id'],x['def'],k)
