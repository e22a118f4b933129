import json
L='Verif/Model/Loader.lean'; D='Verif/Model/Dumper.lean'; T='Verif/Model/TypeChecks.lean'; X='Verif/Model/Exceptions.lean'; DT='Verif/Model/DateTime.lean'; WD='Verif/Model/World.lean'; P='Verif/Model/PyOps.lean'
M=[]
def m(file,defn,old,new,edit,claims,claim,**kw):
    M.append(dict(id='M%02d'%(len(M)+1),file=file,**{'def':defn},old=old,new=new,edit=edit,claims=claims.split(),claim=claim,**kw))
m(L,'indexFrom','    | .ok true => .ok i\n','    | .ok true => .ok (i + 1)\n','index returns the position after the match (off by one)','C01 C46','index(T) is the first accepting handler')
m(L,'indexFrom','if C.raiseconditionerrors then .error e else indexFrom','if !C.raiseconditionerrors then .error e else indexFrom','raiseconditionerrors test inverted','C02','a raising condition aborts iff raiseconditionerrors')
m(L,'resolve','    | .ok h => do M.modify (fun s => { s with idx := aset s.idx t h }); pure h\n    | .error e => if e.isValue then M.throw missing','    | .ok h => do M.modify (fun s => { s with idx := aset s.idx t .anyload }); pure h\n    | .error e => if e.isValue then M.throw missing','the cache remembers the wrong handler','C06 C07 C03','cached handlers are the right ones')
m(L,'registerName','      | some _ => s\n','      | some _ => { s with frefs := some (aset fr n t) }\n','a known name is rebound','C08','a name in frefs is never rebound')
m(L,'loadWith','    if e.isTL then M.throw (e.push ⟨v, t, ann⟩) else M.throw (.plain .assertion))\n\n/-! ## Simple','    M.throw (e.push ⟨v, t, ann⟩))\n\n/-! ## Simple','load forwards foreign exceptions','C04','only TypedloadException or AssertionError leave load')
m(L,'loadWith','M.throw (e.push ⟨v, t, ann⟩) else M.throw (.plain .assertion))\n\n/-! ## Simple','M.throw e else M.throw (.plain .assertion))\n\n/-! ## Simple','load does not add to the trace','C31','the first trace item carries value and type given to load')
m(L,'forwardrefload','    | none => M.throw (mkExc .tlBase .frefDisabled v t)\n','    | none => pure v\n','forward references disabled: value passed through','C08 C03','frefs=None raises')
m(L,'literalload','if pyIn v vs then pure v else','if pyIn v (vs.drop 1) then pure v else','first literal skipped','C26','a value equal to an allowed literal loads')
m(L,'literalload','if pyIn v vs then pure v else','if pyIn v vs then pure (vs.headD v) else','returns the first literal instead of the value','C26 C03','Literal returns the value itself')
m(L,'enumCall','((W.enm e).members.find? (fun m => pyEq m.2 v))','((W.enm e).members.reverse.find? (fun m => pyEq m.2 v))','last member instead of first','C27','value equal to a member loads to the first such member')
m(L,'basicload','  if typeOf v ≠ t then\n','  if typeOf v ≠ t && v != .none then\n','None passes as any basic type','C03 C23','result is an instance of the basic type')
m(L,'basicload','else M.throw (mkExc .tlValue (.wrongType v t) v t)\n  else pure v\n\n/-- dataloader.py:799','else (match pyCall W t v with\n      | .ok r => pure r\n      | .error _ => M.throw (mkExc .tlValue (.wrongType v t) v t))\n  else pure v\n\n/-- dataloader.py:799','casts although basiccast=False','C23','basiccast=False never converts')
m(L,'basicload','        else M.throw (mkExc .tlBase (.py e) v t)\n    else M.throw (mkExc .tlValue (.wrongType','        else M.throw (.plain e)\n    else M.throw (mkExc .tlValue (.wrongType','other constructor exceptions not wrapped','C05 C10','load failures are TypedloadException')
m(L,'noneload','if v = .none then pure .none','if v = .none ∨ v = .str "" then pure .none','empty string accepted as None','C28','None accepts only None')
m(L,'newtypeload','  | .newtype _ t\' => loadWith W C rec v t\' none\n','  | .newtype _ _ => pure v\n','NewType returns the value unchecked','C28 C03','NewType behaves as its base type')
m(L,'iterElem','if isInst p x then pure x else rec h x et) else rec h x et\n  | .union','if isInst p x then pure x else pure x) else rec h x et\n  | .union','elements of basic type not converted','C15 C03','every element has the element type')
m(L,'iterElem','if typeOf x ∈ ts then pure x else rec h x et) else rec h x et\n  | _','if typeOf x ∉ ts then pure x else rec h x et) else rec h x et\n  | _','test of the union fast path inverted','C15 C03','elements belong to the union')
m(L,'iterElems','        | .ok acc\' => iterElems W C rec h k et v t xs (i + 1) acc\')','        | .ok acc\' => iterElems W C rec h k et v t xs i acc\')','index not advanced','C15 C31','the error carries the index of the bad element')
m(L,'collAdd','if k.isSet then (if W.hash x then .ok (setAdd acc x) else .error .type) else .ok (acc ++ [x])','if k.isSet then (if W.hash x then .ok (setAdd acc x) else .error .type) else .ok (x :: acc)','elements prepended','C15','order of elements')
m(L,'iterload','  if v.isDict then M.throw (mkExc .tlType .dictAsIter v t) else\n','','dictionaries accepted as iterables','C15','dictionaries are refused')
m(L,'tupleload','C.failonextra && xs.length > ts.length','C.failonextra && xs.length ≥ ts.length','boundary: exact length refused under failonextra','C16','tuple of the exact size loads')
m(L,'tupleload','else if xs.length < ts.length then M.throw (mkExc .tlValue (.tooShort t) v t)\n','else if xs.length + 1 < ts.length then M.throw (mkExc .tlValue (.tooShort t) v t)\n','boundary: one missing element accepted','C16 C03','shorter value refused')
m(L,'tupleload','C.failonextra && xs.length > ts.length','xs.length > ts.length','longer value refused without failonextra','C16','tail ignored without failonextra')
m(L,'tupElems','if C.isBasic u && typeOf x == u then pure x else rec h x u','if C.isBasic u then pure x else rec h x u','basic positions not checked','C16 C03','element i has type i')
m(L,'dictequivalence','if C.dictequivalence then .dict','if true then .dict','dictequivalence option ignored','C29','Namespace refused with dictequivalence=False')
m(L,'dictSlow','    if W.hash k\' then dictSlow W C rec kt vt rest (dset acc k\' x\') else','    if W.hash k\' then dictSlow W C rec kt vt rest (dset acc k x\') else','the unloaded key is stored','C17 C03','keys are loaded')
m(L,'dictFast','    if W.hash k\' then dictFast W C rec kt vt keyF valF rest (dset acc k\' x\') else','    if W.hash k\' then dictFast W C rec kt vt keyF valF rest (if dhas acc k\' then acc else dset acc k\' x\') else','first one wins','C17','last equal key wins')
m(L,'dictFast','    let x\' ← if C.isBasic vt && isInstTy vt x then pure x else\n','    let x\' ← if C.isBasic vt then pure x else\n','basic values not checked','C17 C03','values are loaded')
m(L,'mangleLoop','      if (namesmap.map (·.2)).contains n && (aget namesmap n).isNone then\n        if failonextra then .error .value else mangleLoop namesmap failonextra rest r\n      else match','      match','Python name of a renamed field accepted','C22','Python name not accepted')
m(L,'mangleLoop','        | some n\' => mangleLoop namesmap failonextra rest (dset r (.str n\') x)\n','        | some n\' => mangleLoop namesmap failonextra rest (dset (dset r (.str n\') x) k x)\n','renamed key kept as well','C20 C22','swapped names do not merge')
m(L,'fillField','    | some d => .ok [(f.name, d)]\n    | none => if f.init','    | some _ => .ok [(f.name, .none)]\n    | none => if f.init','default replaced by None','C21 C03','missing fields get the default')
m(L,'objFields','      else objFields W C rec info v t rest acc\n    | _ =>','      else objFields W C rec info v t rest (aset acc n x)\n    | _ =>','unknown keys are stored','C19 C30','unknown keys do not influence the result')
m(L,'objFields','e.push ⟨v, t, some (.field n)⟩','e.push ⟨v, t, none⟩','field annotation lost','C31','trace locates the fault')
m(L,'objloader','if !info.necessary.all (fun n => dhas kvs (.str n)) then','if !info.necessary.any (fun n => dhas kvs (.str n)) then','any instead of all','C18','missing required fields refused')
m(L,'objloader','    else if C.failonextra && !(extraKeys info kvs).isEmpty then\n','    else if C.failonextra && (extraKeys info kvs).length > 1 then\n','a single unknown key accepted','C20','failonextra refuses unknown keys')
m(L,'objloader','        if e.isType then M.throw (mkExc0 .tlType (.py e))\n        else if e.isValue','        if e.isValue','TypeError of the constructor not wrapped','C05','failures are TypedloadException')
m(L,'namedtupleInfo','  necessary := (c.fields.filter (fun f => f.default.isNone)).map (·.name)\n  hints := c.fields.map (fun f => (f.name, f.ty))\n  transforms := []\n\n/-- dataloader.py:612-625 `_namedtupleload`','  necessary := []\n  hints := c.fields.map (fun f => (f.name, f.ty))\n  transforms := []\n\n/-- dataloader.py:612-625 `_namedtupleload`','necessary fields of NamedTuple dropped','C18','missing required field gives TypedloadValueError')
m(L,'dataclassInfo','    | some n => if n = "" then acc else aset acc n f.name','    | some n => if n = "" then acc else aset acc f.name n','transform map inverted','C22 C44','data key is the mangled name')
m(L,'convType','    | t :: _ => .ok t\n','    | t :: _ => .ok (if cv.ret then .any else t)\n','converter with return annotation is untyped','C37','converter parameter type used')
m(L,'typeddictInfo','f.required && !(f.notRequired && !rew)','f.required','NotRequired ignored when listing necessary fields','C30','NotRequired keys not required')
m(L,'typeddictInfo','f.required && !(f.notRequired && !rew)','f.required && !(f.notRequired && rew)','NotRequired honoured only from the second load on','C30 C06','repeated loads do not change what is required')
m(L,'sortArgs','  ts.filter (fun t => !C.isBasic t) ++ ts.filter (fun t => C.isBasic t)','  ts.filter (fun t => C.isBasic t) ++ ts.filter (fun t => !C.isBasic t)','basic members first','C11','non-basic members tried first')
m(L,'sortArgs','  ts.filter (fun t => !C.isBasic t) ++ ts.filter (fun t => C.isBasic t)','  ts.filter (fun t => !C.isBasic t) ++ (ts.filter (fun t => C.isBasic t)).take 1','only one basic member tried','C10 C11 C12','every member is tried')
m(L,'bump','def bump (ts : List Ty) (t : Ty) : List Ty := t :: ts.erase t','def bump (ts : List Ty) (t : Ty) : List Ty := ts.erase t ++ [t]','preferred member last','C11 C50','discriminated member tried first')
m(L,'bump','def bump (ts : List Ty) (t : Ty) : List Ty := t :: ts.erase t','def bump (_ : List Ty) (t : Ty) : List Ty := [t]','only the discriminated member is tried','C10 C50 C12','a wrong discriminator does not refuse')
m(L,'unionTry','        if C.uniondebugconflict then unionTry W C rec v t us (c + 1) x es\n','        if C.uniondebugconflict then unionTry W C rec v t us 1 x es\n','conflict counter not incremented','C13','ambiguity detected')
m(L,'unionTry','unionTry W C rec v t us c r (es ++ [e.push ⟨v, t, some (.union u)⟩])','unionTry W C rec v t us c r [e.push ⟨v, t, some (.union u)⟩]','only the last exception kept','C12','one exception per member')
m(L,'unionTry','        if e.isTL then unionTry W C','        if e.cls.isValue then unionTry W C','only ValueErrors continue the search','C10','a union accepts what any member accepts')
m(L,'unionload','    if C.isBasic (typeOf v) && ts.contains (typeOf v) then pure v else do\n','    do\n','shortcut for exact basic types removed','C11 C14','exact basic type returned unchanged')
m(L,'enumHints','          match enumCall W e x with\n','          match enumCall W e v with\n','looks up the original value instead of the loaded one','C27','annotated types used')
m(L,'enumload','    | none => enumHints W C rec v e (W.enm e).hints []\n','    | none => enumHints W C rec v e ((W.enm e).hints.drop 1) []\n','first annotation skipped','C27','every annotated type tried')
m(L,'apiLoad','  load W C n v t (fresh rew)','  load W C n v t { (fresh rew) with frefs := none }','forward references disabled in typedload.load','C47','same as a fresh loader')
m(L,'mkDisc','some (key, literalTable key data)','some (key, literalTable key data.reverse)','table built in the wrong order','C11','the last declared member owning a literal is selected')
m(L,'commonKeys','ds.all (fun d\' => (d\'.map (·.1)).contains k)','ds.any (fun d\' => (d\'.map (·.1)).contains k)','discriminator need not be in every member','C11','shared discriminator')
m(DT,'isLeap','y % 400 == 0','y % 1000 == 0','wrong leap years','C33','calendar constraints')
m(DT,'validDate','1 ≤ m && m ≤ 12','0 ≤ m && m ≤ 12','month 0 accepted','C33','calendar constraints')
m(DT,'tdSeconds','  | .int n => if validTimedelta (n * 1000000) then .ok (.timedelta (n * 1000000)) else .error .overflow\n  | .bool','  | .int n => if validTimedelta (n * 1000) then .ok (.timedelta (n * 1000)) else .error .overflow\n  | .bool','milliseconds instead of seconds','C34','n is n seconds')
m(L,'patCompile','  | .str _ => (W.reCompile v).map (fun _ => .pattern v)\n','  | .str s => (W.reCompile v).map (fun _ => .pattern (.bytes []))\n','pattern with another source','C35','source is the value')
m(L,'strconstructload','        else M.throw (mkExc .tlBase (.py e) v t)\n\n/-- dataloader.py:897','        else M.throw (.plain e)\n\n/-- dataloader.py:897','other exceptions not wrapped','C36','constructor exceptions become TypedloadException',)
m(T,'is_optional','ts.length == 2 && ts.contains (.prim .none)','ts.contains (.prim .none)','any union with None','C46','is_optional',)
m(T,'is_set','  | .coll k _ => k == .set\n','  | .coll k _ => k == .set || k == .frozenset\n','frozenset is a set','C46','one condition per type')
m(D,'defaultDHandlers','    (.isNamedtuple, .namedtuple),\n    (.isDataclass, .dataclass),\n    (.isIter, .iterator),\n','    (.isIter, .iterator),\n    (.isNamedtuple, .namedtuple),\n    (.isDataclass, .dataclass),\n','NamedTuple dumped as list','C39 C41','NamedTuple fields appear by name')
m(D,'isDefault','  | some d => pyEq d x\n','  | some d => !pyEq d x\n','inverted comparison with the default','C39','only default-valued fields hidden')
m(D,'dumpNt','    if C.hidedefault && isDefault','    if isDefault','hidedefault ignored for NamedTuple','C39','with hidedefault=False every field appears')
m(D,'dumpFields','          | some g => (aget g.metadata C.mangleKey).getD f\n','          | some _ => f\n','mangled name not used','C39','fields appear under the mangled name')
m(D,'dumpAttrs','      else if C.hidedefault && (match f.default with\n          | some d => pyEq x d\n          | none => false)','      else if C.hidedefault && (match f.default with\n          | some d => pyEq x d\n          | none => x == .none)','None hidden although no default','C39','field without default appears')
m(D,'dumpDict','    if W.hash k\' then dumpDict W rec rest (dset acc k\' x\')','    if W.hash k\' then dumpDict W rec rest (dset acc k\' x)','values of dictionaries not dumped','C38','plain data only')
m(D,'datetimedump','  | .date y m d => pure (.list [.int y, .int m, .int d])','  | .date y m d => pure (.list [.int y, .int d, .int m])','day and month swapped','C33','date round trip')
m(D,'datetimedump','    if tz.isSome then M.throw (.plain .notImplemented) else pure (.list [.int h','    if tz.isNone && tz.isSome then M.throw (.plain .notImplemented) else pure (.list [.int h','timezone silently dropped','C33','timezone-aware refused')
m(D,'dResolve','    | .ok h => do M.modify (fun s => { s with hc := aset s.hc (typeOf v) h }); pure h','    | .ok h => do M.modify (fun s => { s with hc := aset s.hc (.opaque "object") h }); pure h','cache keyed wrongly','C41','cached choice right')
m(X,'subLoop','renderPath W (trace ++ i.trace.tail)','renderPath W i.trace.tail','sub-exception path without the prefix','C32','path from the root')
m(X,'renderPath','if ps.isEmpty && p == "None" then "."','if p == "None" then "."','path truncated','C32','path')
json.dump(M,open('/verif/tools/mutate/m1.json','w'),indent=1,ensure_ascii=False)
print(len(M))
