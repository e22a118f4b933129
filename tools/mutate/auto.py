#!/usr/bin/env python3
"""Systematic mutation: applies small syntactic edits all over the model and looks for mutants that nothing notices.
A mutant is killed when a declaration (not an example) of a module outside of the re-implementations of the model (threads, addresses, generators, reference) fails.
usage: auto.py gen OUT.json | auto.py run MUTANTS.json OUT.jsonl"""
import json, os, re, shutil, subprocess, sys, glob, random, concurrent.futures as cf
SRC=os.environ.get('SRC','/verif/lean'); JOBS=int(os.environ.get('JOBS','2')); SCR=os.environ.get('SCR','/tmp/auto')
FILES=['Loader','Dumper','PyOps','TypeChecks','DateTime','Exceptions','World']
OPS=[(r'\btrue\b','false'),(r'\bfalse\b','true'),(r'&&','||'),(r'\|\|','&&'),(r'!(?=[\w(])',''),(r'\.tlType\b','.tlValue'),(r'\.tlValue\b','.tlType'),(r'\.tlBase\b','.tlType'),
 (r'\+ 1\b','+ 2'),(r'\+ 1\b','+ 0'),(r'\bif (?!let)(.*?) then','if ¬ (\\1) then'),(r'(\w+) \+\+ \[(\w+)\]','\\1'),(r'(\w+) \+\+ (\w+)\b','\\2 ++ \\1'),(r' > ',' ≥ '),(r' < ',' ≤ '),(r' ≤ ',' < '),
 (r'(?<==> )some .*$','none'),(r'(?<==> )pure (\w+)$','M.throw (.plain .type)'),(r'\.isType\b','.isValue'),(r'\.isValue\b','.isType'),(r'\.ok (\w+)$','.error .type'),(r'\.error \.type','.error .value'),(r'\.error \.value','.error .type'),
 (r'\b(1[0-9]|[2-9][0-9]+)\b',lambda m:str(int(m.group(0))+1)),(r'\bes ++ \[e\]','es'),(r'\.push ⟨[^⟩]*⟩',''),(r'\bsome \(\.(\w+) (\w+)\)','none'),(r'\.isTL\b','.isTL == false')]
def gen(out):
    res=[]; n=0
    for F in FILES:
        p=SRC+'/Verif/Model/%s.lean'%F; s=open(p).read()
        # blank comments
        c=re.sub(r'/-.*?-/',lambda m:re.sub(r'[^\n]',' ',m.group(0)),s,flags=re.S); c=re.sub(r'--.*',lambda m:' '*len(m.group(0)),c)
        lines=c.split('\n'); orig=s.split('\n'); cur='?'; inthm=False
        for i,l in enumerate(lines):
            m=re.match(r'\s*(?:@\[[^\]]*\]\s*)?(?:private |protected )*(theorem|def|example|instance|inductive|structure|abbrev|mutual|end|namespace|class)\b\s*(\S*)',l)
            if m and not l.startswith('   '): cur=m.group(2); kind=m.group(1); inthm = kind not in('def','abbrev')
            if inthm or ':=' in l and 'structure' in l: continue
            body=l
            start=0
            if m and ':=' not in l and '=>' not in l: continue
            if m: start=l.index(':=') if ':=' in l else 0
            for pat,rep in OPS:
                for x in re.finditer(pat,l[start:]):
                    a,b=x.start()+start,x.end()+start
                    new=orig[i][:a]+(rep(x) if callable(rep) else x.expand(rep))+orig[i][b:]
                    if new!=orig[i]:
                        n+=1; res.append(dict(id='A%03d'%n,file='Verif/Model/%s.lean'%F,line=i,old=orig[i],new=new,**{'def':cur}))
            # arm deletion
            if re.match(r'\s*\| .*=> ',l) and i+1<len(lines) and re.match(r'\s*\| ',lines[i+1]):
                n+=1; res.append(dict(id='A%03d'%n,file='Verif/Model/%s.lean'%F,line=i,old=orig[i],new='',**{'def':cur}))
            if re.match(r'\s*M\.modify',l):
                n+=1; res.append(dict(id='A%03d'%n,file='Verif/Model/%s.lean'%F,line=i,old=orig[i],new=re.sub(r'M\.modify.*','pure ()',l),**{'def':cur}))
    json.dump(res,open(out,'w'),indent=0,ensure_ascii=False); print(len(res))
if sys.argv[1]=='gen': gen(sys.argv[2]); sys.exit()
muts=json.load(open(sys.argv[2])); out=sys.argv[3]; ids=set(sys.argv[4:])
subprocess.run(['rm','-rf',SCR]); os.makedirs(SCR)
shutil.copy('/verif/tools/mutate/Driver.lean.txt', SCR+'/Driver.lean')
path=subprocess.run(['lake','env','printenv','LEAN_PATH'],cwd=SRC,capture_output=True,text=True).stdout.strip()
rest=':'.join(p for p in path.split(':') if not p.startswith(SRC))
mods={}
for f in glob.glob(SRC+'/Verif/**/*.lean',recursive=True):
    m=os.path.relpath(f,SRC)[:-5].replace('/','.')
    mods[m]=[l.split()[1] for l in open(f) if l.startswith('import Verif')]
def rdeps(ms):
    r=set(ms); ch=True
    while ch:
        ch=False
        for k,d in mods.items():
            if k not in r and any(x in r for x in d): r.add(k); ch=True
    return r
EXCL=set()
IGN={'Verif.'+x for x in 'Spec.Reference Lemmas.Ref Lemmas.RefRun Lemmas.RefObj Lemmas.ThreadsSeq Lemmas.Threads Lemmas.ThreadsRef Lemmas.ThreadsSat Lemmas.DumpThreads Props.DumpThreads Lemmas.Faults Lemmas.LoadObjects Lemmas.LoadObjectsAll Lemmas.LoadObjectsRun Lemmas.LoadObjectsStep Lemmas.DumpObjects Props.Generators'.split()}
ks=[m for m in mods if m not in EXCL]
def encl(lines,n):
    for i in range(min(n,len(lines))-1,-1,-1):
        x=re.match(r'\s*(?:@\[[^\]]*\]\s*)?(?:private |protected |noncomputable )*(theorem|def|example|instance|inductive|structure|abbrev)\b\s*(\S*)',lines[i])
        if x: return x.group(1)+' '+x.group(2) if x.group(1) in('example','instance') else x.group(2)
    return '?'
done={json.loads(l)['id'] for l in open(out)} if os.path.exists(out) else set()
import time
for mu in muts:
    if ids and mu['id'] not in ids or not ids and mu['id'] in done: continue
    t0=time.time()
    B=SCR+'/lib'; S=SCR+'/src'
    shutil.rmtree(B,ignore_errors=True); shutil.rmtree(S,ignore_errors=True); shutil.copytree(SRC+'/Verif',S+'/Verif')
    f=S+'/'+mu['file']; L=open(f).read().split('\n')
    assert L[mu['line']]==mu['old']; L[mu['line']]=mu['new']; open(f,'w').write('\n'.join(L))
    m0=mu['file'][:-5].replace('/','.')
    redo=rdeps([m0])&set(ks)
    for m in ks:
        if m not in redo:
            p=m.replace('.','/'); d=B+'/'+os.path.dirname(p); os.makedirs(d,exist_ok=True)
            for g in glob.glob(SRC+'/.lake/build/lib/lean/'+p+'.olean*'):
                if not g.endswith('.hash'): os.symlink(g,B+'/'+p+g[len(SRC+'/.lake/build/lib/lean/'+p):])
    env=dict(os.environ,LEAN_PATH=B+':'+rest)
    def build(m):
        p=m.replace('.','/'); os.makedirs(os.path.dirname(B+'/'+p),exist_ok=True)
        try: r=subprocess.run(['nice','lean','--run',SCR+'/Driver.lean',m,S+'/'+p+'.lean',B+'/'+p+'.olean'],env=env,capture_output=True,text=True,timeout=400)
        except subprocess.TimeoutExpired: return m,['TIMEOUT']
        lines=open(S+'/'+p+'.lean').read().split('\n'); fl=[]
        for l in r.stdout.split('\n'):
            if l.startswith('ERR '):
                e=encl(lines,int(l.split()[1]))
                if e not in fl: fl.append(e)
        if r.returncode!=0: fl.append('CRASH '+r.stderr[-200:])
        return m,fl
    left=set(redo); built=set(ks)-redo; running={}; fails={}; verdict='SURVIVED'
    with cf.ThreadPoolExecutor(JOBS) as ex:
        while left or running:
            for m in sorted(left):
                if all(d in built for d in mods[m]) and len(running)<JOBS:
                    left.discard(m); running[ex.submit(build,m)]=m
            dn,_=cf.wait(running,return_when=cf.FIRST_COMPLETED)
            for d in dn:
                m,fl=d.result(); running.pop(d); built.add(m)
                if fl: fails[m]=fl
                real=[x for x in fl if not x.startswith('example')]
                if m==m0 and real: verdict='INVALID'; left.clear()
                elif m.startswith('Verif.Model.') and real and verdict=='SURVIVED': verdict='INVALID'; left.clear()
                elif real and m not in IGN and verdict=='SURVIVED': verdict='killed'; left.clear()
    rec=dict(mu,verdict=verdict,fails=fails,secs=round(time.time()-t0))
    with open(out,'a') as g: g.write(json.dumps(rec,ensure_ascii=False)+'\n')
    print(mu['id'],mu['def'],verdict,{k:v[:3] for k,v in fails.items()},rec['secs'],flush=True)
