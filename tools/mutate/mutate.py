#!/usr/bin/env python3
"""Mutation testing of the theorems.

For every mutation (a realistic bug put into the model) the whole project is elaborated in a scratch copy; failed proofs are admitted
and elaboration goes on, so that the list of property theorems that no longer hold (directly, or because a lemma they rest on fails)
is complete.  usage: mutate.py MUTATIONS.json OUT.jsonl [ids...]"""
import json, os, re, shutil, subprocess, sys, concurrent.futures as cf, glob, hashlib
SRC=os.environ.get('SRC','/verif/lean'); JOBS=int(os.environ.get('JOBS','3'))
SCR=os.environ.get('SCR','/tmp/mut')
muts=json.load(open(sys.argv[1])); out=sys.argv[2]; ids=set(sys.argv[3:])
subprocess.run(['rm','-rf',SCR]); os.makedirs(SCR)
shutil.copy('/verif/tools/mutate/Driver.lean.txt', SCR+'/Driver.lean')
path=subprocess.run(['lake','env','printenv','LEAN_PATH'],cwd=SRC,capture_output=True,text=True).stdout.strip()
rest=':'.join(p for p in path.split(':') if not p.startswith(SRC))
mods={}
for f in glob.glob(SRC+'/Verif/**/*.lean',recursive=True):
    m=os.path.relpath(f,SRC)[:-5].replace('/','.')
    mods[m]=[l.split()[1] for l in open(f) if l.startswith('import Verif')]
thms=[t for c in json.load(open('/verif/MANIFEST.json'))['claims'] for t in c['theorems']]
def rdeps(m):
    r={m}; ch=True
    while ch:
        ch=False
        for k,d in mods.items():
            if k not in r and any(x in r for x in d): r.add(k); ch=True
    return r
def encl(lines,n):
    for i in range(min(n,len(lines))-1,-1,-1):
        x=re.match(r'\s*(?:@\[[^\]]*\]\s*)?(?:private |protected |noncomputable )*(theorem|def|example|instance|inductive|structure|abbrev)\b\s*(\S*)',lines[i])
        if x: return x.group(1)+' '+x.group(2) if x.group(1) in('example','instance') else x.group(2)
    return '?'
done=set()
if os.path.exists(out): done={json.loads(l)['id'] for l in open(out)}
for mu in muts:
    if ids and mu['id'] not in ids: continue
    if not ids and mu['id'] in done: continue
    B=SCR+'/lib'; S=SCR+'/src'
    shutil.rmtree(B,ignore_errors=True); shutil.rmtree(S,ignore_errors=True)
    shutil.copytree(SRC+'/Verif',S+'/Verif'); 
    f=S+'/'+mu['file']; s=open(f).read()
    edits=mu.get('edits') or [[mu['old'],mu['new']]]
    bad=False
    for o,n in edits:
        k=s.count(o)
        if k<1 or (k>1 and not mu.get('nth') and not mu.get('all')): print(mu['id'],'pattern count',k,repr(o)); bad=True; break
        if mu.get('all'): s=s.replace(o,n)
        else:
            nth=mu.get('nth',1); i=-1
            for _ in range(nth): i=s.index(o,i+1)
            s=s[:i]+n+s[i+len(o):]
    if bad: continue
    open(f,'w').write(s)
    m0=mu['file'][:-5].replace('/','.')
    redo=rdeps(m0)
    for g,es in mu.get('also',{}).items():
        t=open(S+'/'+g).read()
        for o,n in es:
            if t.count(o)!=1: print(mu['id'],g,'pattern count',t.count(o),repr(o)); bad=True; break
            t=t.replace(o,n)
        open(S+'/'+g,'w').write(t); redo|=rdeps(g[:-5].replace('/','.'))
    if bad: continue
    # link unaffected oleans
    for m in mods:
        if m not in redo:
            p=m.replace('.','/'); d=B+'/'+os.path.dirname(p); os.makedirs(d,exist_ok=True)
            for g in glob.glob(SRC+'/.lake/build/lib/lean/'+p+'.olean*'):
                if not g.endswith('.hash'): os.symlink(g,B+'/'+p+g[len(SRC+'/.lake/build/lib/lean/'+p):])
    env=dict(os.environ,LEAN_PATH=B+':'+rest)
    fails={}
    def build(m):
        p=m.replace('.','/'); os.makedirs(os.path.dirname(B+'/'+p),exist_ok=True)
        try:
            r=subprocess.run(['nice','lean','--run',SCR+'/Driver.lean',m,S+'/'+p+'.lean',B+'/'+p+'.olean'],env=env,capture_output=True,text=True,timeout=1500)
        except subprocess.TimeoutExpired:
            return m,['TIMEOUT'],''
        lines=open(S+'/'+p+'.lean').read().split('\n')
        fl=[]
        for l in r.stdout.split('\n'):
            if l.startswith('ERR '):
                e=encl(lines,int(l.split()[1]))
                if e not in fl: fl.append(e)
        if r.returncode!=0: fl.append('CRASH '+r.stderr[-200:])
        return m,fl,r.stdout
    left=set(redo); built=set(mods)-redo; running={}
    logtxt=''
    with cf.ThreadPoolExecutor(JOBS) as ex:
        while left or running:
            for m in sorted(left):
                if all(d in built for d in mods[m]):
                    left.discard(m); running[ex.submit(build,m)]=m
            dn,_=cf.wait(running,return_when=cf.FIRST_COMPLETED)
            for d in dn:
                m,fl,t=d.result(); running.pop(d); built.add(m)
                if fl: fails[m]=fl; logtxt+='== '+m+'\n'+t
    open(SCR+'/'+mu['id']+'.log','w').write(logtxt)
    chk=SCR+'/Chk.lean'
    with open(chk,'w') as g:
        for m in mods: g.write('import '+m+'\n')
        g.write('open Lean Elab Command in\nrun_cmd do\n  for n in #[%s] do\n    let env ← getEnv\n    if !env.contains n then logInfo m!"BROKEN {n}"\n    else\n      let ax ← liftCoreM (collectAxioms n)\n      if ax.contains ``sorryAx then logInfo m!"BROKEN {n}"\n'%', '.join('`'+t for t in thms))
    r=subprocess.run(['lean',chk],env=env,capture_output=True,text=True)
    broken=re.findall(r'BROKEN (\S+)',r.stdout)
    if r.returncode!=0: print(r.stdout[-500:],r.stderr[-500:])
    direct=[x for m in fails for x in fails[m]]
    cl=set(b.split('.')[1].split('_')[0] for b in broken)
    rec=dict(id=mu['id'],definition=mu['def'],edit=mu['edit'],claims=mu['claims'],claim=mu.get('claim',''),failed_lemmas=[m+': '+', '.join(x) for m,x in fails.items()],
             failed_theorems=broken, missed=[c for c in mu['claims'] if c not in cl])
    with open(out,'a') as g: g.write(json.dumps(rec,ensure_ascii=False)+'\n')
    print(mu['id'],'broken',len(broken),'missed',rec['missed'],flush=True)
