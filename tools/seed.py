"""Apply wrong-program edits to a scratch copy of the model and record which theorems stop proving.
usage: seed.py edits.py   (edits.py defines E = [(file, old, new, claim, note)])
Appends to /verif/seeded/LOG.jsonl."""
import json,os,re,subprocess,sys,shutil,runpy
SRC='/verif/lean'; SC='/tmp/seed/lean'; PR='/tmp/seed/pristine'
def sh(c): return subprocess.run(c,shell=True,capture_output=True,text=True)
def encl(path,line):
    L=open(path).read().split('\n')
    for i in range(min(line,len(L))-1,-1,-1):
        m=re.match(r'(?:@\[.*?\]\s*)?(?:private |noncomputable )?(theorem|lemma|def|example|instance|inductive|structure|abbrev)\s*(\S*)',L[i])
        if m: return m.group(2) or m.group(1)
    return '?'
man={t.split('.')[-1]:c['property'] for c in json.load(open('/verif/MANIFEST.json'))['claims'] for t in c['theorems']}
where={}
for r,_,fs in os.walk(SRC+'/Verif'):
    for f in fs:
        if f.endswith('.lean'):
            p=os.path.join(r,f); mod=os.path.relpath(p,SRC)[:-5].replace('/','.')
            for m in re.finditer(r'^theorem (\S+)',open(p).read(),re.M):
                if m.group(1) in man: where[m.group(1)]=mod
imports={}
for r,_,fs in os.walk(SRC+'/Verif'):
    for f in fs:
        if f.endswith('.lean'):
            p=os.path.join(r,f); mod=os.path.relpath(p,SRC)[:-5].replace('/','.')
            imports[mod]=set(re.findall(r'^import (Verif\S*)',open(p).read(),re.M))
def dependents(bad):
    bad=set(bad)
    while True:
        n={m for m in imports if m not in bad and imports[m]&bad}
        if not n: return bad
        bad|=n
if not os.path.exists(PR) or '--fresh' in sys.argv:
    sh(f'rm -rf {PR} {SC}; mkdir -p /tmp/seed; cp -a {SRC} {PR}; cd {PR} && lake build')
E=runpy.run_path(sys.argv[1])['E']
for (f,old,new,claim,*note) in E:
    sh(f'rm -rf {SC}; cp -a {PR} {SC}')
    p=f'{SC}/Verif/{f}'; s=open(p).read()
    if s.count(old)!=1: print('BAD EDIT',f,old,s.count(old)); continue
    i=s.index(old); 
    open(p,'w').write(s.replace(old,new))
    d=encl(p,s[:i].count('\n')+1)
    r=sh(f'cd {SC} && timeout 1500 lake build')
    out=r.stdout+r.stderr
    errs=[]; mods=set()
    for m in re.finditer(r'error: (Verif/\S+?\.lean):(\d+):',out):
        n=encl(f'{SC}/{m.group(1)}',int(m.group(2)))
        mods.add(m.group(1)[:-5].replace('/','.'))
        if n not in errs: errs.append(n)
    dep=dependents(mods)-mods
    blocked=sorted(t for t,m in where.items() if m in dep)
    rec=dict(definition=f'{f}:{d}',edit=f'{old}  ==>  {new}',claim=claim,theorems_failed=errs,manifest_theorems_no_longer_proved=sorted(set(blocked)|{e for e in errs if e in man}),theorems_tightened=note[0] if note else [])
    if r.returncode==0: rec['survived']=True
    open('/tmp/seed/out.jsonl','a').write(json.dumps(rec,ensure_ascii=False)+'\n')
    print('SURVIVED' if r.returncode==0 else 'caught',f,d,'|',old[:50],'=>',new[:50],'|',errs[:4],len(blocked),flush=True)
