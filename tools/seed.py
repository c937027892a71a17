#!/usr/bin/env python3
"""Seeded-bug harness.  usage: seed.py edits.json results.json
Each edit: {"id","file"(relative to lean/),"def"(full name),"old","new","edit","claim"(list of ids the edit falsifies)}.
Works in /tmp/seed/<id>; a failing proof leaves its theorem depending on sorryAx (Lean's error recovery), the oleans are written anyway,
and every theorem of MANIFEST.json is then checked for that dependency."""
import json,os,re,subprocess,sys,shutil
from concurrent.futures import ThreadPoolExecutor
B='/tmp/seed/base'
shutil.rmtree(B,ignore_errors=True); os.makedirs(B)
subprocess.run(['cp','-r','/verif/lean/Verif','/verif/lean/Verif.lean','/verif/MANIFEST.json',B],check=True)
subprocess.run(['cp','-r','/verif/lean/.lake/build/lib/lean',B+'/lib'],check=True)
L=B
def imports(mod):
    f=L+'/'+mod.replace('.','/')+'.lean'
    return [x.split()[1] for x in open(f) if x.startswith('import Verif')]
mods=[x.split()[1] for x in open(L+'/Verif.lean') if x.startswith('import Verif')]
deps={m:imports(m) for m in mods}
LP=subprocess.run(['lake','env','printenv','LEAN_PATH'],cwd='/verif/lean',capture_output=True,text=True).stdout.strip()
def run(ed):
    W='/tmp/seed/'+ed['id']; shutil.rmtree(W,ignore_errors=True); os.makedirs(W)
    subprocess.run(['cp','-rs',B+'/lib',W+'/out'],check=True)
    src=open(L+'/'+ed['file']).read()
    assert src.count(ed['old'])==1,(ed['id'],src.count(ed['old']))
    m0=ed['file'][:-5].replace('/','.')
    dirty={m0}
    for _ in range(80):
        for m in mods:
            if any(d in dirty for d in deps[m]): dirty.add(m)
    todo=[m for m in mods if m in dirty]
    if os.environ.get('SEED_LOCAL'):  # only the modules of the same area
        todo=[m for m in todo if m.split('.')[1]==m0.split('.')[1]]; dirty=set(todo)
    env=dict(os.environ,LEAN_PATH=W+'/out:'+':'.join(LP.split(':')[1:]))
    fails={}
    def comp(m):
        p=L+'/'+m.replace('.','/')+'.lean'
        text=open(p).read()
        if m==m0: text=text.replace(ed['old'],ed['new'])
        q=W+'/'+m+'.lean'; open(q,'w').write(text)
        o=W+'/out/'+m.replace('.','/')+'.olean'
        for suf in ('.olean','.ilean'):
            try: os.remove(W+'/out/'+m.replace('.','/')+suf)
            except FileNotFoundError: pass
        r=subprocess.run(['lean','--run','/tmp/seed/driver.lean','compile',q,m,o],env=env,capture_output=True,text=True,timeout=3000)
        lines=text.split('\n'); bad=[]
        for e in re.findall(r':(\d+):\d+: error',r.stdout):
            for k in range(int(e)-1,-1,-1):
                g=re.match(r'(?:@\[.*?\]\s*)?(?:private |noncomputable |protected )*(theorem|lemma|def|example|instance|abbrev|structure)\s*(\S*)',lines[k])
                if g:
                    n=g.group(2) or 'example@%d'%(k+1)
                    if n not in bad: bad.append(n)
                    break
        if not os.path.exists(o): bad.append('NO OLEAN '+r.stderr[-300:])
        fails[m]=bad
    done=set(mods)-dirty
    with ThreadPoolExecutor(3) as ex:
        while todo:
            ready=[m for m in todo if all(d in done for d in deps[m])]
            list(ex.map(comp,ready)); done|=set(ready); todo=[m for m in todo if m not in ready]
    man=json.load(open(B+'/MANIFEST.json'))
    ns='.'.join(ed.get('def','-').split('.')[:2])+'.'
    # only the theorems of the falsified claims and of the namespace of the edit (SEED_ALL: all theorems)
    names=[t for c in man['claims'] for t in c['theorems'] if os.environ.get('SEED_ALL') or c['property'] in ed['claim'] or t.startswith(ns)]
    open(W+'/names','w').write('\n'.join(names))
    # top module
    open(W+'/Verif.lean','w').write(open(L+'/Verif.lean').read())
    os.remove(W+'/out/Verif.olean')
    subprocess.run(['lean','--run','/tmp/seed/driver.lean','compile',W+'/Verif.lean','Verif',W+'/out/Verif.olean'],env=env)
    r=subprocess.run(['lean','--run','/tmp/seed/driver.lean','axioms','Verif',W+'/names',ed.get('def','-')],env=env,capture_output=True,text=True)
    out=r.stdout.split('\n')
    broken=[x.split()[1] for x in out if x.startswith(('BROKEN','MISSING'))]
    survive=[x.split()[1] for x in out if x.startswith('USES')]
    shutil.rmtree(W)
    bc=sorted({c['property'] for c in man['claims'] if any(t in broken for t in c['theorems'])})
    return dict(ed,direct={m:b for m,b in fails.items() if b},broken=broken,survive=survive,broken_claims=bc,err=r.stderr[-300:])
if __name__=='__main__':
    os.makedirs('/tmp/seed',exist_ok=True); shutil.copy('/verif/tools/seed_driver.txt','/tmp/seed/driver.lean')
    res=[]
    for ed in json.load(open(sys.argv[1])):
        try: x=run(ed)
        except Exception as e: x=dict(ed,exc=repr(e))
        res.append(x); json.dump(res,open(sys.argv[2],'w'),indent=1)
        json.dump(res,open(sys.argv[2],'w'),indent=1); print(x['id'],'claim',x.get('claim'),'broken',x.get('broken_claims'),'OK' if set(x.get('claim',[]))<=set(x.get('broken_claims',[])) else '*** WEAK',x.get('exc',''),flush=True)
