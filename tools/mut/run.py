#!/usr/bin/env python3
"""usage: run.py muts.py out.jsonl  -- runs every mutation whose id is not in out.jsonl yet"""
import sys,os,re,json,subprocess,shutil,time
muts={}
exec(open(sys.argv[1]).read())
out=sys.argv[2]
done=set()
if os.path.exists(out):
    done={json.loads(l)['id'] for l in open(out)}
BASE=os.environ.get('BASE','/tmp/mut/base'); W=os.environ.get('WORK','/tmp/mut/work')
DECL=re.compile(r'^\s*(?:@\[[^\]]*\]\s*)?(?:private |protected |noncomputable )*(theorem|def|instance|example|lemma|inductive|structure|abbrev|class)\b\s*([^\s:({\[]*)')
def encl(path,line):
    ls=open(path).read().split('\n')
    for i in range(min(line,len(ls))-1,-1,-1):
        m=DECL.match(ls[i])
        if m: return (m.group(2) or m.group(1)), m.group(1)
    return '?','?'
for mid,m in muts.items():
    if mid in done: continue
    shutil.rmtree(W,ignore_errors=True)
    subprocess.run(['cp','-r',BASE,W],check=True)
    ok=True
    for f,old,new in m['edits']:
        p=f'{W}/Verif/{f}'
        s=open(p).read()
        if s.count(old)!=1:
            print(mid,'BAD EDIT',f,s.count(old),repr(old)); ok=False;break
        open(p,'w').write(s.replace(old,new))
    if not ok: continue
    t=time.time()
    try:
        r=subprocess.run(['lake','build'],cwd=W,capture_output=True,text=True,timeout=3000)
        o=r.stdout+r.stderr; rc=r.returncode
    except subprocess.TimeoutExpired as e:
        o=(e.stdout or b'').decode() if isinstance(e.stdout,bytes) else (e.stdout or ''); rc='timeout'
    fails=[];modelerr=[]
    for mm in re.finditer(r'error: (Verif/[\w/]+\.lean):(\d+):(\d+): ?(.*)',o):
        n,k=encl(f'{W}/{mm.group(1)}',int(mm.group(2)))
        rec=(mm.group(1),n)
        if mm.group(1).startswith('Verif/Model/'): modelerr.append(rec+(mm.group(4),))
        if rec not in fails: fails.append(rec)
    j=dict(id=mid,definition=m['d'],edit=m['e'],claim=m['c'],rc=rc,secs=int(time.time()-t),failed=[f'{a[6:-5]}:{b}' for a,b in fails],model_error=[list(x) for x in modelerr])
    open(out,'a').write(json.dumps(j)+'\n')
    print(mid,rc,j['secs'],'SURVIVED' if rc==0 else '', 'MODELERR' if modelerr else '', j['failed'][:6],flush=True)
