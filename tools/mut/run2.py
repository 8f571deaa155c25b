#!/usr/bin/env python3
"""run2.py muts.py out.jsonl ids...: like run.py but removes failing examples and goes on, so that theorems behind them are reached"""
import sys,os,re,json,subprocess,shutil,time
muts={}
exec(open(sys.argv[1]).read())
out=sys.argv[2]; ids=sys.argv[3:] or list(muts)
BASE=os.environ.get('BASE','/tmp/mut/base3'); W=os.environ.get('WORK','/tmp/mut/work2')
DECL=re.compile(r'^\s*(?:@\[[^\]]*\]\s*)?(?:private |protected |noncomputable )*(theorem|def|instance|example|lemma|inductive|structure|abbrev|class)\b\s*([^\s:({\[]*)')
def encl(ls,line):
    for i in range(min(line,len(ls))-1,-1,-1):
        m=DECL.match(ls[i])
        if m: return (m.group(2) or m.group(1)), m.group(1), i
    return '?','?',0
def cut(path,i):
    ls=open(path).read().split('\n')
    j=i+1
    while j<len(ls) and not re.match(r'^(/--|theorem|def|example|lemma|end|namespace|section|instance|private|@\[|set_option|open|abbrev|structure|inductive|noncomputable|variable|/-)',ls[j]): j+=1
    a=i
    # drop the doc comment / set_option ... in above
    while a>0 and ls[a-1].strip().endswith(' in') and ls[a-1].startswith('set_option'): a-=1
    if a>0 and ls[a-1].rstrip().endswith('-/'):
        while not ls[a-1].lstrip().startswith('/-'): a-=1
        a-=1
    while a>0 and ls[a-1].strip().endswith(' in') and ls[a-1].startswith('set_option'): a-=1
    for k in range(a,j): ls[k]=''
    open(path,'w').write('\n'.join(ls))
def errs(o):
    return [(m.group(1),int(m.group(2)),m.group(3)) for m in re.finditer(r'(?:error: )?(Verif/[\w/]+\.lean):(\d+):\d+: (?:error: ?)?(.*)',o) if 'error' in m.group(0)]
for mid in ids:
    m=muts[mid]
    subprocess.run(['rsync','-a','--delete',BASE+'/',W+'/'],check=False) if shutil.which('rsync') else (shutil.rmtree(W,ignore_errors=True),subprocess.run(['cp','-r',BASE,W],check=True))
    bad=False
    for f,old,new in m['edits']:
        p=f'{W}/Verif/{f}'; s=open(p).read()
        if s.count(old)!=1: print(mid,'BAD EDIT',f,s.count(old)); bad=True;break
        open(p,'w').write(s.replace(old,new))
    if bad: continue
    t=time.time(); fails=[];ex=[];rc=None
    for rnd in range(8):
        r=subprocess.run(['lake','build'],cwd=W,capture_output=True,text=True)
        o=r.stdout+r.stderr; rc=r.returncode
        if rc==0: break
        es=errs(o)
        if not es:
            for mod in re.findall(r'^- (Verif[\w.]+)',o,re.M):
                f=mod.replace('.','/')+'.lean'
                rr=subprocess.run(['lake','env','lean','-M','6000',f],cwd=W,capture_output=True,text=True,timeout=3000)
                es+=errs(rr.stdout+rr.stderr) or [(f,1,'killed')]
        cuts={}
        for f,l,msg in es:
            ls=open(f'{W}/{f}').read().split('\n')
            n,k,i=encl(ls,l)
            if k=='example': cuts.setdefault(f,set()).add(i); ex.append(f[6:-5])
            else:
                x=f[6:-5]+':'+n
                if x not in fails: fails.append(x)
        if fails: break
        if not cuts: break
        for f,s in cuts.items():
            for i in sorted(s,reverse=True): cut(f'{W}/{f}',i)
    j=dict(id=mid,definition=m['d'],edit=m['e'],claim=m['c'],rc=rc,secs=int(time.time()-t),failed=fails,examples=sorted(set(ex)),model_error=[x for x in fails if x.startswith('Model/')])
    open(out,'a').write(json.dumps(j)+'\n')
    print(mid,rc,j['secs'],'SURVIVED' if rc==0 else '',j['failed'][:6],'examples in',j['examples'],flush=True)
