import re,random,glob,os,sys
random.seed(20261118)
root='/verif/lean/Verif/Model'
out=[]
def strip_comments(lines):
    """mark which lines are code"""
    code=[];depth=0
    for l in lines:
        if depth==0 and '/-' in l:
            if '-/' in l[l.index('/-'):]: code.append(False); continue
            depth=1; code.append(False); continue
        if depth:
            code.append(False)
            if '-/' in l: depth=0
            continue
        code.append(True)
    return code
DECL=re.compile(r'^(?:private |protected |noncomputable )*(theorem|def|instance|example|lemma|inductive|structure|abbrev|class|mutual|namespace|end|open|variable)\b\s*([^\s:({\[]*)')
OPS=[(r' ≤ ',' < '),(r' < ',' ≤ '),(r' = ',' ≠ '),(r' ≠ ',' = '),(r'\btrue\b','false'),(r'\bfalse\b','true'),(r' \+ 1\b',''),(r' - 1\b',''),
 (r' && ',' || '),(r' \|\| ',' && '),(r' ∧ ',' ∨ '),(r' ∨ ',' ∧ '),(r'\.take ','.drop '),(r'\.drop ','.take '),(r' ∈ ',' ∉ '),(r' ∉ ',' ∈ '),
 (r'\b(\d+)\b',lambda m:str(int(m.group(1))+1)),(r'isSome','isNone'),(r'isNone','isSome'),(r'\.head\?','.getLast?'),(r'\.all ','.any '),(r'\.any ','.all '),(r' \+\+ (\w+)\b',''),(r', (\w+) := [^,{}()]+ \}',' }'),(r'\.reverse\b','')]
per=int(sys.argv[1])
muts=[]
for f in sorted(glob.glob(root+'/*.lean')):
    s=open(f).read(); lines=s.split('\n'); code=strip_comments(lines)
    cur='?';kind='?';cands=[]
    for i,l in enumerate(lines):
        if not code[i]: continue
        m=DECL.match(l)
        if m: kind,cur=m.group(1),m.group(2)
        if kind not in('def','abbrev','instance'): continue
        if l.strip().startswith(('termination_by','decreasing_by','import','deriving','all_goals','simp','omega','exact')): continue
        for k,(pat,rep) in enumerate(OPS):
            for mm in re.finditer(pat,l):
                if pat==' = ' and ('if ' not in l and 'decide' not in l and 'filter' not in l): continue
                if 'hash' in cur.lower() and k==16 : pass
                new=l[:mm.start()]+(rep(mm) if callable(rep) else rep)+l[mm.end():]
                if ':=' in l and l.startswith('def') and mm.start()<l.rfind(':='): continue
                cands.append((i,k,cur,l,new))
    # weight by def: pick at most 2 per def
    random.shuffle(cands); used={}; kinds={};n=0
    for (i,k,d,l,new) in cands:
        if used.get(d,0)>=1 or kinds.get(k,0)>=max(2,per//3): continue
        # unique context
        a,b=i,i
        while s.count('\n'.join(lines[a:b+1]))!=1 and (b-a)<8:
            if a>0 and (b-i)>=(i-a): a-=1
            else: b+=1
        old='\n'.join(lines[a:b+1])
        if s.count(old)!=1: continue
        nl=lines[a:i]+[new]+lines[i+1:b+1]
        used[d]=used.get(d,0)+1; kinds[k]=kinds.get(k,0)+1;n+=1
        base=os.path.basename(f)
        muts.append(('a%s%02d'%(base[:-5].lower()[:6],n),d,l.strip(),new.strip(),'Model/'+base,old,'\n'.join(nl)))
        if n>=per: break
with open('m12.py','w') as o:
    ids=set()
    for (i,d,l,new,f,old,nw) in muts:
        j=i
        while j in ids: j+='x'
        ids.add(j)
        o.write('muts[%r]=dict(d=%r,e=%r,c="",edits=[(%r,%r,%r)])\n'%(j,d,l+'   =>   '+new,f,old,nw))
print(len(muts))
