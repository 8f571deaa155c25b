import subprocess,re,json
T='import Verif.Props.OverlordCrypto\n'+open('/tmp/wfm/tmpl.lean').read()
src=open('/tmp/wfm/muts.py').read(); exec(src)
for k,(a,b,d,e) in [('base',('','','',''))]+list(muts.items()):
    X=T if k=='base' else T.replace(a,b)
    if k!='base': assert T.count(a)==1,(k,T.count(a))
    open('/tmp/wfm/x.lean','w').write(X)
    o=subprocess.run(['lake','env','lean','/tmp/wfm/x.lean'],capture_output=True,text=True,timeout=300).stdout
    ls=X.split('\n'); f=set()
    for m_ in re.finditer(r'x\.lean:(\d+):\d+: error',o):
        n=int(m_.group(1))
        for q in range(n-1,-1,-1):
            mm=re.match(r'(theorem|def|example|inductive)\s*(\S*)',ls[q])
            if mm: f.add(mm.group(2) or 'example'); break
    print(k,sorted(f),flush=True)
    if k!='base': open('/tmp/mut/out16.jsonl','a').write(json.dumps(dict(id=k,definition='Model/ConsensusLock:Prog.'+d,edit=e,claim='C109',rc=1 if f else 0,secs=0,failed=['Props/WaitFree:'+x for x in sorted(f) if x!='example'],examples=[],model_error=[]))+'\n')
