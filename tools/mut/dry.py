import sys
for f in sys.argv[1:]:
    muts={}
    exec(open(f).read())
    for mid,m in muts.items():
        for ff,old,new in m['edits']:
            s=open('/tmp/mut/base2/Verif/'+ff).read()
            if s.count(old)!=1: print(f,mid,s.count(old),repr(old))
    print(f,len(muts))
