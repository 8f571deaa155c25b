src={}
_m={}
for f in ['m1.py','m2.py','m3.py']:
    save=muts; muts={}
    exec(open('/tmp/mut/'+f).read())
    _m.update(muts); muts=save
muts.clear()
for i in ['mp14','rp05','rp07','sv08','cn08','pe12','pe15','pe16','pe19','pe22','co03','co04','co26']:
    muts[i]=_m[i]
