_all={}
for _f in ['m1.py','m2.py','m3.py','m4.py','m6.py']:
    _ns={'muts':{}}
    exec(open('/tmp/mut/'+_f).read(),_ns)
    for k,v in _ns['muts'].items(): _all.setdefault(k,v)
muts=_all
