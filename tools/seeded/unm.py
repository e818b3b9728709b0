import json,re,glob
hit={}
for f in glob.glob('/tmp/mut/m*.json'):
    for m in json.load(open(f)):
        try: s=open(f"/verif/lean/Verif/Model/{m['file']}.lean").read()
        except: continue
        i=s.find(m['old'])
        if i<0: continue
        ds=[(x.start(),x.group(1)) for x in re.finditer(r'^(?:@\[[^\]]*\] )?(?:noncomputable )?(?:partial )?def (\S+)',s,re.M)]
        # a def's extent starts at its docstring
        name=None
        for p,n in ds:
            if p<=i+len(m['old']): name=n
        hit.setdefault(m['file'],set()).add(name)
        name=None
        for p,n in ds:
            if p<=i: name=n
        hit.setdefault(m['file'],set()).add(name)
un={};tot=0
for f in sorted(glob.glob('/verif/lean/Verif/Model/*.lean')):
    s=open(f).read(); b=f.split('/')[-1][:-5]
    if b.endswith('Spec'): continue
    for d in re.findall(r'^(?:@\[[^\]]*\] )?(?:noncomputable )?(?:partial )?def (\S+)',s,re.M):
        tot+=1
        if d not in hit.get(b,set()): un.setdefault(b,[]).append(d)
print(tot,sum(map(len,un.values())))
for k,v in un.items(): print(k,len(v),' '.join(v))
