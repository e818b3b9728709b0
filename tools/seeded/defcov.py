import json,re,glob,os
mut={}
for f in glob.glob('m*.json'):
    try: d=json.load(open(f))
    except Exception: continue
    if not isinstance(d,list): continue
    for e in d:
        if isinstance(e,dict) and 'def' in e: mut.setdefault((e.get('file')),[]).append(e)
tot=0;unm=0
for p in sorted(glob.glob('/verif/lean/Verif/Model/*.lean')):
    b=os.path.basename(p)[:-5]
    s=open(p).read()
    ds=[(m.start(),m.group(2)) for m in re.finditer(r'^(?:noncomputable )?(def|abbrev|partial def) ([^\s(:{\[]+)',s,re.M)]
    ds=[(a,n) for a,n in ds]
    ends=[a for a,_ in ds[1:]]+[len(s)]
    touched=set()
    for e in mut.get(b,[]):
        o=e['old']; i=s.find(o)
        for (a,n),z in zip(ds,ends):
            if (i>=0 and a<=i<z) or e['def']==n or e['def'].split('.')[-1]==n.split('.')[-1]: touched.add(n)
    miss=[n for _,n in ds if n not in touched]
    tot+=len(ds);unm+=len(miss)
    print(b,len(ds),len(mut.get(b,[])),'MISS',miss)
print(tot,unm)
