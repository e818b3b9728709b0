"""Regenerates the per-file coverage table of DESIGN.md (between the coverage markers) from the citations in lean/Verif/Model."""
import ast,os,re,glob
R='/verif/'; cit={}; src={}
for f in sorted(glob.glob(R+'lean/Verif/Model/*.lean')):
    t=open(f).read()
    for m in re.finditer(r'([A-Za-z_0-9/]+\.py):([0-9][0-9,\- ]*)',t):
        b=m.group(1).split('/')[-1]
        src.setdefault(b,set()).add(f.split('/')[-1][:-5])
        for r in re.findall(r'(\d+)(?:-(\d+))?',m.group(2)):
            cit.setdefault(b,[]).append((int(r[0]),int(r[1] or r[0])))
rows=['| file | model modules citing it | functions not modelled (line) |','|---|---|---|']
for root,ds,fs in os.walk('/repo/gEconpy'):
    ds.sort()
    for f in sorted(fs):
        if not f.endswith('.py') or f.startswith('__'): continue
        p=os.path.join(root,f); t=ast.parse(open(p).read()); tot=0; unc=[]
        for n in ast.walk(t):
            if isinstance(n,ast.FunctionDef):
                tot+=1
                if not any(a<=n.end_lineno and b>=n.lineno-3 for a,b in cit.get(f,[])): unc.append((n.lineno,n.name))
        if not tot: continue
        unc.sort()
        if len(unc)==tot: u='all'; ms='—'
        else:
            u=', '.join(f'`{n}` ({l})' for l,n in unc) or '—'; ms=', '.join(sorted(src.get(f,[])))
        rows.append(f"| {p[14:]} | {ms} | {u} |")
s=open(R+'DESIGN.md').read()
a,b='<!-- coverage -->','<!-- /coverage -->'
s=s[:s.index(a)+len(a)]+'\n'+'\n'.join(rows)+'\n'+s[s.index(b):]
open(R+'DESIGN.md','w').write(s)
