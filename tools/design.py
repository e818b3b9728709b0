"""Regenerates the table of DESIGN.md (between the markers) from properties.jsonl, MANIFEST.json, design_how.json and the Props files."""
import json,re,glob
R='/verif/'
props=[json.loads(l) for l in open(R+'properties.jsonl')]
props.sort(key=lambda p:int(p['id'][1:]))
man={c['property']:c for c in json.load(open(R+'MANIFEST.json'))['claims']}
how=json.load(open(R+'tools/design_how.json'))
loc={}
for f in sorted(glob.glob(R+'lean/Verif/Props/*.lean')):
    s=open(f).read()
    for m in set(re.findall(r'theorem (C\d+)_',s)): loc.setdefault(m,[]).append(f.split('/')[-1][:-5])
rows=['| id | property | Props file | model and proof | status and limits |','|---|---|---|---|---|']
for p in props:
    i=p['id']; c=man[i]
    esc=lambda t:t.replace('|','\\|').replace('\n',' ')
    rows.append(f"| {i} | {esc(p['title'])} | {', '.join(loc.get(i,[]))} | {esc(how.get(i,''))} | **{c['status']}**. {esc(c.get('note',''))} |")
s=open(R+'DESIGN.md').read()
a,b='<!-- table -->','<!-- /table -->'
s=s[:s.index(a)+len(a)]+'\n'+'\n'.join(rows)+'\n'+s[s.index(b):]
open(R+'DESIGN.md','w').write(s)
