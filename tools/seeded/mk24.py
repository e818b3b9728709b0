import json
M=[
("Loader","loadDists","(blockShockDists (blockPriors ok b ps) b sd)","(blockShockDists (blockPriors ok b ps) b [])","C148 the shock distributions of every block"),
("Loader","loadDists","loadDists ok bs (blockPriors ok b ps)","loadDists ok bs (if ps.length < 2 then blockPriors ok b ps else ps)","C148 the priors of every block, wherever it stands"),
("Loader","blockPriors","if ok d then dset ps d.param d else ps","if ok d then dset ps d.param { d with initial := if ps.isEmpty then d.initial else none } else ps","C148 a prior does not depend on the priors before it"),
("Loader","createShockDist","shockLoop priors item.kwargs { name := item.param }","shockLoop (priors.take 2) item.kwargs { name := item.param }","C148 a shock's priors are found wherever they stand among the priors"),
]
out=[]
for i,(f,d,o,n,c) in enumerate(M):
    out.append(dict(id=f"xz1{i:02d}",file=f,old=o,new=n,claim=c,edit=f"`{o.strip()}` -> `{n.strip()}`",count=1,**{'def':d}))
json.dump(out,open('m24.json','w'))
for m in out:
    s=open(f"/verif/lean/Verif/Model/{m['file']}.lean").read(); print(m['id'],s.count(m['old']))
