import json
M=[
("LoadSimplified","blockDictLoopS","    if isSkippedName b.name then blockDictLoopS ops asm ss bs acc\n","    if isSkippedName b.name then .ok acc\n","C148 blocks after a skipped one load, whatever the order"),
("LoadSimplified","blockDictLoopS","(dset acc r.built.block.name r)","(if acc.isEmpty then dset acc r.built.block.name r else acc)","C148 every block counts, not only the first"),
("LoadSimplified","blockDictLoopS","match constructBlockS ops asm ss b with","match constructBlockS (if acc.isEmpty then ops else { ops with solve := fun _ _ => none }) asm ss b with","C148 blocks are simplified alike whatever their place"),
("LoadSimplified","loadRestS","equations := bs.flatMap Built.equations","equations := (bs.take 1).flatMap Built.equations","C148 the equations of every block"),
("LoadSimplified","loadRestS","bd.flatMap fun p => p.2.eliminated)","(bd.take 1).flatMap fun p => p.2.eliminated)","C148 the multipliers eliminated in every block"),
("LoadSimplified","loadRestS","mergeVariables (bs.map fun b => (b.variables","mergeVariables ((bs.take 1).map fun b => (b.variables","C148 the variables of every block"),
("LoadSimplified","loadRestS","mergeParams (bs.map fun b => b.dicts.determ)","mergeParams ((bs.take 1).map fun b => b.dicts.determ)","C148 the computed parameters of every block"),
("LoadSimplified","loadRestS","tryreduce := extractTryreduce m.tryreduce vs.1","tryreduce := extractTryreduce m.tryreduce ((bs.take 1).flatMap Built.variables)","C148 names to reduce are looked up in all blocks"),
("LoadSimplified","loadRestS","ss := sortToString ss","ss := sortToString (ss.take bd.length)","C148 the steady-state values are those of the file"),
("LoadSimplified","loadModelS","match extractSS m.assumptions m with","match extractSS m.assumptions { m with blocks := m.blocks.take 1 } with","C148 the steady-state block is found wherever it stands"),
]
out=[]
for i,(f,d,o,n,c) in enumerate(M):
    out.append(dict(id=f"xz{i:03d}",file=f,old=o,new=n,claim=c,edit=f"`{o.strip()}` -> `{n.strip()}`",count=1,**{'def':d}))
json.dump(out,open('m23.json','w'))
for m in out:
    s=open(f"/verif/lean/Verif/Model/{m['file']}.lean").read(); print(m['id'],s.count(m['old']))
