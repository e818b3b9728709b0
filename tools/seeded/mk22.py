import json
L=[
("Loader","astBlockToBlock asm (expandBlock b)","astBlockToBlock asm (if b.shockDists.isEmpty then expandBlock b else b)","C149 shock distributions do not change the equations","constructBlock"),
("LoadSimplified","astBlockToBlock asm (expandBlock b)","astBlockToBlock asm (if b.shockDists.isEmpty then expandBlock b else b)","C149 shock distributions do not change the equations of the default model","constructBlockS"),
("PrintText",'    ++ eqnComp num ind "definitions" b.definitions\n',"","C149 definitions are printed","blockText"),
("PrintText",'eqnComp num ind "constraints" b.constraints','eqnComp num ind "identities" b.constraints',"C149 constraints are printed as constraints","blockText"),
("PrintText",'++ m.blocks.map (blockText num ind))','++ (m.blocks.take 1).map (blockText num ind))',"C149 every block is printed","modelText"),
("PrintText",'if kv.2 then dset g kv.1 ((dget g kv.1).getD [] ++ [va.1]) else g','if kv.2 then dset g kv.1 [va.1] else g',"C149 assumptions of every variable are printed","asmGroups"),
("PrintText",'(vs.map varText)','((vs.map varText).take 1)',"C149 every shock and control is printed","varComp"),
("PrintText",'| .prior d => distText num d','| .prior d => d.param ++ " = 1;".toList',"C149 priors are printed as priors","calText"),
("ToDistribution","loadDists (acceptsDist pz) m.toMdl.blocks [] []","loadDists (acceptsDist pz) m.toMdl.blocks (m.options.map fun p => (p.1, ⟨p.1, p.1, [], none, [], none⟩)) []","C149 options are no priors (C120)","LoadGcnDists"),
]
import re
out=[]
for i,(f,o,n,c,d) in enumerate(L):
    src=open(f'/verif/lean/Verif/Model/{f}.lean').read(); k=src.count(o)
    print(i,f,k)
    out.append(dict(id=f'y{i:03d}',file=f,old=o,new=n,claim=c,edit=f'`{o.strip()}` -> `{n.strip()}`',count=k,**{'def':d}))
json.dump(out,open('m22.json','w'))
