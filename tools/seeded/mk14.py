import json
F=('Report','DataFromPrior','LoadSimplified')
src={f:open(f'/verif/lean/Verif/Model/{f}.lean').read() for f in F}
L=[]
def m(file,d,old,new,claim,count=1,nth=None): L.append((file,d,old,new,claim,count,nth))
R='Report';D='DataFromPrior';S='LoadSimplified'
m(R,'commaJoin',"| n :: ns => n ++ \", \".toList ++ commaJoin ns","| n :: ns => n ++ \",\".toList ++ commaJoin ns",'C124 separator')
m(R,'expandedLen',"8 - col % 8","4 - col % 4",'C124 width of tabs',2)
m(R,'expandedLen',"else if c = '\\n' then expandedLen 0 (len + 1) cs","else if c = '\\n' then expandedLen 0 0 cs",'C124 width')
m(R,'wrapNames',"(if ns = [] then [] else \", \".toList)","\", \".toList",'C124 no trailing comma')
m(R,'wrapNames',"if width < tabLen cur + candidate.length","if width ≤ tabLen cur + candidate.length",'C124 line broken too early')
m(R,'wrapNames',"if width < tabLen cur + candidate.length","if width + 5 < tabLen cur + candidate.length",'C124 line too long')
m(R,'wrapNames',"wrapNames indent width false (indent ++ candidate) ns","wrapNames indent width false indent ns",'C124 name lost at the break')
m(R,'wrapNames',"cur ++ ['\\n'] ++ wrapNames indent width false (indent","wrapNames indent width false (indent",'C124 line lost')
m(R,'wrapNames',"(indent ++ candidate)","candidate",'C124 indentation')
m(R,'formatSSVarList',"(width : Nat := 80)","(width : Nat := 60)",'C124 width 80')
m(R,'formatSSVarList',"List.replicate (tabLen pre) ' '","List.replicate pre.length ' '",'C124 indentation')
m(R,'pluralize',"(if count = 1 then word else \"have\".toList)","\"have\".toList",'C124 has/have')
m(R,'pluralize',"else if count = 1 then word else word ++ \"s\".toList","else if count ≤ 1 then word else word ++ \"s\".toList",'C124 plural of 0')
m(R,'namesSection',"if names = [] then [] else head","head",'C124 heading without names')
m(R,'namesSection',"commaJoin names","commaJoin names.reverse",'C124 order of names')
m(R,'ssSection',"let total := r.userSS.length + r.inferredSS.length","let total := r.userSS.length",'C124 total')
m(R,'ssSection',"natStr total ++ \" / \".toList ++ natStr r.nVar","natStr total ++ \" / \".toList ++ natStr r.nEq",'C124 variables in total')
m(R,'ssSection',"if 0 < total then","if 1 < total then",'C124 one value')
m(R,'ssSection',"(if 0 < r.inferredSS.length then formatSSVarList (natStr r.inferredSS.length ++ \" inferred\".toList) r.inferredSS else [])","[]",'C124 inferred names')
m(R,'ssSection',"\" user-provided\".toList) r.userSS","\" user-provided\".toList) r.inferredSS",'C124 user names')
m(R,'reportPieces',"natStr r.nEq ++ \" \".toList ++ pluralize \"equation\".toList r.nEq ++ ['\\n']","natStr r.nVar ++ \" \".toList ++ pluralize \"equation\".toList r.nEq ++ ['\\n']",'C124 counts')
m(R,'reportPieces',"natStr r.nShockPriors ++ \" / \".toList ++ natStr r.nShock","natStr r.nParamPriors ++ \" / \".toList ++ natStr r.nShock",'C124 shock priors')
m(R,'reportPieces',"\"\\t\".toList ++ natStr (r.nFree + r.nCalib)","\"\\t\".toList ++ natStr r.nFree",'C124 number of parameters')
m(R,'reportPieces',"namesSection \"\\t\\tThe following variables were eliminated at user request:\\n\".toList r.reducedVars","namesSection \"\\t\\tThe following variables were eliminated at user request:\\n\".toList r.singletons",'C124 eliminated names')
m(R,'reportPieces',"if r.nEq = r.nVar then \"Model appears","if r.nEq ≤ r.nVar then \"Model appears",'C124 closing line')
m(R,'reportWarning',"if r.nEq = r.nVar then none","if r.nEq ≤ r.nVar then none",'C124 warning')
m(R,'reportWarning',"\" but \".toList ++ natStr r.nVar","\" but \".toList ++ natStr r.nEq",'C124 warning text')
m(R,'reportOf',"nFree := out.param.length","nFree := out.param.length + out.calib.length",'C124 counts')
m(R,'reportOf',"filter fun k => k ∉ out.userSS","filter fun _ => true",'C124 inferred')
m(R,'reportOf',"nShockPriors := out.shockPriors.length","nShockPriors := out.paramPriors.length",'C124 priors')
m(R,'reportOf',"singletons := out.singletons.map createName","singletons := out.reducedVars.map createName",'C124 constants')
m(D,'graphKwNames',"\"add_solver_success_check\".toList, \"solver_tol\"","\"solver_tol\"",'C122 accepted keyword arguments')
m(D,'graphNodes',"graphSwitch kw \"register_data\" true","graphSwitch kw \"register_data\" false",'C122 data registered')
m(D,'graphNodes',"graphSwitch kw \"add_norm_check\" true","graphSwitch kw \"add_norm_check\" false",'C122 norm checks')
m(D,'graphNodes',"graphSwitch kw \"add_bk_check\" false","graphSwitch kw \"add_bk_check\" true",'C122 BK check')
m(D,'graphNodes',"graphSwitch kw \"add_solver_success_check\" false","graphSwitch kw \"add_bk_check\" false",'C122 success check')
m(D,'graphNodes',"if obj.cyclic then","if !obj.cyclic then",'C122 cycle steps')
m(D,'buildGraph',"fit := some rows","fit := obj.fit",'C122 data rows')
m(D,'buildGraph',"m.nodes ++ graphNodes obj kw","graphNodes obj kw",'C122 the model keeps its priors')
m(D,'setMissing',"if p.2 ∈ idxs then none else p.1","if p.2 ∉ idxs then none else p.1",'C122 which values are missing')
m(D,'setMissing',"col.zipIdx.map","(col.zipIdx 1).map",'C122 number of missing values')
m(D,'missingLoop',"missingLoop r rows k rest s.2","rest",'C122 every column')
m(D,'addMissing',"if 0 < pct then","if 0 ≤ pct then",'equivalent: nothing missing for 0')
m(D,'addMissing',".floor.toNat",".ceil.toNat",'C122 int() truncates')
m(D,'addMissing',"if rows < k ∧ data ≠ []","if rows ≤ k ∧ data ≠ []",'C122 all missing is accepted')
m(D,'dataFromPrior',"index.getD 180","index.getD 120",'C122 default index')
m(D,'dataFromPrior',"kwargs.getD []","kwargs.getD dfpDefaults",'C122 default arguments (would change the finding)')
m(D,'dataFromPrior',"{ obj1 with fit := none }","obj1",'C122 state left behind')
m(D,'dataFromPrior',"caller := model","caller := new",'C122 model left behind')
m(D,'dataFromPrior',"match d.1[pk.1]?, t.1[pk.1]? with","match d.1[0]?, t.1[pk.1]? with",'C122 same draw')
m(D,'dataFromPrior',"match d.1[pk.1]?, t.1[pk.1]? with","match d.1[pk.1]?, t.1[0]? with",'C122 same draw')
m(D,'dataFromPrior',"paramIdx := pk.1","paramIdx := 0",'C122 index reported')
m(D,'dataFromPrior',"if \"data\".toList ∉ model.nodes then buildGraph","if False then buildGraph",'C122 graph built')
m(D,'dataFromPrior',"ops.prior new nSamples g","ops.prior model nSamples g",'C122 sampled model')
m(D,'dataFromPrior',"ops.prior new nSamples g","ops.prior new 500 g",'C122 number of draws')
m(S,'isGenerated',"\"lambda__\".toList <:+: x.base","\"lambda\".toList <:+: x.base",'C125 only generated multipliers')
m(S,'isGenerated',"decide (\"lambda__\".toList <:+: x.base)","true",'C125 only generated multipliers')
m(S,'elimStep',"st.equations.map fun e => e.subsSeq (expandSubsAllTimes [(x, rhs)])","st.equations.map fun e => e.subsSeq [(.tv x, rhs)]",'C125 other dates of the multiplier stay')
m(S,'elimStep',"⟨st.equations.map fun e","⟨(st.equations.filter fun w => w ≠ e).map fun e",'C125 the pinning equation dropped (equivalent?)')
m(S,'elimStep',"st.eliminated ++ [(x, rhs)]","st.eliminated",'C125 record of eliminated multipliers')
m(S,'elimStep',"| some rhs => some ⟨st.equations.map fun e => e.subsSeq","| some rhs => some ⟨st.equations.tail.map fun e => e.subsSeq",'C125 an equation lost')
m(S,'simplifyEquations',"fun e => decide (e ≠ .num 0), s.eliminated","fun e => decide (e = .num 0), s.eliminated",'C125 equations kept')
m(S,'simplifyEquations',"filter fun e => decide (e ≠ .num 0)","filter fun e => decide (e.tsyms ≠ [])",'C125 equations between parameters lost')
m(S,'simplifyEquations',"(s.equations.map ops.norm).filter","(s.equations.map ops.norm).eraseDups.filter",'equivalent: repeated equations dropped')
m(S,'clearMultipliers',"then none else some v","then some v else none",'C125 the other multipliers stay')
m(S,'clearMultipliers',"decide (v = { q.1 with idx := i })","decide (v.base = q.1.base)",'C125 multipliers lost by name only')
m(S,"clearMultipliers","    | none => none)","    | none => some ⟨[], .ss, []⟩)",'C125 no variable is added')
m(S,'constructBlockS',"B.variableList vs0 (clearMultipliers","B.variableList [] (clearMultipliers",'C125 variables lost')
m(S,'constructBlockS',"dicts, vs, s.equations⟩","dicts, vs, r.equations⟩",'C125 equations not simplified')
m(S,'constructBlockS',"dicts, vs, s.equations⟩, s.eliminated⟩","dicts, vs0, s.equations⟩, s.eliminated⟩",'C125 multipliers that stay are lost')
m(S,'constructBlockS',"| none => .ok ⟨⟨{ B with multipliers := r.multipliers }, dicts, vs0, r.equations⟩, []⟩","| none => .ok ⟨⟨{ B with multipliers := r.multipliers }, dicts, [], r.equations⟩, []⟩",'C125 variables of plain blocks')
m(S,'blockDictLoopS',"dset acc r.built.block.name r","(r.built.block.name, r) :: acc",'C125 order of blocks')
m(S,'blockDictLoopS',"if isSkippedName b.name then","if !isSkippedName b.name then",'C125 which blocks')
m(S,'loadRestS',"mergeParams (bs.map fun b => b.dicts.calib)","mergeParams (bs.map fun b => b.dicts.determ)",'C125 calibration')
m(S,'loadRestS',"equations := bs.flatMap Built.equations","equations := (bs.take 1).flatMap Built.equations",'C125 equations')
m(S,'loadRestS',"shocks := vs.2","shocks := vs.1",'C125 shocks')
m(S,'loadRestS',"ss := sortToString ss","ss := []",'C125 steady-state values')
m(S,'loadRestS',"bd.flatMap fun p => p.2.eliminated)","[])",'C125 eliminated multipliers')
m(S,'LoadGcnFile',"loadModelS ops m.toMdl","loadModelS ops { m.toMdl with blocks := m.toMdl.blocks.reverse }",'C125 order of blocks')
out=[]
for i,(f,d,o,n,c,k,nth) in enumerate(L):
    cnt=src[f].count(o)
    if cnt!=k: print('COUNT',i,d,cnt,o)
    e=dict(id=f'p{i:03d}',file=f,old=o,new=n,claim=c,edit=f'`{o}` -> `{n}`',count=k); e['def']=d
    if nth is not None: e['nth']=nth
    out.append(e)
json.dump(out,open('m14.json','w'),indent=0)
print(len(out))
