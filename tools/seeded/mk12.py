import json
F=('StateSpaceBuild','GensysParts','ForwardVars','ToDistribution','PFCompile','SteadyState','SSDriver')
src={f:open(f'/verif/lean/Verif/Model/{f}.lean').read() for f in F}
L=[]
def m(file,d,old,new,claim,count=1,nth=None): L.append((file,d,old,new,claim,count,nth))
B,G,W,D,P,S,R=F
m(B,'paramMapping',"determ.map Prod.snd))","determ.map (fun p => SExpr.sym (.par p.1))))",'C117 deterministic parameters replaced')
m(B,'paramMapping',"(free.map Sym.par ++ determ.map fun p => Sym.par p.1)","(determ.map (fun p => Sym.par p.1) ++ free.map Sym.par)",'C117 parameters paired with their expressions')
m(B,'Scale.graphReplace',"| .ss v => .ss ((SExpr.sym (.tv (toSS v))).graphReplace d)","| .ss v => .ss (SExpr.sym (.tv (toSS v)))",'C117 scale at the steady state')
m(B,'Scale.graphReplace',"| .guarded v => .guarded ((SExpr","| .guarded v => .ss ((SExpr",'equivalent (guarded unused here)? C117')
m(B,'Scale.graphReplace',"| .one => .one","| .one => .ss (.num 0)",'C117 levels')
m(B,'replaceRows',"(e.graphReplace d, s.graphReplace d)","(e, s.graphReplace d)",'C117 matrices closed')
m(B,'statespaceFromGcn',"if !calib.isEmpty then .error .calibration","if false then .error .calibration",'C117 refuses calibration')
m(B,'statespaceFromGcn',"if ssMap.length ≠ vars.length then","if false then",'C117 refuses numeric steady states')
m(B,'statespaceFromGcn',"if unknown ≠ [] then","if false then",'C117 unknown names')
m(B,'statespaceFromGcn',"logLinearize && !linear","logLinearize",'C117 linear models')
m(B,'statespaceFromGcn',"vars.filter fun v => !exclude.contains v.base","vars.filter fun v => exclude.contains v.base",'C117 not_loglin_variables')
m(B,'statespaceFromGcn',"let exclude := notLoglin.getD []","let exclude := ([] : List Str)",'C117 not_loglin_variables')
m(B,'statespaceFromGcn',"B := replaceRows d sys.scale sys.B","B := replaceRows d sys.scale sys.A",'C117 matrices')
m(B,'statespaceFromGcn',"C := replaceRows d sys.scale sys.C","C := replaceRows params sys.scale sys.C",'C117 steady-state values put in')
m(B,'statespaceFromGcn',"D := sys.D.map fun row => row.map fun e => e.graphReplace d","D := sys.D",'C117 shock matrix')
m(B,'statespaceFromGcn',"varOrder := sys.varOrder","varOrder := List.range vars.length",'C117 order')
m(B,'statespaceFromGcn',"let ssMap := ssMap.map fun p => (p.1, p.2.graphReplace params)","",'C117 steady state in free parameters')
m(B,'statespaceFromGcn',"let d := dupdate params ssMap","let d := ssMap",'C117 deterministic parameters in matrices')
m(B,'statespaceFromGcn',"loglin := loglin.map TSym.base","loglin := vars.map TSym.base",'C117 loglin list')
m(G,'divStep',"let absB := ‖p.2‖","let absB := ‖p.1‖",'C118 count')
m(G,'divStep',"1 + realsmall < absB / absA ∧ absB / absA ≤ st.div","absB / absA ≤ st.div",'C118 heuristic')
m(G,'divStep',"(1 / 2) * (1 + absB / absA)","(1 / 2) * (absB / absA)",'C118 heuristic')
m(G,'divStep',"if computeDiv = true ∧ 0 < absA then","if 0 < absA then",'C118 given div is kept')
m(G,'divStep',"absB / absA ≤ st.div then","absB / absA < st.div then",'C118 heuristic boundary')
m(G,'divStep',"if div * absA < absB then st.n + 1","if div * absA ≤ absB then st.n + 1",'C118 boundary')
m(G,'divStep',"if div * absA < absB then st.n + 1","if absB < div * absA then st.n + 1",'C118 which are unstable')
m(G,'divStep',"if div * absA < absB then","if st.div * absA < absB then",'C118 uses the updated div')
m(G,'divStep',"decide (absA < realsmall) && decide","decide (absA < realsmall) || decide",'C118 flag')
m(G,'determineNUnstable',"div.getD (101 / 100)","div.getD 1",'C118 start')
m(G,'determineNUnstable',"divStep div.isNone","divStep div.isSome",'C118 when searched')
m(G,'splitRows',"then n - nUnstable else","then nUnstable else",'C118 split')
m(G,'splitRows',"(rows.take cut, rows.drop cut)","(rows.drop cut, rows.take cut)",'C118 split order')
m(G,'splitRows',"else n - (nUnstable - n)","else 0",'C118 split beyond the end')
m(G,'buildUVD',"decide (realsmall < s i)","decide (s i < realsmall)",'C118 kept singular values')
m(G,'buildUVD',"v := v.submatrix id big.get","v := v.submatrix id (fun i => big.get i.rev)",'C118 pairing')
m(G,'buildUVD',"if invalid || empty then","if invalid then",'C118 empty')
m(G,'buildUVD',"if invalid || empty then","if empty then",'C118 invalid')
m(G,'buildUVD',"d := fun i => s (big.get i)","d := fun i => (s (big.get i)) ^ 2",'C118 singular values')
m(W,'shiftedAtoms',"decide (a.idx = .t k)","decide (a.idx ≠ .t k)",'C119 dates')
m(W,'shiftedAtoms',"fun a => a.atT 0","fun a => a",'C119 moved to now')
m(W,'backwardVariables',"shiftedAtoms eqs (-1)","shiftedAtoms eqs 1",'C119 lags')
m(W,'symbolicForwardVariables',"shiftedAtoms eqs 1","shiftedAtoms eqs 0",'C119 leads')
m(W,'absColSums',"|row.getD j 0|","row.getD j 0",'C119 cancelling derivatives')
m(W,'absColSums',"(C.map fun row","(C.take 1 |>.map fun row",'C119 every equation')
m(W,'forwardVariables',"decide (tol < p.2)","decide (tol ≤ p.2)",'C119 boundary')
m(W,'forwardVariables',"absColSums vars.length M.C","absColSums vars.length M.A",'C119 C matrix')
m(W,'forwardVariables',"| none => symbolicForwardVariables vars eqs","| none => []",'C119 fallback')
m(W,'leadVarIdx',"decide (p.1 ∈ fwd)","decide (p.1 ∉ fwd)",'C119 indices')
m(W,'leadVarIdx',"vars.zipIdx.filter","(vars.zipIdx 1).filter",'C119 indices from zero')
m(D,'pzArg',"| some q => .num q","| some q => .num (-q)",'C120 wrapper arguments')
m(D,'wrapArgs','if w = "maxent".toList then','if w ≠ "maxent".toList then','C120 wrapper arguments')
m(D,'wrapArgs','dset kw "plot".toList (.flag false)','kw','C120 maxent plots')
m(D,'toPreliz',"| none => .ok ⟨d.dist, d.kwargs, none⟩","| none => .ok ⟨d.param, d.kwargs, none⟩",'C120 distribution name')
m(D,'toPreliz',"| none => .ok ⟨d.dist, d.kwargs, none⟩","| none => .ok ⟨d.dist, d.kwargs.take 1, none⟩",'C120 all arguments')
m(D,'toPreliz',".ok ⟨d.dist, d.kwargs, some (w,",".ok ⟨d.dist, [], some (w,",'C120 arguments of wrapped distributions')
m(D,'toPreliz',"if d.dist ∉ dists then","if d.dist ∈ dists then",'C120 known distributions')
m(D,'acceptsDist',"| .error _ => false","| .error _ => true",'C120 refused distributions')
m(D,'acceptsDist',"| .ok c => pz c","| .ok _ => true",'C120 PreliZ refuses')
m(D,'metadata',"(d.param, d.initial,","(d.dist, d.initial,",'C120 metadata')
m(D,'distsFromCalibration',"| .eq _ :: cs, acc => distsFromCalibration pz cs acc","| .eq _ :: _, acc => .ok acc",'C120 priors after equations')
m(D,'distsFromModel',"distsFromModel pz bs (dupdate acc r)","distsFromModel pz bs r",'C120 priors of every block')
m(P,'Sym.node',"| .tv s => .tv (createName s)","| .tv s => .tv s.base",'C121 dates are told apart')
m(P,'Slot.read',"| .prev i => a.yPrev i","| .prev i => a.yNow i",'C121 lags')
m(P,'Slot.read',"| .param i => a.params i","| .param i => a.params (i + 1)",'C121 parameters')
m(P,'substituteSS',"if remaining ≠ [] then .error","if false then .error",'C121 unsolved steady states')
m(P,'substituteSS',"if atoms = [] then .ok eqs else","if atoms ≠ [] then .ok eqs else",'C121 steady-state values')
m(P,'substituteSS',"symName (safeToSS p.1) = createName a","symName p.1 = a.base",'C121 steady-state names')
m(P,'substituteSS',"(Sym.tv a, p.2)","(Sym.tv a, .num 0)",'C121 steady-state values')
m(P,'jacobianVarLists',"(dget lagOf n).getD (.lagDummy n)","(dget leadOf n).getD (.lagDummy n)",'C121 lags')
m(P,'jacobianVarLists',".getD (.leadDummy n))",".getD (.tv n))",'C121 dummies (equivalent?)')
m(P,'vectorReplacements',"dset (dset (dset d a (.prev i)) b (.now i)) c (.next i)","dset (dset d a (.prev i)) b (.now i)",'C121 leads')
m(P,'vectorReplacements',"dset (dset (dset d a (.prev i)) b (.now i)) c (.next i)","dset (dset (dset d a (.next i)) b (.now i)) c (.prev i)",'C121 lags and leads')
m(P,'vectorReplacements',"(.shock p.2)) d","(.shock 0)) d",'C121 shocks by position')
m(P,'vectorReplacements',"shocks.zipIdx.foldl (fun d p => dset d p.1 (.shock p.2)) d","d",'C121 shocks')
m(P,'pfParts',"(m.params ++ m.determ).filter","m.params.filter",'C121 deterministic parameters')
m(P,'PFParts.replacements',"(dupdate [] (p.timing.leads.map","(dupdate [] (p.timing.lags.map",'C121 leads')
m(P,'PFParts.slot',"if k ∈ p.params then some (.param (p.params.idxOf k)) else none","some (.param (p.params.idxOf k))",'C121 unknown parameters raise')
m(P,'PFParts.slot',"(.param (p.params.idxOf k))","(.param 0)",'C121 parameters by position')
m(P,'PFParts.check',"if p.eqs = [] then .error .emptyStack\n  else ","",'C121 no equations')
m(P,'PFParts.check',"(p.slot n).isNone with","(p.slot n).isSome with",'C121 success condition')
m(P,'compileSinglePeriod',"p.timing.now.map (fun v => v.atT (-1)) ++ p.timing.now ++","p.timing.now ++ p.timing.now.map (fun v => v.atT (-1)) ++",'C121 column order')
m(P,'compileSinglePeriod',"p.timing.now.map fun v => v.atT 1","p.timing.now.map fun v => v.atT (-1)",'C121 lead derivatives')
m(P,'compileSinglePeriod',"p.eqs.map fun e => wrt.map fun v => e.diff (.tv v)","m.eqs.map fun e => wrt.map fun v => e.diff (.tv v)",'C121 Jacobian after substitution')
m(P,'compileSinglePeriod',"wrt.map fun v => e.diff (.tv v)","wrt.map fun v => .neg (e.diff (.tv v))",'C121 Jacobian sign')
m(P,'compileSinglePeriod',".ok ⟨p, jac, p.timing.now.map TSym.base, p.timing.shocks.map TSym.base, p.params⟩",".ok ⟨p, jac, p.timing.now.map TSym.base, p.timing.shocks.map TSym.base, m.params⟩",'C121 parameter names')
m(P,'compileSinglePeriod',"p.timing.now.map TSym.base, p.timing.shocks.map TSym.base, p.params⟩","p.timing.now.map createName, p.timing.shocks.map TSym.base, p.params⟩",'C121 names')
m(P,'compileResidualOnly',"match p.check p.eqs with","match p.check [] with",'equivalent? C121 residual function')
m(P,'PFParts.env',"(p.slot s.node).map (Slot.read a)","(dget p.replacements s.node).map (Slot.read a)",'C121 parameters read')
m(R,'packGraph',"then some p.2 else none","then some 0 else none",'C85 slicing')
m(R,'packGraph',"active.length ≠ ssNodes.length","active.length = ssNodes.length",'C85 slicing')
m(R,'packGraph',"let paramInputs := inputs.filter fun s => s ∉ active","let paramInputs := inputs.filter fun s => s ∈ active",'C85 missing parameter')
m(S,'SExpr.graphReplace',"(dget d s).getD (.sym s)","(dget d s).getD (.num 0)",'C72 other symbols stay')
out=[]
for i,(f,d,o,n,c,k,nth) in enumerate([x for x in L if x[5]]):
    if src[f].count(o)!=k: print('BAD',d,o,src[f].count(o)); continue
    r=dict(id=f'n{i:03d}',file=f,**{'def':d},old=o,new=n,claim=c,edit=f'`{o}` -> `{n}`',count=k)
    if nth is not None: r['nth']=nth
    out.append(r)
json.dump(out,open('m12.json','w'),indent=0); print(len(out))
