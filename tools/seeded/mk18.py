import json,glob,os
L=[]
def m(file,d,old,new,claim,count=1,nth=None): L.append((file,d,old,new,claim,count,nth))
P='PFSolve'
m(P,'computeSS',"  | Option.none => .error .steady\n\nopen","  | Option.none => .ok []\n\nopen",'C132 a missing steady state stops the run')
m(P,'steadyDicts',"| .steady d => .ok (d, d)","| .steady d => .ok (d, [])",'C132 the given steady state at both ends')
m(P,'steadyDicts',"(if last ≠ first then computeSS steady last else .ok i)","(if last = first then computeSS steady last else .ok i)",'C132 final steady state for the final parameters')
m(P,'steadyDicts',"      | .ok t => .ok (i, t)\n  | .frame","      | .ok t => .ok (t, i)\n  | .frame",'C132 swapped steady states')
m(P,'steadyDicts',"(if needsInitial then computeSS steady first else .ok [])","(if needsTerminal then computeSS steady first else .ok [])",'C132 initial dictionary with a table')
m(P,'steadyDicts',"(if needsInitial ∧ last = first then .ok i else computeSS steady last)","(if last = first then .ok i else computeSS steady last)",'C132 reuse only if computed')
m(P,'steadyDicts',"else computeSS steady last) else .ok [])","else computeSS steady first) else .ok [])",'C132 final parameters')
m(P,'guessVector',"((ssToArray init names)[i % names.length]?).getD 0","((ssToArray init names)[i]?).getD 0",'C132 the start is the steady state in every period')
m(P,'guessVector',"if rows ≠ T ∨ ¬ cols.Nodup then","if rows ≠ T then",'C132 columns twice')
m(P,'guessVector',"if rows ≠ T ∨ ¬ cols.Nodup then","if ¬ cols.Nodup then",'C132 rows of the table')
m(P,'guessVector',"v (i / names.length) (((names[i % names.length]?).map cols.idxOf).getD 0)","v (i / names.length) (i % names.length)",'C132 columns matched by name')
m(P,'guessVector',"if rows ≠ T ∨ cols ≠ names.length then .error","if rows ≠ T then .error",'C132 array width')
m(P,'guessVector',".ok fun i => v (i / names.length) (i % names.length)\n",".ok fun i => v (i % names.length) (i / names.length)\n",'C132 array transposed')
m(P,'flat',"if h : i < N then x ⟨i, h⟩ else 0","if h : i < N ∧ i ≠ 0 then x ⟨i, h.1⟩ else 0",'C132 vector read')
m(P,'pfSystem',"(flat y) yInit yTerm x params n n T\n  (fun i","(flat y) yTerm yInit x params n n T\n  (fun i",'C132 boundaries swapped in the system')
m(P,'pfSystem',"cooAt s.2 i j","cooAt s.2 j i",'C132 jacobian transposed')
m(P,'pfMerit',"stackedResiduals f.residual (flat y) yInit yTerm x","stackedResiduals f.residual (flat y) yInit yInit x",'C132 merit of the same system')
m(P,'defaultSolver',"c1 := 1e-4, beta := 0.5, maxIter := 50, meritFun := some g","c1 := 1e-4, beta := 0.5, maxIter := 50, meritFun := none",'C132 default merit')
m(P,'defaultSolver',"c1 := 1e-4, beta := 0.5","c1 := -1e-4, beta := 0.5",'C132 default never increases')
m(P,'runSolver',"1e-10 1e-10 1000","1e-2 1e-10 1000",'C132 tolerance')
m(P,'runSolver',"1e-10 1e-10 1000","1e-10 1e-10 1",'C132 iterations')
m(P,'runSolver',"flat r.final.x (t * n + k)","flat r.final.x (k * T + t)",'C132 reshape')
m(P,'runSolver',"let yt := fun i => (yTerm[i]?).getD 0","let yt := fun i => (yInit[i]?).getD 0",'C132 terminal values')
m(P,'runSolver',"columns := c.varNames","columns := c.varNames.reverse",'C132 columns')
m(P,'PyNumber.truncate',"if 0 ≤ x then ⌊x⌋ else ⌈x⌉","if 0 ≤ x then ⌈x⌉ else ⌊x⌋",'C132 truncation')
m(P,'allInts',"| .int _ => true | .float _ => false","| .int _ => true | .float _ => true",'C132 integer arrays')
m(P,'boundaryVectorPy',"if allInts start then p.2.truncate else p.2.val","p.2.val",'C132 integer arrays truncate')
m(P,'solvePF',"let terminal := normalizeConditions a.terminal","let terminal := a.terminal",'C132 names with _ss')
m(P,'solvePF',"match boundaryParams (a.paths.getD []) with","match boundaryParams [] with",'C132 boundary parameters')
m(P,'solvePF',"let needsTerminal := !(c.varNames.all fun n => n ∈ dkeys terminal)","let needsTerminal := !(c.varNames.all fun n => n ∈ dkeys initial)",'C132 terminal dictionary needed')
m(P,'solvePF',"match guessVector a.guess ssInit","match guessVector a.guess ssTerm",'C132 start at the initial steady state')
m(P,'solvePF',"  match validatePF initial terminal a.shocks a.paths c.varNames","  match validatePF initial initial a.shocks a.paths c.varNames",'C132 input checked')
m(P,'solvePF',"match shockMatrix a.shocks","match shockMatrix none",'C132 shocks')
m(P,'solvePF',"match paramMatrix a.paths","match paramMatrix none",'C132 parameter paths')
m(P,'solvePF',"boundaryVector terminal ssTerm c.varNames) X P","boundaryVector terminal ssInit c.varNames) X P",'C132 terminal steady state')
m(P,'solvePF',"(boundaryVector initial ssInit c.varNames)","(boundaryVector terminal ssInit c.varNames)",'C132 initial conditions')
m(P,'solvePF',"else if a.T = 0 then .error .noPeriods\n","",'C132 no periods')
R='SolverReuse'
m(R,'LSObj.solveWith',"    ({ o with mem := r.1 }, r.2)","    (o, r.2)",'C134 memory kept')
m(R,'LSObj.solveWith',"({ o with mem := r.1.1, history := r.1.2 }, r.2)","({ o with mem := r.1.1, history := [] }, r.2)",'C134 history kept')
m(R,'LSObj.solveWith',"(o.mem, o.history) f x0 fTol","(o.mem, []) f x0 fTol",'C134 history used')
m(R,'LSObj.solveWith',"beta := cls.beta, maxIter := cls.maxIter, meritFun := mf }","beta := cls.beta, maxIter := cls.maxIter }",'C134 merit stored is used')
m(R,'LSObj.sparseRoot',"(some (h ▸ g)) f x0","none f x0",'C134 stored merit used')
m(R,'LSObj.sparseRoot',"if maxAbs (f x0).1 < fTol ∨ maxiter = 0 ∨ cls.maxIter = 0 then","if maxiter = 0 ∨ cls.maxIter = 0 then",'C134 solved at the start')
m(R,'LSObj.sparseRoot',"∨ cls.maxIter = 0 then\n","then\n",'C134 no trials')
m(R,'LSObj.sparseRoot',"some M => pushHistory M o.history (startState f x0).phi }, none)","some _ => o.history }, none)",'C134 history after exception')
m(R,'LSObj.foresight',"{ o with meritFun := some ⟨n, g⟩ }.sparseRoot","{ o with meritFun := o.meritFun.or (some ⟨n, g⟩) }.sparseRoot",'C134 merit stored anew')
m(R,'LSObj.foresight',"1e-10 1e-10 1000","1e-8 1e-10 1000",'C134 default tolerance',2,0)
m(R,'LSObj.forPF',"maxIter := cls.maxIter, meritFun := some g }\n  match","maxIter := cls.maxIter, meritFun := none }\n  match",'C134 object in a foresight run')
m(R,'radiusCall',"f x0 1e-10 1e-10 1000","f x0 1e-10 1e-10 10",'C134 radius object',2,1)
m(R,'radiusCall',"    (cast (hσ n) r.1, some r.2)\n  | .foresight","    (o, some r.2)\n  | .foresight",'C134 radius kept')
S='StateSpaceSolve'
m(S,'SSGOut.matsAt',"entryAt o.A i j","entryAt o.A j i",'C136 transposed')
m(S,'SSGOut.matsAt',"entryAt o.C i j","entryAt o.B i j",'C136 wrong matrix')
m(S,'SSGOut.matsAt',"  A := Matrix.of fun i j => ((entryAt o.A i j).map fun x => x.1.val (drawOf par) 0 * x.2.val (drawOf par)).getD 0","  A := Matrix.of fun i j => ((entryAt o.A i j).map fun x => x.1.val (drawOf par) 0).getD 0",'C136 scale dropped')
m(S,'SSGOut.matsAt',"x.val (drawOf par) 0).getD 0","-x.val (drawOf par) 0).getD 0",'C136 sign of D')
m(S,'solverPair','"backward_direct"','"backward"','C136 solver name')
m(S,'solverPair',"selectionMatrix m.B m.C m.D T","selectionMatrix m.B m.A m.D T",'C136 selection')
m(S,'invOrder',"order.idxOf i","(order[i]?).getD 0",'C136 order inverted')
m(S,'SSGOut.policy',"policyMatrices n (NMat.ofMat m.A) (NMat.ofMat m.B) (NMat.ofMat m.C)","policyMatrices n (NMat.ofMat m.C) (NMat.ofMat m.B) (NMat.ofMat m.A)",'C136 residual')
m(S,'SSGOut.policy',"(invOrder o.varOrder)","(fun i => i)",'C136 order')
m(S,'NMat.ofMat',"M ⟨i, h.1⟩ ⟨j, h.2⟩ else 0","M ⟨i, h.1⟩ ⟨j, h.2⟩ else 1",'C136 outside')
B='StateSpaceBuild'
m(B,'paramMapping',"free.map (fun n => SExpr.sym (.par n)) ++ determ.map Prod.snd","free.map (fun n => SExpr.sym (.par n)) ++ determ.map fun p => SExpr.sym (.par p.1)",'C136 deterministic parameters replaced')
m(B,'Scale.graphReplace',"| .guarded v => .guarded (","| .guarded v => .ss (",'C136 guard kept')
m(B,'replaceRows',"(e.graphReplace d, s.graphReplace d)","(e, s.graphReplace d)",'C136 entries replaced')
m(B,'statespaceFromGcn',"if !calib.isEmpty then .error .calibration\n  else match","match",'C136 calibration refused')
m(B,'statespaceFromGcn',"if ssMap.length ≠ vars.length then","if ssMap.length > vars.length then",'C136 analytic steady state')
m(B,'statespaceFromGcn',"if logLinearize && !linear then","if logLinearize then",'C136 linear models')
m(B,'statespaceFromGcn',"!exclude.contains v.base else []","exclude.contains v.base else []",'C136 excluded variables')
m(B,'statespaceFromGcn',"p.2.graphReplace params)","p.2)",'C136 steady state in parameters')
m(B,'statespaceFromGcn',"dupdate params ssMap","params",'C136 steady states replaced')
m(B,'statespaceFromGcn',"B := replaceRows d sys.scale sys.B","B := replaceRows d sys.scale sys.A",'C136 matrices')
m(B,'statespaceFromGcn',"varOrder := sys.varOrder","varOrder := List.range vars.length",'C136 order of variables')
D='Dynare'
m(D,'hashDefs',"fltToks","numToks",'skip')
m(D,'findSS',"s.idx = .ss).eraseDups","s.idx = .ss)",'C135 each steady state once')
m(D,'modelBlock',"m.equations.map toks","(m.equations.drop 1).map toks",'C135 each equation')
m(D,'numText',":= fltToks v",":= numToks (shown 3 v)",'C135 steady-state values')
out=[]
for i,(f,d,o,n,c,cnt,nth) in enumerate(L):
    if 'skip' in c: continue
    s=open(f'/verif/lean/Verif/Model/{f}.lean').read()
    k=s.count(o)
    r=dict(id=f'w{i:03d}',file=f,old=o,new=n,claim=c,edit=f'`{o}` -> `{n}`',count=cnt,**{'def':d})
    if nth is not None: r['nth']=nth
    if k!=cnt: print('BAD',r['id'],f,d,k)
    out.append(r)
json.dump(out,open('m18.json','w'),indent=1); print(len(out))
for src,ids in {'m15':'q005,q006,q029,q047,q059,q076,q078,q135,q137,q147,q150,q158,q170,q171,q185,q186,q187','m16':'r043,r081,r102','m17':'u061,u121'}.items():
    ids=ids.split(','); l=[x for x in json.load(open(src+'.json')) if x['id'] in ids]
    for x in l:
        k=open(f"/verif/lean/Verif/Model/{x['file']}.lean").read().count(x['old'])
        if k!=x.get('count',1): print('BADRERUN',x['id'],k)
    json.dump(l,open(src+'b.json','w'),indent=1); print(src,len(l))
