import json
M=[]
def m(file,d,old,new,claim,count=1,**k):
    M.append(dict(id=f"c{len(M)+1:03d}",file=file,**{'def':d},old=old,new=new,claim=claim,edit=f"`{old}` -> `{new}`",count=count,**k))
S='Simplification'
m(S,'timeCombos','[TIdx.t (-1), .t 0, .t 1, .ss]','[TIdx.t (-1), .t 0, .t 1]','C26 steady-state occurrences count')
m(S,'timeCombos','[TIdx.t (-1), .t 0, .t 1, .ss]','[TIdx.t 0, .t 1, .ss]','C26 lagged occurrences count')
m(S,'reduceVariableList','filter fun x => x ∈ vars)','filter fun x => x ∉ vars)','C26 the remaining variables are the ones still used')
m(S,'reduceVariableList','sortByName (vars.filter fun x => x ∉ reduced))','sortByName (vars.filter fun x => x ∈ reduced))','C26 eliminated variables are reported')
m(S,'isolatedVars','(eqs.filter fun e => mentions e v).length = 1','(eqs.filter fun e => mentions e v).length ≤ 2','C26 only variables of a single equation are dropped with it')
m(S,'tryreduceStep','(cand.filter fun e => e = .num 0).length = 1 ∧','1 ≤ (cand.filter fun e => e = .num 0).length ∧','C26 exactly one equation disappears per variable')
m(S,'tryreduceStep',' ∧ ¬ cand.any fun e => mentions e x then','  then','C26 the variable is gone from the system')
m(S,'tryreduceStep','| none => eqs\n','| none => eqs.drop 1\n','C26 a variable without definition changes nothing')
m(S,'dropIsolated','filter fun v => v ∈ tr)','filter fun _ => true)','C26 only requested variables are eliminated')
m(S,'simplifyTryreduce','if eqs.length ≠ vars.length then (eqs, vars, [], true)','if eqs.length < vars.length then (eqs, vars, [], true)','C26 non-square systems are left alone with a warning')
m(S,'simplifyTryreduce','(reduced, vs.1, vs.2, false)','(reduced, vars, vs.2, false)','C26 the variable list is reduced',count=2,nth=0)
m(S,'constantEntry','e.atoms.eraseDups.length ≤ 3','e.atoms.eraseDups.length ≤ 4','C27 the size limit')
m(S,'constantEntry','| [x] =>\n','| x :: _ =>\n','C27 only equations with one dated variable pin a constant')
m(S,'constantDict','| some none => constantDict solve es d','| some none => constantDict solve es []','C27 constants already found are kept')
m(S,'simplifyConstants','filter fun e => e ≠ .num 0','filter fun e => e = e','C27 satisfied equations are removed',count=2,nth=1)
m(S,'simplifyConstants','if eqs.length ≠ vars.length then some (eqs, vars, [], true)','if eqs.length < vars.length then some (eqs, vars, [], true)','C27 non-square systems are left alone')
m(S,'splitDigits','.txt [] :: .dig (c :: ds) :: k','.txt [] :: .dig (ds ++ [c]) :: k','C28 natural order of names')
m(S,'digitsVal','10 * n + (c.toNat','n + (c.toNat','C28 natural order of names')
m(S,'partsLt','decide (digitsVal a < digitsVal b)','decide (digitsVal b < digitsVal a)','C28 natural order of names')
m(S,'partsLt','| [], _ :: _ => some true','| [], _ :: _ => some false','C28 natural order of names')
m(S,'naturalSort','naturalLt b.base a.base ≠ some true','naturalLt a.base b.base ≠ some true','C28 lists are sorted by natural order')
m(S,'validTime','x.idx = .t (-1) ∨ x.idx = .t 0 ∨ x.idx = .t 1','x.idx = .t (-1) ∨ x.idx = .t 0 ∨ x.idx = .t 1 ∨ x.idx = .t 2','C28 dates beyond one lead are rejected')
m(S,'validTime','x.idx = .t (-1) ∨ x.idx = .t 0 ∨ x.idx = .t 1','x.idx = .t 0 ∨ x.idx = .t 1','C28 lags are accepted')
m(S,'varsAtTime','filter fun x => x.base ∉ shockNames','filter fun x => x.base ∉ shockNames ∨ t = 0','C28 shocks are not variables')
m(S,'classifyTiming','lags := varsAtTime atoms shockNames (-1)','lags := varsAtTime atoms shockNames 1','C28 lags are the variables dated -1')
m(S,'classifyTiming','shocks := naturalSort (atoms.filter fun x => x.base ∈ shockNames)','shocks := naturalSort (atoms.filter fun x => x.base ∈ shockNames ∧ x.idx = .t 0)','C28 shocks at any date are classified')
m(S,'classifyTiming','if invalid ≠ [] then .error (naturalSort invalid)','if invalid ≠ [] then .error (naturalSort atoms)','C28 the message names the invalid symbols')
m(S,'allTimeCombinations','(now.map fun x => { x with idx := .t (-1) }, now, now.map fun x => { x with idx := .t 1 })','(now.map fun x => { x with idx := .t 1 }, now, now.map fun x => { x with idx := .t (-1) })','C28 order lags, now, leads')
L='LinearSolve'
m(L,'solveBackwardPolicy','linSolve (-B) A','linSolve B A','C36 backward policy')
m(L,'solveBackwardShockMatrix','(linSolve B D).map fun X => -X','(linSolve B D)','C36 backward impact matrix')
m(L,'selectionMatrix','(linSolve (C * T + B) D).map','(linSolve (T * C + B) D).map','C36 impact matrix')
m(L,'selectionMatrix','(linSolve (C * T + B) D).map fun X => -X','(linSolve (C * T + B) D).map fun X => X','C36 impact matrix sign')
m(L,'adjointMatrix','T Cᵀ +','Tᵀ Cᵀ +','C62 adjoint system')
m(L,'adjointMatrix','(Tᵀ * Cᵀ)','(Cᵀ * Tᵀ)','C62 adjoint system')
m(L,'policyAdjoints','(-(vec Tbar))','(vec Tbar)','C62 sign of the adjoint')
m(L,'policyAdjoints','some (S, S * Tᵀ, S * Tᵀ * Tᵀ)','some (S, S * T, S * T * T)','C62 adjoints of B and C')
m(L,'policyAdjoints','fun k i => vecS (i, k)','fun k i => vecS (k, i)','C62 vec ordering')
m(L,'crStep','A1 := s.A1 - tmp.toBlocks₁₂ - tmp.toBlocks₂₁','A1 := s.A1 - tmp.toBlocks₁₂','C61 cycle reduction step')
m(L,'crStep','A0 := -tmp.toBlocks₁₁','A0 := tmp.toBlocks₁₁','C61 cycle reduction step')
m(L,'crStep','A2 := -tmp.toBlocks₂₂','A2 := -tmp.toBlocks₁₁','C61 cycle reduction step')
m(L,'crStep','A1hat := s.A1hat - tmp.toBlocks₂₁','A1hat := s.A1hat - tmp.toBlocks₁₂','C61 cycle reduction step')
m(L,'crLoop','if norm1 s\'.A2 < tol then some (.done s\') else crLoop tol left s\'','some (.done s\')','C61 both norms must pass',)
m(L,'crLoop','else some (.early .failed (Real.log (norm1 s\'.A1)))','else some (.done s\')','C61 failure is reported')
m(L,'cycleReduction','some ⟨some (-Y), some (A + B * (-Y) + C * (-Y) * (-Y)), .success, 0⟩','some ⟨some Y, some (A + B * (-Y) + C * (-Y) * (-Y)), .success, 0⟩','C61 sign of the solution')
m(L,'cycleReduction','some (A + B * (-Y) + C * (-Y) * (-Y))','some (A + B * (-Y) + C * (-Y))','C61 the returned residual')
m(L,'cycleReductionCore','| some (_, false) => some (0, false)','| some (s, false) => (linSolve s.A1hat A).map fun Y => (-Y, true)','C61 flag of the compiled kernel')
m(L,'crCoreLoop','if norm1 s\'.A2 < tol then some (s\', true) else crCoreLoop tol left s\'','some (s\', true)','C61 compiled kernel: both norms')
m(L,'scanLoop','if norm < tol then scanLoop','if tol < norm then scanLoop','C61 scan stops once converged')
m(L,'solvePolicyCR','| some R => .ok ⟨T, R, msg, l⟩','| some R => .ok ⟨T, -R, msg, l⟩','C61 R belongs to T')
I='Simulate'
m(I,'validateIrfShockArguments','if 1 < provided.length then','if 2 < provided.length then','C38 more than one specification is rejected')
m(I,'validateIrfShockArguments','if provided = [] then .error .notEnoughValues\n  else if','if','C38 no specification is rejected')
m(I,'shockMode','match a.traj with\n  | some tr => .trajectory tr\n  | none =>\n','match a.traj with\n  | some _ => .size none\n  | none =>\n','C38 a trajectory is used')
m(I,'selectedShocks','if (dkeys d).any fun x => x ∉ names then','if (dkeys d).all fun x => x ∉ names then','C38 unknown shock names rejected')
m(I,'selectedShocks','.ok (names.filter fun x => x ∈ dkeys d)','.ok names','C38 only named shocks are selected')
m(I,'inferIndividual','| .trajectory _ => false','| .trajectory _ => true','C38 trajectories are joint by default')
m(I,'inferIndividual','| some b => b\n','| some b => !b\n','C38 requested mode wins')
m(I,'shockVector','| some (.dict d) => .ok (names.map fun x => (dget d x).getD 0)','| some (.dict d) => .ok (names.map fun x => (dget d x).getD 1)','C37 shocks not named are zero')
m(I,'shockVector','| none => .ok (names.map fun _ => 1)','| none => .ok (names.map fun _ => 0)','C38 default size is one')
m(I,'impulse','.ok (v :: List.replicate l 0)','.ok (v :: List.replicate l v)','C37 an impulse hits in the first period only')
m(I,'impulse','.ok (v :: List.replicate l 0)','.ok (v :: List.replicate (l + 1) 0)','C37 number of periods')
m(I,'buildTrajectory','| some L => impulse len (L *ᵥ z)','| some L => impulse len (Lᵀ *ᵥ z)','C38 draws have the covariance given')
m(I,'simGo','(T *ᵥ x + R *ᵥ e) :: simGo T R (T *ᵥ x + R *ᵥ e) es','(T *ᵥ x + R *ᵥ e) :: simGo T R x es','C37 recursion')
m(I,'simulateLinear','.ok ((R *ᵥ e) :: simGo T R (R *ᵥ e) es)','.ok ((R *ᵥ e) :: simGo T R 0 es)','C37 the first state enters the second period')
m(I,'keepShock','Pi.single idx (r idx)','Pi.single idx 1','C37 sizes of individual shocks')
m(I,'irfLength','| .trajectory tr => tr.rows.length','| .trajectory _ => len','C38 length of a given trajectory')
m(I,'impulseResponse','buildTrajectory chol orthogonalize z md len all with','buildTrajectory chol orthogonalize z md len sel with','C37 individual responses start from the full vector')
m(I,'impulseResponse','filter fun i => names i ∈ sel','filter fun _ => true','C38 one response per selected shock')
m(I,'simulateOne','es.scanl (fun x e => T *ᵥ x + R *ᵥ e) (R *ᵥ e)','es.scanl (fun x e => T *ᵥ x + R *ᵥ e) 0','C37 simulation starts with the first shock')
json.dump(M,open('/tmp/mut/m3.json','w'),indent=1,ensure_ascii=False)
print(len(M))
for x in M:
    s=open(f"/tmp/mut/pristine/Verif/Model/{x['file']}.lean").read()
    if s.count(x['old'])!=x['count']: print(x['id'],s.count(x['old']),x['old'])
