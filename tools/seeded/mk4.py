import json
M=[]
def m(file,d,old,new,claim,count=1,**k):
    M.append(dict(id=f"d{len(M)+1:03d}",file=file,**{'def':d},old=old,new=new,claim=claim,edit=f"`{old}` -> `{new}`",count=count,**k))
S='Statistics'
m(S,'nProvided','o.stdDict.isSome.toNat + o.cov.isSome.toNat + o.std.isSome.toNat','o.stdDict.isSome.toNat + o.std.isSome.toNat','C47 exactly one shock description')
m(S,'validateCov','if m ≠ k ∨ p ≠ k then','if m ≠ k then','C47 covariance must be square of the right size')
m(S,'validateDict','if missing ≠ [] then .error (.mustGiveAll missing)\n    else if','if','C47 unknown names are rejected')
m(S,'validateDict','else if extra ≠ [] then .error (.unexpected extra)\n','','C47 every shock needs a value')
m(S,'validateStd','if ∀ x ∈ l, 0 < x then','if ∃ x ∈ l, 0 < x then','C47 standard deviations must be positive')
m(S,'validateStd','if r < 0 then','if r ≤ 0 then','C47 scalar zero is accepted')
m(S,'validateShockOptions','1 < o.nProvided ∨ o.nProvided = 0','2 < o.nProvided ∨ o.nProvided = 0','C47 exactly one description')
m(S,'validateShockOptions','1 < o.nProvided ∨ o.nProvided = 0','1 < o.nProvided','C47 at least one description')
m(S,'dictQ','(v ^ 2)','v','C47 variances are squares')
m(S,'stdVariance','| .ndarray l => l.getD i 0 ^ 2','| .ndarray l => l.getD 0 0 ^ 2','C47 each shock its own deviation')
m(S,'stdVariance','| .scalar r => r ^ 2','| .scalar r => r','C47 variances are squares')
m(S,'buildQ','Q ⟨i, h.1⟩ ⟨j, h.2⟩ else 0','(if i = j then Q ⟨i, h.1⟩ ⟨j, h.2⟩ else 0) else 0','C47 covariance used as given')
m(S,'stationaryCov','lyap T (R * Q * Rᵀ)','lyap Tᵀ (R * Q * Rᵀ)','C47 stationary covariance')
m(S,'stationaryCov','lyap T (R * Q * Rᵀ)','lyap T (R * Rᵀ)','C47 stationary covariance')
m(S,'computeAutocov','(T ^ l * Sigma) i j','(Sigma * T ^ l) i j','C47 autocovariances')
m(S,'computeAutocov','T ^ l * Sigma','T ^ (l + 1) * Sigma','C47 lag zero is the covariance')
m(S,'computeAutocov','std i * std j','std i * std i','C47 correlations')
m(S,'computeAutocov','Real.sqrt (Sigma i i)','Sigma i i','C47 correlations')
m(S,'autocovarianceMatrix','computeAutocov T Sigma nLags correlation','computeAutocov T Sigma (nLags + 1) correlation','C47 number of lags')
m(S,'maybeSolve','let T := if n = 1 then none else T','let T := T','C63 half-given solutions are recomputed')
m(S,'maybeSolve','(some solved.1, some solved.2) else (T, R)','(some solved.1, some solved.2) else (some solved.1, R)','C63 given matrices are used')
m(S,'maybeLinearize','decide (n < 4) &&','decide (n < 3) &&','C63 incomplete sets are recomputed')
m(S,'maybeLinearize','(some lin.1, some lin.2.1, some lin.2.2.1, some lin.2.2.2)','(some lin.2.2.1, some lin.2.1, some lin.1, some lin.2.2.2)','C63 order of the matrices')
m(S,'unsatisfied','1 / 100000000 < |x|','1 / 100000000 < x','C65 negative residuals count')
m(S,'checkGivenSteadyState','if resid.any unsatisfied then .error bad','if resid.all unsatisfied then .error bad','C65 any unsatisfied equation rejects')
m(S,'checkGivenSteadyState','.error bad','.error [0]','C65 the unsatisfied equations are named')
m(S,'inferDim','if n = nVars then .variable else .shock','if n = nVars then .shock else .variable','C64 labels')
m(S,'dimLabels','"Equation ".toList ++ natStr i','"Equation ".toList ++ natStr (i + 1)','C64 equation labels')
m(S,'matrixLabels','if l1.length = r ∧ l2.length = c then some (l1, l2)','if l1.length = r then some (l1, l2)','C64 wrong label lists raise')
P='Perturbation'
m(P,'incStep','varLag := setTrue inc.varLag jv.2 }','varLag := setTrue inc.varLag i }','C39 variable order')
m(P,'incStep','eqLead := setTrue inc.eqLead i, varLead','eqLag := setTrue inc.eqLag i, varLead','C39 equation order')
m(P,'eqOrderOf','whereIdx n (fun i => inc.eqLag i && inc.eqLead i)','whereIdx n (fun i => inc.eqLag i || inc.eqLead i)','C39 orders are permutations')
m(P,'varOrderOf','whereIdx n (fun j => inc.varLag j && inc.varLead j) ++','','C39 orders are permutations')
m(P,'jacEntry','let d := e.diff (.tv v)','let d := e','C39 entries are derivatives')
m(P,'jacEntry','eqToSSIn d.tsyms shocks d','d','C39 evaluated at the steady state')
m(P,'inLoglin','| none => decide (j < vars.length)','| none => false','C39 all variables by default')
m(P,'columnScale','!inLoglin vars loglin j || v.assumed','!inLoglin vars loglin j && v.assumed','C39 only requested variables are scaled')
m(P,'columnScale','else .guarded v','else .one','C39 variables without assumptions')
m(P,'linearize','A := symJacobian shocks eqsP lagsP, B := symJacobian shocks eqsP nowP','A := symJacobian shocks eqsP nowP, B := symJacobian shocks eqsP lagsP','C39 A belongs to the lags')
m(P,'linearize','C := symJacobian shocks eqsP leadsP','C := symJacobian shocks eqsP lagsP','C39 C belongs to the leads')
m(P,'linearize','D := symJacobian shocks eqsP shocks, scale','D := symJacobian shocks eqs shocks, scale','C39 D has the same equation order')
m(P,'Scale.eval','if 0 < ssv (toSS v) then ssv (toSS v) else 1','ssv (toSS v)','C39 non-positive values are not scaled')
m(P,'scaledRows','fun e s => ev e * s','fun e _ => ev e','C39 log-linearised columns are scaled')
m(P,'argsort','decide (xs.getD a 0 ≤ xs.getD b 0)','decide (xs.getD b 0 ≤ xs.getD a 0)','C39 user order is restored')
m(P,'eqFlags','if st.1 && st.2 then st else','if st.1 || st.2 then st else','C66 classification of equations')
m(P,'varFlag','if e.tsyms.contains (v.atT k) then true else b','if e.tsyms.contains (v.atT k) then true else false','C39 any equation counts')
m(P,'DROrder.fromModel','let vLead := fun j => (vars[j]?).any (varFlag eqs 1)','let vLead := fun j => (vars[j]?).any (varFlag eqs (-1))','C39 classification')
m(P,'DROrder.fromModel','invVarOrder := argsort vo','invVarOrder := vo','C39 user order is restored')
m(P,'DROrder.fromModel','nPredVar := vPred.length','nPredVar := vMixed.length','C39 counts')
m(P,'undoOrders','D := takeRows dr.invEqOrder M.D }','D := M.D }','C39 D is reordered with the equations')
m(P,'undoOrders','B := takeCols dr.invVarOrder M.B, C','B := M.B, C','C39 columns are reordered')
m(P,'ssVals','dget (normalizeConditions ss) v.base','dget ss v.base','C39 names with the suffix _ss are found',count=2,nth=0)
m(P,'linearizeModel','linearize vars eqs shocks (some loglin)','linearize vars eqs shocks none','C39 only the chosen variables are log-linearised')
m(P,'maskSet','fun m f => m || f','fun m _ => m','C66 excluded variables stay excluded')
m(P,'notLoglinFlags','if unknown ≠ [] then .error (.unknown unknown)\n    else do','do','C66 unknown names are rejected')
m(P,'notLoglinFlags','decide (|x| < tol)','decide (x < tol)','C66 zero steady states')
m(P,'notLoglinFlags','decide (x < 0)','decide (0 < x)','C66 negative steady states')
m(P,'notLoglinFlags','if !logLinearize then .ok (varNames.map fun _ => true)','if !logLinearize then .ok (varNames.map fun _ => false)','C66 log_linearize=False')
m(P,'loglinVars','filter fun p => !p.2','filter fun p => p.2','C66 flags mean not log-linear')
G='Gensys'
m(G,'setupG0','fromBlocks B C (-1) 0','fromBlocks B C 1 0','C68 the companion form')
m(G,'setupG0','-((fromBlocks B C (-1) 0)','((fromBlocks B C (-1) 0)','C68 sign of G0')
m(G,'setupG1','fromBlocks A 0 0 1','fromBlocks A 0 1 0','C68 the companion form')
m(G,'setupPsi','fromRows D 0','fromRows (-D) 0','C68 impact of shocks')
m(G,'setupPi','fromRows (0 : Mat n n) (1 : Mat n n)','fromRows (1 : Mat n n) (1 : Mat n n)','C68 expectational errors')
m(G,'gensysCount','realsmall ≤ ‖b‖ ∧ ‖b‖ < ‖a‖','realsmall ≤ ‖b‖ ∧ ‖a‖ < ‖b‖','C69 stability count')
m(G,'gensysCount','if ‖a‖ < realsmall ∧ ‖b‖ < realsmall then true','if ‖a‖ < realsmall ∨ ‖b‖ < realsmall then true','C69 coincident zeros')
m(G,'EtaSVD.loose','s.stable.v - s.unstable.v * s.unstable.vᴴ * s.stable.v','s.stable.v','C69 uniqueness code')
m(G,'EtaSVD.innerH','((s.unstable.d i : ℂ))⁻¹','((s.unstable.d i : ℂ))','C68 the solution')
m(G,'EtaSVD.tMat','fromCols 1 (-s.innerH)','fromCols 1 s.innerH','C68 the solution')
m(G,'EtaSVD.transitionC','fromRows (s.tMat * q.B)','fromRows (s.tMat * q.A)','C68 the solution')
m(G,'EtaSVD.impactC','s.tMat * q.Q * psi','q.Q1 * psi','C68 the impact matrix')
m(G,'gensysEU','if q.nu ≤ s.unstable.r then 1 else 0','if q.nu < s.unstable.r then 1 else 0','C69 existence code')
m(G,'gensysEU','if nLoose = 0 then 1 else 0','if nLoose ≤ 1 then 1 else 0','C69 uniqueness code')
m(G,'gensysCore','then ⟨0, 0, gensysEU s⟩','then ⟨0, 0, (1, 1, 0)⟩','C69 coincident zeros')
m(G,'solveWithGensys','r.eu.1 = -2 ∧ r.eu.2.1 = -2','r.eu.1 = -2 ∧ r.eu.2.1 = 0','C69 coincident zeros give no matrices')
m(G,'modelSolveGensys','if eu.1 = 1 ∧ eu.2.1 = 1 then','if eu.1 = 1 then','C69 only unique solutions are returned',count=2,nth=0)
m(G,'modelSolveGensys','if onFailureError then .failedException else .nothing','if onFailureError then .nothing else .failedException','C69 on_failure')
m(G,'interpretGensys','else if eu.1 = 1 ∧ eu.2.1 = 0 then .notUnique','else if eu.1 = 0 ∧ eu.2.1 = 1 then .notUnique','C69 messages')
m(G,'bkForward','filter fun j => tol < ∑ i, |C i j|','filter fun j => tol < ∑ i, C i j','C40 number of forward variables')
m(G,'bkUnstable','countP fun z => 1 < Real.sqrt','countP fun z => 1 ≤ Real.sqrt','C40 unit roots are not unstable')
m(G,'checkBK','if nForward = nU then .satisfied','if nForward ≤ nU then .satisfied','C40 the condition is an equality')
m(G,'checkBK','if nForward ≠ nU ∧ raiseOnFailure then','if nForward ≠ nU then','C40 raising is optional')
m(G,'checkBK','.flag (decide (nForward = nU))','.flag (decide (nForward ≠ nU))','C40 the flag')
m(G,'bkEigenvalues','p.2 / (p.1 + (tol : ℂ))','p.1 / (p.2 + (tol : ℂ))','C40 eigenvalues')
T='SteadyState'
m(T,'ssVariables','vars.map toSS','vars','C45 steady-state variables')
m(T,'systemToSS','eqToSSIn (order e) shocks e','eqToSSIn (order e) [] e','C70 shocks are zero')
m(T,'errorFromResid','| .abs => some (resid.map fun r => |r|).sum','| .abs => some |resid.sum|','C71 absolute error')
m(T,'errorFromResid','| .squared => some (resid.map fun r => r ^ 2).sum','| .squared => some (resid.sum ^ 2)','C71 squared error')
m(T,'knownOf','filter fun p => safeToSS p.1 ∈ ssVars','filter fun p => p.1 ∈ ssVars','C72 dated names are found')
m(T,'substituteAndFilter','s ∈ ssVars ∧ s ∉ dkeys','s ∈ ssVars ∨ s ∉ dkeys','C72 only equations with unknowns remain')
m(T,'substituteAndFilter','if (knownOf ss ssVars).isEmpty then eqs','if (knownOf ss ssVars).isEmpty then []','C72 nothing known')
m(T,'ssResidual','if ss.isEmpty then ssEqs ++ calib.map Prod.snd','if ss.isEmpty then ssEqs','C72 calibrating equations are part of the system')
m(T,'knownSS','filter fun k => k ∈ dkeys ss','filter fun k => k ∉ dkeys ss','C73 known values')
m(T,'simplifyProvided','(ss.filter fun p => p.1 ∈ (ssVariables vars)','(ss.filter fun p => p.1 ∉ (ssVariables vars)','C74 variables are kept')
m(T,'simplifyProvided','(p.1, p.2.subsSeq flat)','(p.1, p.2)','C74 auxiliaries are substituted')
m(T,'trySolve','if ssIn ssv e\' = [x] then','if x ∈ ssIn ssv e\' then','C45 closed forms only')
m(T,'trySolve','| some [s] =>','| some (s :: _) =>','C45 only unique solutions')
m(T,'storeValue','if s.syms.isEmpty then o.flt s else s','o.flt s','C45 values kept symbolic')
m(T,'propEq','filter fun s => Sym.tv s ∉ dkeys st.1','filter fun s => Sym.tv s ∈ dkeys st.1','C45 user values are kept')
m(T,'propEq','| some s => (dset st.1 (.tv x) (storeValue o s), true)','| some s => (dset st.1 (.tv x) (storeValue o s), st.2)','C45 propagation continues')
m(T,'propPass','eqs.foldl (propEq o ssv) (d, false)','(eqs.drop 1).foldl (propEq o ssv) (d, false)','C45 all equations are used')
m(T,'propLoop','then propLoop o ssv eqs n (propPass o ssv eqs d).1 else','then (propPass o ssv eqs d).1 else','C45 exhaustive')
B='Build'
m(B,'ddel','p.1 ≠ k','p.1 = k','C75 split')
m(B,'hyperStep','(ddel st.1 n, dset st.2 n v)','(st.1, dset st.2 n v)','C75 never both')
m(B,'hyperStep','(ddel st.1 n, dset st.2 n v)','(ddel st.1 n, st.2)','C75 nothing lost')
m(B,'orphanParams','if n ∉ dkeys joint ∧ ¬ joint.any','if n ∉ dkeys joint ∨ ¬ joint.any','C41 orphans')
m(B,'extraParams','∧ n ∉ distAtoms','','C41 parameters of priors are used')
m(B,'distributionAtoms','args ++ distParams.filter fun n => n ∈ dkeys joint','args','C41 parameters of shock distributions are used')
m(B,'validateResults','orphanParams (eqs ++ ssRel) joint','orphanParams eqs joint','C41 steady-state relations are checked')
m(B,'validateResults','dupdate (dupdate param calib) determ','dupdate param calib','C41 deterministic parameters are defined')
m(B,'validateResults','| .warn => .ok extras','| .warn => .ok []','C41 warning')
m(B,'resolveDeterministic','let used : Str → Bool := fun n => (eqs ++ ssRel).any','let used : Str → Bool := fun n => eqs.any','C77 use in steady-state relations counts')
m(B,'resolveDeterministic','(dget flat (.par p.1)).getD p.2','p.2','C77 values are resolved')
m(B,'splitDistributions','p.1 ∉ shockNames ∧ p.1 ∉ hyperNames shockDists','p.1 ∉ shockNames','C76 split')
m(B,'applySimplifications','some (r2.1, r2.2.1, r1.2.2.1, r2.2.2.1)','some (r2.1, r2.2.1, [], r2.2.2.1)','C78 eliminated variables are reported')
m(B,'compileGcn','systemToSS o.simp o.order eqs i.shocks','systemToSS o.simp o.order i.equations i.shocks','C78 steady state of the reduced model')
m(B,'compileGcn','if f.inferSS then propagateSS o.ss ss0 ssEqs vars else ss0','if f.inferSS then propagateSS o.ss [] ssEqs vars else ss0','C78 user values kept')
m(B,'compileGcn','vars := naturalSort vars','vars := naturalSort i.vars','C78 eliminated variables are not variables')
m(B,'compileGcn','match simplifyProvided i.ss vars with','match simplifyProvided i.ss i.vars with','C78 steady-state entries of eliminated variables')
m(B,'compileGcn','hyper := params.2','hyper := []','C78 hyper-parameters')
json.dump(M,open('m4.json','w'),ensure_ascii=False,indent=1); print(len(M))
