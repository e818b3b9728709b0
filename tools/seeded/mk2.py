import json
L=[]
def m(file,d,old,new,claim,edit=None,count=1,**k):
    L.append(dict(id=f"b{len(L)+1:03d}",file=file,**{'def':d},old=old,new=new,claim=claim,edit=edit or f"`{old.strip()}` -> `{new.strip()}`",count=count,**k))
# Block
m('Block','extractFlags',"exclude := e.tags.contains .exclude","exclude := false","C20 exclude tag recorded for its equation")
m('Block','extractMultiplier',"| some (c :: n) => some (convVar asm (c :: n) (.t 0))","| some (c :: n) => some (convVar asm (c :: n) (.t 1))","C22 named multiplier used at date t")
m('Block','convertList',"{ eqNum := st.eqNum + 1\n          flags","{ eqNum := st.eqNum\n          flags","C20 every equation gets its own number")
m('Block','calibItems',"| some v => .ok ((none, ⟨.sym (.par d.param), .num v⟩) :: r)\n      | none => .ok r","| some v => .ok ((none, ⟨.sym (.par d.param), .num v⟩) :: r)\n      | none => .ok ((none, ⟨.sym (.par d.param), .num 0⟩) :: r)","C21 priors without initial value define no parameter")
m('Block','calibItems',"| some v => .ok ((none, ⟨.sym (.par d.param), .num v⟩) :: r)","| some _ => .ok r","C21 prior with initial value defines the parameter")
m('Block','astBlockToBlock',"constraints := cons\n          identities := ids","constraints := ids\n          identities := cons","C20 equations stay in their component")
m('Block','SEq.zero',"e.rhs.sub e.lhs","e.rhs","C23 residuals vanish exactly when equations hold")
m('Block','flagsAllowed',"else if f.exclude && !mayExclude then .error .valueError\n","","C20 exclude tag outside constraints is rejected")
m('Block','Block.validate',"if B.objective.isSome && B.controls.isNone then throw .optimizationProblemNotDefined\n","","C23 objective without controls is rejected")
m('Block','Block.validate',"if (B.objective.getD []).length > 1 then","if (B.objective.getD []).length > 2 then","C23 two objectives are rejected")
m('Block','Block.validate',"(dvals B.definitions ++ dvals B.objective ++ dvals B.constraints).any","(dvals B.definitions ++ dvals B.objective).any","C23 control may occur in constraints only")
m('Block','Block.consolidate',"⟨p.2.lhs, p.2.rhs.subsSeq flat⟩","⟨p.2.lhs, p.2.rhs⟩","C49 definitions nested in definitions are eliminated")
m('Block','paramStep',"if x ∈ dkeys st.param then .ok { st with duplicates := st.duplicates ++ [x] }\n      else .ok","if false then .ok { st with duplicates := st.duplicates ++ [x] }\n      else .ok","C21 duplicate definitions are rejected")
m('Block','paramStep',"then .error (.dynamicCalibrating x)\n          else if","then .ok { st with calib := dset st.calib x p.2.rhs }\n          else if","C21 dynamic calibrating equations rejected")
m('Block','paramStep',"if f.isCalibrating then\n          if (p","if !f.isCalibrating then\n          if (p","C21 calibrating vs deterministic swapped")
m('Block','trySubsSS',"vars.any fun v => v.idx ≠ .ss then","vars.any fun v => v.idx = .t 1 then","C21 dated variables in deterministic parameters rejected")
m('Block','trySubsSS',".ok (e.rhs.subsSeq d)",".ok e.rhs","C21 steady-state values substituted in deterministic parameters")
m('Block','autoMultiplier',"++ ['_'] ++ natStr i","++ ['_'] ++ natStr 1","C22 every constraint has its own multiplier")
m('Block','stepBy',"| .negSucc n => (List.range (n + 1))","| .negSucc n => (List.range n)","C49 definitions eliminated at earlier dates")
m('Block','expandDefinition',"[(-1 : Int), 0, 1].foldlM","[(0 : Int), 1].foldlM","C49 definitions eliminated at date -1 in the Lagrangian")
m('Block','lagrangianLoop',"L.sub (.mul (.sym (.tv lm))","SExpr.add L (.mul (.sym (.tv lm))","C22 sign of constraint terms")
m('Block','lagrangianLoop',"(i + 1) (dset ms i (some lm))","i (dset ms i (some lm))","C22 generated multipliers are distinct")
m('Block','lagrangianLoop',"| some (some lm) => lagrangianLoop short sub cs (term lm) i ms","| some (some lm) => lagrangianLoop short sub cs L i ms","C22 constraint with named multiplier enters")
m('Block','Block.lagrangian',"(if f.minimize then rhs.neg else rhs)","rhs","C22 minimisation flips the objective")
m('Block','Block.lagrangian',"let rhs := obj.rhs.subsSeq sub","let rhs := obj.rhs","C49 definitions eliminated in the objective")
m('Block','discountFactor',"(x.subs1 next (.num 1))","(x.subs1 next (.num 0))","C48 discount factor is the coefficient of V[1]")
m('Block','discountFactor',"v.idx = .t 0 ∨ v.idx = .t (-1) then .ok (.num 1)","v.idx = .t 0 then .ok (.num 1)","C23 static objectives with lags have discount 1")
m('Block','Block.plainEquations',"(cs.filter fun p => !p.1)","cs","C23 excluded constraints are left out")
m('Block','Block.plainEquations',"let ids := (dvals B.identities).map fun e => (e.subsSeq sub).zero","let ids := (dvals B.identities).map fun e => e.zero","C49 definitions eliminated in identities")
m('Block','Block.plainEquations',".ok (ids ++ (cs.filter",".ok ((cs.filter","C23 identities are kept")
m('Block','Block.solve',"let eqs := eqs ++ [(obj.subsSeq sub).zero]","let eqs := eqs","C23 the objective equation is kept")
m('Block','Block.solve',"| some focs => .ok ⟨eqs ++ focs, ms⟩","| some focs => .ok ⟨eqs ++ focs.drop 1, ms⟩","C23 one condition per control")
m('Block','Block.solve',"diffThroughTime L c (.expr df)","diffThroughTime L c (.expr (.num 1))","C48 lagged controls are discounted")
m('Block','expandSubsAllTimes',"[TIdx.t (-1), .t 0, .t 1, .ss].foldl","[TIdx.t (-1), .t 0, .ss].foldl","C50 substitution at every date")
# SimplifyBlock
m('SimplifyBlock','eliminateOne',"e.atoms.eraseDups.length ≤ 3","e.atoms.eraseDups.length ≤ 4","C50 (threshold only)")
m('SimplifyBlock','simplifySystem',"decide (e ≠ .num 0)","decide (e = .num 0)","C50 only trivial equations are dropped")
m('SimplifyBlock','simplifySystem',"((s.map norm).filter fun e => decide (e ≠ .num 0))","((s.map norm).filter fun e => decide (e ≠ .num 0)).drop 1","C50 no nontrivial equation is dropped")
m('SimplifyBlock','eliminateOne',"[(x, rhs)]","[(x, .num 0)]","C50 solutions are kept")
# Validate
m('Validate','dupLoop',"dupLoop mk ns (n :: seen)","dupLoop mk ns [n]","C16 non-adjacent duplicates found")
m('Validate','validateBlock',"dupLoop (.dupShock · b.name) (b.shocks.map VarRef.name) [] ++\n","","C16 duplicate shocks reported")
m('Validate','validateModel',"if p.2.length > 1 then","if p.2.length > 2 then","C16 parameter defined in two blocks reported")
m('Validate','Calib.definedParam',"| .dist d => some d.param","| .dist _ => none","C16 priors count as definitions")
m('Validate','VErr.isError',"| .noObjective _ | .noConstraints _ | .undefVar _ | .undefParam _ => false","| .noObjective _ | .noConstraints _ | .undefVar _ | .undefParam _ | .dupShock .. => false","C16 duplicates are errors")
m('Validate','definedVars',"b.controls.map VarRef.name ++ b.shocks.map VarRef.name ++","b.controls.map VarRef.name ++","C18 shocks are defined")
m('Validate','usedVars',"(b.definitions ++ b.constraints ++ b.identities ++ b.objective).flatMap fun e => e.rhs.vars","(b.definitions ++ b.identities ++ b.objective).flatMap fun e => e.rhs.vars","C18 variables used in constraints are checked")
m('Validate','sortedMissing',"n ∉ defined ∧ n ∉ ext","n ∉ defined","C18 external names are not reported")
m('Validate','sortedMissing',"mergeSort strLe","mergeSort fun a b => strLe b a","C18 reported in sorted order")
m('Validate','usedParams',"e.lhs.pars ++ e.rhs.pars","e.rhs.pars","C18 parameters on the left are used too")
m('Validate','raiseFirst',"es.find? VErr.isError","es.head?","C17 warnings never raise")
m('Validate','resultValidate',"if raiseOnError ∧ hasErrors errors then","if false ∧ hasErrors errors then","C17 validate(raise_on_error) raises")
m('Validate','preprocess',"match resultValidate ast false with","match resultValidate ast true with","C17 preprocess never raises (violation theorem must notice a fix)")
# Loader
m('Loader','isSkippedName',"[['S','T','E','A','D','Y','S','T','A','T','E'], ['S','S']]\n\n","[['S','T','E','A','D','Y','S','T','A','T','E']]\n\n","C53 steady-state blocks contribute no equations")
m('Loader','normName',"(name.map Char.toUpper)","name","C54 block names are case-insensitive")
m('Loader','mergeLoop',"(dups ++ (dkeys d).filter fun k => k ∈ dkeys acc)","dups","C19 parameters defined twice are rejected")
m('Loader','mergeLoop',"mergeLoop ds (dupdate acc d)","mergeLoop ds (dupdate d acc)","C19 merge without loss (order)")
m('Loader','mergeParams',"(sortToString r.1)","(sortToString (r.1.drop 1))","C19 no parameter lost")
m('Loader','insertBy',"if le a b then a :: b :: l else b :: insertBy le a l","if le a b then a :: l else b :: insertBy le a l","C19 sorting keeps all entries")
m('Loader','mergeVariables',"((blocks.flatMap Prod.fst).map TSym.now).filter fun x => x ∉ shocks","((blocks.flatMap Prod.fst).map TSym.now)","C52 shocks are not variables")
m('Loader','mergeVariables',"sortByName ((blocks.flatMap Prod.snd).map TSym.now)","sortByName (((blocks.take 1).flatMap Prod.snd).map TSym.now)","C52 shocks of every block")
m('Loader','Block.variableList',"(prev ++ occurring ++ ms.filterMap Prod.snd)","(prev ++ occurring)","C52 multipliers are variables")
m('Loader','Block.variableList',"(dvals B.objective ++ dvals B.constraints ++ dvals B.identities)","(dvals B.objective ++ dvals B.constraints)","C52 variables of identities are variables")
m('Loader','blockDictLoop',"blockDictLoop asm ss bs (dset acc r.block.name r)","blockDictLoop asm ss bs (dset [] r.block.name r)","C53 every block contributes")
m('Loader','loadRest',"equations := bs.flatMap Built.equations","equations := (bs.drop 1).flatMap Built.equations","C53 every block contributes its equations")
m('Loader','extractSS',"match flattenSubs (defDict (ds ++ is)) with","match flattenSubs (defDict is) with","C54 definitions are resolved in steady-state values")
m('Loader','extractSS',"(is.filterMap SEq.lhsSym)","((ds ++ is).filterMap SEq.lhsSym)","C54 definitions are not steady-state values")
m('Loader','extractTryreduce',"variables.find? fun v => v.base = n","variables.find? fun v => v.base.isPrefixOf n","C56 exactly the named variables")
m('Loader','constructBlock',"match astBlockToBlock asm (expandBlock b) with","match astBlockToBlock asm b with","C53 blocks are expanded before conversion")
m('Loader','shockLoop',"| some d => shockLoop priors rest { s with hyper := dset s.hyper k d, names := dset s.names k n }","| some d => shockLoop priors rest { s with hyper := dset s.hyper n d, names := dset s.names k n }","C55 hyper-prior stored under the keyword")
m('Loader','createShockDist',"if s.names.isEmpty then none else some s","some s","C55 shocks with only fixed numbers give no hyper-prior entry")
m('Loader','loadDists',"(blockShockDists (blockPriors ok b ps) b sd)","(blockShockDists ps b sd)","C55 priors of the same block are linked")
m('Loader','blockPriors',"if ok d then dset ps d.param d else ps","ps","C55 priors recorded")
# ParserMisc
m('ParserMisc','scoreLe',"if a.1 = b.1 then strLe a.2 b.2 else decide (b.1 < a.1)","if a.1 = b.1 then strLe a.2 b.2 else decide (a.1 < b.1)","C42 best suggestions first")
m('ParserMisc','findSimilar',"fun p => minSim ≤ p.1","fun p => minSim < p.1","C42 threshold inclusive")
m('ParserMisc','findSimilar',".take maxResults",".take (maxResults + 1)","C42 at most max_results")
m('ParserMisc','findSimilar',"if candidates.any fun c => lowerStr c = lowerStr name then []\n  else","if candidates.any fun c => c = name then []\n  else","C42 no suggestion when the name exists up to case")
m('ParserMisc','addAssumption',"(if name = unitInterval then dset a positiveStr true else a)","a","C44 unit interval implies positive")
m('ParserMisc','addAssumption',"((dget d v).getD parserDefaults)","parserDefaults","C44 assumptions of several sub-blocks accumulate")
m('ParserMisc','buildAssumptions',"addAssumption (lowerStr b.1) v d","addAssumption b.1 v d","C44 assumption names are lower-cased")
m('ParserMisc','applyOp',"if s = ['-'] then .ok (r - v)","if s = ['-'] then .ok (v - r)","C46 subtraction")
m('ParserMisc','applyOp',"(if v = 0 then .error .zeroDivision else .ok (r / v))",".ok (r / v)","C46 division by zero raises")
m('ParserMisc','numLevels',"[.sub, .add, .mul, .div]","[.add, .sub, .div, .mul]","C46 precedence (10-4+3)")
# PerfectForesight
m('PerfectForesight','periodEntries',"(if t > 0 then","(if t > 1 then","C29 lag block of period 1")
m('PerfectForesight','periodEntries',"(if t < T - 1 then","(if t < T then","C29 no lead block in the last period")
m('PerfectForesight','periodEntries',"(t * nEq) ((t - 1) * nVars) 0","(t * nEq) ((t - 1) * nEq) 0","C29 column offsets (square so equal?)")
m('PerfectForesight','periodEntries',"((t + 1) * nVars) (2 * nVars) else","(t * nVars) (2 * nVars) else","C29 lead entries in next period's columns")
m('PerfectForesight','totalNnz',"T * (nonzeroIn (J 0) nEq nVars nVars).length","(T - 1) * (nonzeroIn (J 0) nEq nVars nVars).length","C29 preallocated length is exact")
m('PerfectForesight','blockEntries',"J p.1 (lo + p.2)","J p.1 p.2","C29 values from the right columns")
m('PerfectForesight','shockMatrix',"| some path => (path[t]?).getD 0","| some path => (path[t + 1]?).getD 0","C31 shock at its own period")
m('PerfectForesight','paramLoop',"let idx := names.idxOf n","let idx := names.idxOf n + 1","C31 parameter path in its own column")
m('PerfectForesight','periodArgs',"if t = T - 1 then yTerm","if t = T then yTerm","C30 terminal condition at the last period")
m('PerfectForesight','periodArgs',"if t = 0 then yInit","if t ≤ 1 then yInit","C30 initial condition only at the first period")
m('PerfectForesight','periodArgs',"params := params t","params := params 0","C57 parameters of the period")
m('PerfectForesight','writeSlice',"i < (t + 1) * nEq","i ≤ (t + 1) * nEq","C30 residual slices do not overlap")
m('PerfectForesight','boundaryVector',"conds.foldl (setCondition names) (ssToArray ss names)","ssToArray ss names","C58 user conditions respected")
m('PerfectForesight','ssToArray',"(dget ss (n ++ ssSuffix)).getD ((dget ss n).getD 1)","(dget ss n).getD 1","C58 steady-state used where no condition")
m('PerfectForesight','boundaryParams',"let y ← vs.getLast?","let y ← vs.head?","C58 terminal steady state uses last parameter values")
m('PerfectForesight','piecewiseX0',"(1 - w) * init c + w * term c","w * init c + (1 - w) * term c","C59 transition goes from initial to terminal")
m('PerfectForesight','piecewiseX0',"else if stop ≤ t then term c","else if stop < t then term c","C59 terminal value after the transition")
m('PerfectForesight','validatePF',"p.2.length ≠ T then .error .shockLength","p.2.length > T then .error .shockLength","C31 shock path length must equal the horizon")
m('PerfectForesight','validatePF',"else if (dkeys (paths.getD [])).any fun n => n ∉ paramNames then .error .unknownParam\n","","C31 unknown parameters rejected")
m('PerfectForesight','ParamModel.parameters',"(d.1, d.2 p)","(d.1, d.2 m.free)","C57 deterministic parameters follow updates")
# SparseRoot
m('SparseRoot','checkConvergence',"maxAbs s.res < fTol ∨","maxAbs s.res < 2 * fTol ∨","C35 success is reported honestly")
m('SparseRoot','rootLoop',"else (r.1, { final := r.2.1, success := false, last := last","else (r.1, { final := r.2.1, success := true, last := last","C35 rejected step is not a success")
m('SparseRoot','rootLoop',"| 0, o, s, last => (o, { final := s, success := false","| 0, o, s, last => (o, { final := s, success := true","C35 iteration limit is not a success")
m('SparseRoot','finishProposal',"if slope ≥ 0 then { direction := -dx, slope := -slope }","if slope ≥ 0 then { direction := dx, slope := -slope }","C32 descent direction")
m('SparseRoot','finishProposal',"if slope ≥ 0 then","if slope ≤ 0 then","C32 slope is non-positive")
m('SparseRoot','backtrack',"if phi ≤ ref + cfg.c1 * alpha * p.slope then","if phi ≤ ref - cfg.c1 * alpha * p.slope then","C32 merit never increases")
m('SparseRoot','backtrack',"res := (f xt).1, jac := (f xt).2, phi := phi, nit := 0 }, alpha)","res := (f x).1, jac := (f xt).2, phi := phi, nit := 0 }, alpha)","C35 state is consistent with the function")
m('SparseRoot','finishStep',"step := alpha • p.direction }","step := p.direction }","C35 reported step is the actual displacement")
m('SparseRoot','armijoSolver',"(backtrack cfg f s.x s.phi q.2 cfg.maxIter 1)","(backtrack cfg f s.x (2 * s.phi) q.2 cfg.maxIter 1)","C32 merit never increases")
m('SparseRoot','nonmonotoneSolver',"let h := pushHistory memory o.2 s.phi","let h := pushHistory (memory + 1) o.2 s.phi","C33 only the last `memory` merits count")
m('SparseRoot','nonmonotoneSolver',"reset := fun o => (fresh, o.2)","reset := fun _ => (fresh, [])","C33 reuse (violation theorem must notice a fix)")
m('SparseRoot','trLoop',"if 0 < pred ∧ rho > cfg.eta then","if rho > cfg.eta then","C34 accepted steps lower the merit")
m('SparseRoot','trLoop',"min (cfg.grow * delta) cfg.deltaMax","cfg.grow * delta","C34 radius stays below delta_max")
m('SparseRoot','trLoop',"| 0 => (delta * cfg.shrink, s, { accepted := false","| 0 => (delta * cfg.shrink, s, { accepted := true","C35 exhausted rejections are not accepted")
m('SparseRoot','doglegStep',"let tau := (-cd + √(max disc 0)) / dd","let tau := (-cd + √(max disc 0)) / cc","C34 dogleg step inside the region")
m('SparseRoot','doglegStep',"if norm2 pn ≤ delta then pn","if norm2 pn ≤ 2 * delta then pn","C34 Newton step inside the region")
m('SparseRoot','boundaryStep',"let tau := (-pd + √(max disc 0)) / dd","let tau := (pd + √(max disc 0)) / dd","C34 boundary step on the boundary")
m('SparseRoot','steihaugLoop',"if norm2 pNext ≥ delta then bstep p d delta","if norm2 pNext ≥ 2 * delta then bstep p d delta","C34 CG iterates stay inside")
m('SparseRoot','lmLoop',"max (lam * cfg.lamDown) cfg.minLam","lam * cfg.lamDown","C60 damping stays above min_lambda")
m('SparseRoot','lmLoop',"if 0 < pred ∧ (s.phi - phi) / pred > cfg.eta then","if 0 < pred then","C60 accepted steps strictly lower the merit")
m('SparseRoot','lmScale',"max 1 ((Jᵀ * J) i i)","max 0 ((Jᵀ * J) i i)","C60 scaling at least one (damped system positive definite)")
m('SparseRoot','merit',"0.5 * (res ⬝ᵥ res)","res ⬝ᵥ res","C32 merit is half the squared norm")
# ClosedForm
m('ClosedForm','negSymbol',"if q = -1 then some s else none","if q = 1 then some s else none","C24 residual sign")
m('ClosedForm','monomialLoop',"| some _ => none\n    | none => monomialLoop fs (some s) ins","| some _ => monomialLoop fs (some s) ins\n    | none => monomialLoop fs (some s) ins","C24 two bare symbols are not a Cobb-Douglas monomial")
m('ClosedForm','decomposeMonomial',"else if (ins.map Prod.fst).Nodup then some (A, ins)\n    else none","else some (A, ins)","C24 repeated inputs")
m('ClosedForm','matchCDResidual',"if (Y :: (A.toList ++ ins.map Prod.fst)).Nodup then some ⟨idx, Y, A, ins⟩ else none","some ⟨idx, Y, A, ins⟩","C24 Y may be an input")
m('ClosedForm','Block.rawObjective',".minimize then obj.rhs.neg else obj.rhs",".minimize then obj.rhs else obj.rhs","C24 minimise sign")
m('ClosedForm','Block.computeFoc',".div (.mul (.mul (.sym (.tv mu)) a) (.sym m.Y)) (.sym x)",".div (.mul (.mul (.sym (.tv mu)) a) (.sym x)) (.sym m.Y)","C24 marginal product a*Y/x")
m('ClosedForm','Block.computeFoc',"((SExpr.num 1).sub m.s)","(m.s)","C25 exponent 1-s")
m('ClosedForm','productivity',"| some a => .pow (.sym a) s","| some a => .sym a","C25 productivity A^s")
m('ClosedForm','Block.closedFoc',"| none => dttB L c df","| none => .ok od","C24 controls that are not inputs get the generic condition")
m('ClosedForm','cesInner',"R.isZero ((SExpr.mul oe c).sub (.num 1))","R.isZero ((SExpr.mul oe c).sub (.num 2))","C25 outer exponent is 1/s")
m('ClosedForm','Block.solveKind',"| .ok focs => .ok ⟨eqs ++ focs, ms⟩","| .ok focs => .ok ⟨eqs ++ focs, B.multipliers⟩","C24 multiplier record")
json.dump(L,open('m2.json','w'),indent=1)
print(len(L))
P='/tmp/mut/pristine/Verif/Model/'
for x in L:
    n=open(P+x['file']+'.lean').read().count(x['old'])
    if n!=x['count']: print(x['id'],x['file'],x['def'],n,repr(x['old'][:60]))
for x in json.load(open('m1.json')):
    n=open(P+x['file']+'.lean').read().count(x['old'])
    if n!=x['count']: print(x['id'],x['file'],x['def'],n,repr(x['old'][:60]))
