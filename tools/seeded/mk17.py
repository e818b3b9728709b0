import json,glob,os
L=[]
def m(file,d,old,new,claim,count=1,nth=None): L.append((file,d,old,new,claim,count,nth))
C='ContainerValues'
m(C,'floatBranch',"| .num q => some (.flt (ops.toFloat q))\n","",'C131 numbers become floats')
m(C,'floatBranch',"| .cc a b => some (.cpx a b)\n","| .cc a b => some (.flt a)\n",'C131 complex values')
m(C,'floatBranch',"| .cc a b => some (.cpx a b)\n  | _ => none","| .cc a b => some (.cpx a b)\n  | .other _ => some (.int 0)\n  | _ => none",'C131 other values untouched')
m(C,'sympyBranch',"| .int n => some (.num (ops.ofInt n))\n","",'C131 ints become sympy numbers')
m(C,'sympyBranch',"| .cpx a b => some (.cc a b)\n","| .cpx a b => some (.cc b a)\n",'C131 complex values')
m(C,'valuesLoop',"| none => valuesLoop f h d rest","| none => .ok (d, h)",'C131 every value converted')
m(C,'mapValues',".ok ({ c with ref := h.length }, h ++ [h.get d.ref])",".ok (c, h)",'C131 own metadata')
m(C,'mapValues',".ok ({ c with ref := h.length }, h ++ [h.get d.ref])",".ok ({ c with ref := h.length }, h ++ [{}])",'C131 metadata kept')
m(C,'valuesToFloatInplace',".ok (r, h) => .ok (d.cleanUpdate h r)",".ok (r, h) => .ok (d, h)",'C131 in place')
m(C,'sortDictionary',"strLe (symbolToString a.1) (symbolToString b.1)","strLe (symbolToString b.1) (symbolToString a.1)",'C131 ascending')
m(C,'sortKeys',"if d.isSympy then SDict.toSympy h r else return (r, h)","return (r, h)",'C131 sorted symbols stay symbols')
m(C,'sortKeys',"  let h := h.put r.ref (h.get d.ref)\n","",'C131 metadata kept when sorting')
m(C,'sortKeys',"SDict.new h (sortDictionary s.items)","SDict.new h s.items",'C131 sorted')
m(C,'sortKeysInplace',"return SDict.cleanUpdate h d r","return (r, h)",'C131 sort in place')
m(C,'baseAttrs',"[['i','s','_','s','y','m','p','y'], ","[['i','s','_','s','y','m','p','y'], ['s','u','c','c','e','s','s'], ",'C131 pickle keeps success')
m(C,'reduce',"o.attrs.filter fun p => p.1 ∉ baseAttrs","o.attrs.filter fun p => p.1 ∈ baseAttrs",'C131 pickle keeps attributes')
m(C,'load',"⟨p.cls, ⟨dupdate [] p.items, p.isSympy","⟨.symbolDictionary, ⟨dupdate [] p.items, p.isSympy",'C131 pickle keeps class')
m(C,'load',"h ++ [p.md]","h ++ [{}]",'C131 pickle keeps assumptions')
m(C,'load',"p.isSympy, h.length⟩","false, h.length⟩",'C131 pickle keeps mode')
B='Base'
m(B,'dset',"if k' = k then (k', v) :: d else","if k' = k then (k', v') :: d else",'C05 assignment overwrites')
m(B,'dupdate',"e.foldl (fun acc p => dset acc p.1 p.2) d","e.foldl (fun acc p => if (dget acc p.1).isSome then acc else dset acc p.1 p.2) d",'C05 update overwrites')
K='Block'
m(K,'convertCalibration',"| .ok (i :: is) => let r := numberCalib asm (i :: is) st []","| .ok (i :: is) => let r := numberCalib asm is st []",'C20 every calibration numbered')
m(K,'convertCalibration',"| .ok [] => .ok (none, st)","| .ok [] => .ok (some [], st)",'C20 no calibration')
m(K,'SEq.subsSeq',"⟨e.lhs.subsSeq d, e.rhs.subsSeq d⟩","⟨e.lhs, e.rhs.subsSeq d⟩",'C22 definitions substituted')
m(K,'SEq.syms',"e.lhs.syms ++ e.rhs.syms","e.rhs.syms",'C36 all symbols of an equation')
m(K,'factors',"| .mul a b => a.factors ++ b.factors","| .mul a b => [a] ++ b.factors",'C24 factors')
m('Cache','modelRun',"let rest := modelRun vars build compile buildEqs r.2 ops","let rest := modelRun vars build compile buildEqs s ops",'C57 cached results')
F='ClosedForm'
m(F,'cesOuter',"| some (A, some (inner, oe)) => some (A, inner, oe)","| some (A, some (inner, oe)) => some (none, inner, oe)",'C24 CES productivity kept')
m(F,'cesCandidates',"if cs.any fun c => R.isZero (e.sub c) then cs else cs ++ [e]","cs ++ [e]",'C24 one exponent')
m(F,'cesTerm',"| some (some x, sh) => some (x, mulAll sh)","| some (some x, sh) => some (x, .num 1)",'C24 CES share')
m(F,'matchCES',"(matchCESResidual R idx (e.rhs.sub e.lhs)).orElse fun _ => matchCESResidual R idx (e.lhs.sub e.rhs)","matchCESResidual R idx (e.lhs.sub e.rhs)",'C24 both orientations')
m(F,'matchCESResidual',"if (Y :: (A.toList ++ ins.map Prod.fst)).Nodup then some","if True then some",'C24 distinct symbols')
N='Containers'
m(N,'symbolToString',"| .var s => safeName s","| .var s => createName s",'C03 key strings')
m(N,'isSym',"| .str _ => false\n  | _ => true","| .str _ => false\n  | .par _ _ => false\n  | _ => true",'C04 parameters are symbols')
m(N,'updatePlain',"items := dupdate d.items o","items := dupdate o d.items",'C05 update overwrites')
m(N,'toSympy',"stringKeysToSympy (h.get d.ref) d.items","stringKeysToSympy {} d.items",'C03 assumptions restored')
m(N,'toStrInplace',"  return SDict.cleanUpdate h d s\n\n/-- the three","  return (s, h)\n\n/-- the three",'C03 in place')
P='DataFromPrior'
m(P,'graphSwitch',"(dget kw name.toList).getD dflt","dflt",'C124 switches respected')
m(P,'dfpDefaults','("add_solver_success_check".toList, true)','("add_solver_success_check".toList, false)','C124 defaults')
m(P,'frameRows',"| (_, col) :: _ => col.length","| (_, _) :: r => r.length",'C124 rows')
m('Diagnostics','pyKeywords','"yield"].map','"yields"].map','C86 keywords')
m('Diagnostics','sampleUniformFromPriors',"(boundsFromPriors priors hdiProb) n seed method","(boundsFromPriors priors 1) n seed method",'C86 bounds')
m('DirectConvert','equationToSympy',".ok (s, eqMeta asm e)",".ok (s, eqMeta [] e)",'C127 metadata')
m('DirectConvert','blockToCalibration',"b.calibration {}","b.calibration.tail {}",'C127 every calibration')
S='Sym'
m(S,'neg',"def neg (a : SExpr) : SExpr := .mul (.num (-1)) a","def neg (a : SExpr) : SExpr := .mul (.num 1) a",'C13 negation')
m(S,'div',".mul a (.pow b (.num (-1)))",".mul b (.pow a (.num (-1)))",'C13 division')
m(S,'syms',"| .pow a b => a.syms ++ b.syms","| .pow a b => a.syms",'C12 symbols of exponents')
m(S,'replace',"| .log a => .log (a.replace f)","| .log a => .log a",'C12 substitution under log')
m(S,'insertBy',"if le a b then a :: b :: l else b :: insertBy le a l","if le a b then a :: b :: l else b :: a :: l",'C11 sorting')
m(S,'ascT',"| .t i, .t j => i ≤ j\n  | .ss, _ => true\n  | .t _, .ss => false\n\n","| .t i, .t j => j ≤ i\n  | .ss, _ => true\n  | .t _, .ss => false\n\n",'C12 stepping backward')
m(S,'stepBwdIn',"let w ← stepBackward v","let w ← stepForward v",'C12 stepping backward')
m(S,'stepFwd',"stepFwdIn (sortBy descT e.tsyms.eraseDups) e","stepFwdIn (sortBy ascT e.tsyms.eraseDups) e",'C12 stepping forward')
m(S,'Disc.times',"| .pyInt k => .mul e (.num k)","| .pyInt k => e",'C12 discount factor')
m(S,'Disc.step',"| .ok b' => .ok (.expr b')","| .ok _ => .ok (.expr b)",'C12 discount steps')
m(S,'flatDeps',"s ∈ dkeys d ∧ s ≠ key","s ∈ dkeys d",'C14 self reference')
m(S,'resolveLoop',"| some (some st') => resolveLoop r ks st'","| some (some st') => some (some st')",'C14 all definitions')
m(S,'flattenSubs',"(dkeys d) {}).map","(dkeys d).tail {}).map",'C14 all definitions')
D='Dynare'
m(D,'termToks',"(isSum t, toks t) :: termToks ts","(false, toks t) :: termToks ts",'C71 sums in sums')
m(D,'ssName',"s.base ++ ssSuffix","s.base",'C71 steady state names')
m(D,'writeLines',"linesLoop width start start items","linesLoop width start [] items",'C73 lines start')
m('ErrorText','isIn',"sep.isPrefixOf (c :: cs) || isIn sep cs","sep.isPrefixOf (c :: cs)",'C109 substring')
m('ErrorText','rebuildArgs','"annotation", "notes"]','"annotation"]','C109 notes kept')
m('ErrorText','quoted',"'\\'' :: (s ++ ['\\''])","s",'C109 quoted')
m('ExpandTime','collectArgs',"| a :: as => collectArgs (collectExpr d a) as","| a :: as => collectArgs d as",'C07 arguments searched')
m('ExpandTime','replaceArgs',"replaceExpr d a :: replaceArgs d as","a :: replaceArgs d as",'C07 arguments replaced')
m('Figures','heatMap',"| .ok cs => .ok ⟨xs, ys, cs⟩","| .ok cs => .ok ⟨ys, xs, cs⟩",'C129 ticks')
m('Figures','metaCols','"norm_deterministic".toList, "norm_stochastic".toList]','"norm_deterministic".toList]','C129 columns')
G='Gensys'
m(G,'eqsAndLeads',"Sum.map id Subtype.val","fun x => x.elim Sum.inl fun j => Sum.inl j.1",'C41 gensys')
m(G,'Q1',"q.Q.submatrix Sum.inl id","(1 : Matrix _ _ ℂ).submatrix Sum.inl id * q.Q * 2",'C41 gensys')
m(G,'Q2',"q.Q.submatrix Sum.inr id","2 • q.Q.submatrix Sum.inr id",'C41 gensys')
m(G,'bigG0',"fromRows (s.tMat * q.A) (fromCols 0 1)","fromRows (s.tMat * q.A) (fromCols 0 0)",'C41 gensys')
R='Grammar'
m(R,'pWrapArgs',"| some (as, .rpar :: r) => some (as, r)\n    | _ => none\n  | _ => none","| some (as, .rpar :: r) => some (as.tail, r)\n    | _ => none\n  | _ => none",'C104 wrapper arguments')
m(R,'pNChain',"| some (a, r) => pNLoop f (.one a) r","| some (a, r) => some (.one a, r)",'C104 arithmetic in arguments')
m('LinearSolve','linSolve',"some (A⁻¹ * B)","some (A * B)",'C40 linear solve')
m('LinearSolve','solveWithCR',".ok (some (p.T, p.R))",".ok (some (p.T, -p.R))",'C40 shock response')
m('LoadSimplified','loadModelS',"extractSS m.assumptions m","extractSS [] m",'C125 assumptions')
m('Loader','loadModel',"extractSS m.assumptions m","extractSS [] m",'C30 assumptions')
m('Loader','Sym.toStr',"| .tv s => safeName s\n  | .par n => n\n\n/-- `d.sort","| .tv s => s.base\n  | .par n => n\n\n/-- `d.sort",'C29 names')
m('PFCompile','compileProblem',"| .ok f => .ok (c, f)","| .ok f => .ok (c, ⟨f.1, f.2⟩)",'C121 skip')
m('ParserMisc','NOp.tok',"| .add => ['+'] | .sub => ['-']","| .add => ['+'] | .sub => ['+']",'C19 arithmetic')
m('ParserMisc','NChain.flat',"(c.flat.1, c.flat.2 ++ [(op, a.tree)])","(c.flat.1, (op, a.tree) :: c.flat.2)",'C19 arithmetic')
m('ParserMisc','unitInterval',"['u','n','i','t','_','i'","['u','n','i','t','i'",'C19 names')
m('ParserMisc','lowerStr',"s.map Char.toLower","s",'C19 case')
H='PerfectForesight'
m(H,'assembleEntries',"(List.range T).flatMap","(List.range (T - 1)).flatMap",'C45 every period')
m(H,'stackedResiduals',"writeSlice nEq p.1 p.2 res) fun _ => 0","writeSlice nEq p.1 p.2 res) fun _ => 1",'C45 residual vector')
m(H,'ssSuffix',"['_', 's', 's']","['_', 's']",'C48 names')
m('Perturbation','atT',"{ v with idx := .t k }","{ v with idx := .t (-k) }",'C33 dates')
m('Perturbation','setTrue',"if k = i then true else a k","if k = i then a k else true",'C35 mask')
m('Plotting','lower',"s.map Char.toLower","s",'C113 case')
m('Printer','toksArgs',"| a :: as => Expr.toks 0 a ++ .comma :: Expr.toksArgs as","| a :: as => Expr.toks 0 a ++ Expr.toksArgs as",'C16 commas')
m('Printer','pUnary',"| some (e, r) => some (.neg e, r)","| some (e, r) => some (e, r)",'C16 unary minus')
m('Printer','pAtom',"| some (e, .rbr :: r) => some (.expect e, r)","| some (e, .rbr :: r) => some (e, r)",'C16 expectation')
m('Printer','pVarList',"some (⟨n, t⟩ :: vs, r)","some (vs, r)",'C16 control lists')
m('Printer','buildBlock',"cs.foldl Blk.addComp { name := name }","cs.foldl Blk.addComp { name := [] }",'C16 block name')
m('Report','reportText',"(reportPieces r).flatten","(reportPieces r).tail.flatten",'C120 report')
m('Report','tabLen',"expandedLen 0 0 s","s.length",'C120 tabs')
Q='Responses'
m(Q,'matsOf',"A := Matrix.of fun i j => (entryAt M.A i j).getD 0","A := Matrix.of fun i j => (entryAt M.C i j).getD 0",'C130 lag matrix')
m(Q,'matsOf',"C := Matrix.of fun i j => (entryAt M.C i j).getD 0","C := Matrix.of fun i j => (entryAt M.C j i).getD 0",'C130 transposed')
m(Q,'matsOf',"D := Matrix.of fun i j => (entryAt M.D i j).getD 0","D := Matrix.of fun i j => -(entryAt M.D i j).getD 0",'C130 shock matrix')
m(Q,'linearMats',"(linearizeModel vars eqs shocks loglin ss (evalAt par))","(linearizeModel vars eqs shocks [] ss (evalAt par))",'C130 logs')
E='SSDriver'
m(E,'negativeStr',"['n','e','g','a','t','i','v','e']","['n','e','g']",'C97 bounds')
m(E,'toUnconstrained',"List.zipWith forwardNum ts x","List.zipWith forwardNum ts.reverse x",'C97 transforms')
m(E,'symName',"| .tv s => createName s","| .tv s => s.base",'C97 names')
m(E,'SSModel.equations',"ssResidual m.ssEqs [] m.vars m.calib","ssResidual m.ssEqs [] m.vars []",'C97 calibration equations')
m(E,'SSModel.parameters',"m.params.parameters updates","m.params.parameters []",'C97 parameter updates')
m(E,'SExpr.eval',"| .log a => Real.log (a.eval env)","| .log a => Real.log (-(a.eval env))",'C97 skip')
W='SparseRoot'
m(W,'startState',"jac := (f x0).2, phi","jac := 2 • (f x0).2, phi",'C51 start')
m(W,'startState',"phi := merit (f x0).1, nit := 0","phi := 0, nit := 0",'C51 start merit')
m(W,'newtonDirection',"finishProposal s.res s.jac (solveOrGradient lin s.jac s.res)","finishProposal s.res s.jac (solveOrGradient lin s.jac (-s.res))",'C51 Newton direction')
m(W,'gaussNewtonSolver',"reset := fun _ => cfg.delta0","reset := fun _ => 0",'C52 radius')
m(W,'gaussNewtonSolver',"(cfg.maxReject - 1) delta","cfg.maxReject delta",'C52 rejections')
m(W,'gaussNewtonSolver',"(steihaug (s.jacᵀ * s.jac) (s.jacᵀ *ᵥ s.res)) f s","(steihaug (s.jacᵀ * s.jac) (-(s.jacᵀ *ᵥ s.res))) f s",'C52 direction')
m(W,'norm2',"√(v ⬝ᵥ v)","v ⬝ᵥ v",'C51 norm')
X='StateSpace'
m(X,'setAt',"if a = i ∧ b = j then v else M a b","if a = j ∧ b = i then v else M a b",'C76 matrices')
m(X,'incAt',"then M a b + v else M a b","then v else M a b",'C76 matrices')
m(X,'cumulates',"((dget c.agg name).map Agg.cumulates).getD false","((dget c.agg name).map Agg.cumulates).getD true",'C76 aggregation')
m(X,'kAug',"c.vars.length + c.nCum + c.nObsLag","c.vars.length + c.nCum",'C76 states')
m(X,'appendLags',"NMat.block kPrev kPrev Taug NMat.zeros FC.1 FC.2","NMat.block kPrev kPrev Taug NMat.zeros FC.2 FC.1",'C76 lags')
m(X,'transition',"c.appendLags (c.augTransition T)","c.appendLags T",'C76 cumulators')
m(X,'refuse',"if bad = [] then .ok () else .error (e bad)",".ok ()",'C78 refused')
m(X,'refuseIf',"if b then .error e else .ok ()",".ok ()",'C78 refused')
m(X,'stateCov',"fun s => sigma s ^ 2","fun s => sigma s",'C76 covariance')
m(X,'xreplace',"(dget d s).getD (.sym s)","(dget d s).getD (.num 0)",'C77 replacement')
m(X,'NMat.dot',"M i k * N k j","M i k * N j k",'C80 products')
m(X,'NMat.cols',"fun i j => M i (p j)","fun i j => M (p i) j",'C80 order')
m(X,'Configured.obj',"{ o with stateNames := r.cfg.stateNames }","o",'C78 state names')
T='Tensor'
m(T,'tjoin',"x.shape.set a (xs.map fun y => y.shape.getD a 0).sum","x.shape.set a (x.shape.getD a 0)",'C100 join')
m(T,'swapAxis',"if b + 1 = n then n - 2 else if b + 2 = n then n - 1 else b","b",'C100 transpose')
m(T,'tsplit',"let off := ((sizes.take k).map Int.toNat).sum","let off := 0",'C100 split')
m(T,'tblockDiag',"(bdVal n xs))","(bdVal (n - 1) xs))",'C100 block diagonal')
m(T,'joinInputs',"| .join _ xs => xs","| .join _ xs => xs.tail",'C100 join inputs')
m(T,'Blocks.flat',"b.flat ++ Blocks.flatL bs","Blocks.flatL bs",'C100 blocks')
m('Time','defaultAssumptions',"[(['r','e','a','l'], true), (['f','i','n','i','t','e'], true)]","[(['r','e','a','l'], true)]",'C02 defaults')
m('Time','mergeAssumptions',"dupdate defaultAssumptions (user.getD [])","dupdate (user.getD []) defaultAssumptions",'C02 user wins')
m('Time','safeName',"replacePM (createName s)","createName s",'C01 safe names')
m('ToDistribution','LoadGcnDists',"m.toMdl.blocks [] []","m.toMdl.blocks.tail [] []",'C123 every block')
m('Validate','calibratedParams',"b.calibration.filterMap Calib.definedParam","(b.calibration.filterMap Calib.definedParam).take 1",'C18 calibrated')
m('ValidationText','isBreak',"'\\u2028', '\\u2029'","'\\u2028'",'C126 breaks')
m('ValidationText','isSpace',"isBreak c || c ∈ ['\\t', ' ',","isBreak c || c ∈ ['\\t',",'C126 blanks')
out=[]
for i,(f,d,o,n,c,cnt,nth) in enumerate(L):
    if 'skip' in c: continue
    s=open(f'/verif/lean/Verif/Model/{f}.lean').read()
    k=s.count(o)
    r=dict(id=f'u{i:03d}',file=f,old=o,new=n,claim=c,edit=f'`{o}` -> `{n}`',count=cnt,**{'def':d})
    if k!=cnt: print('BAD',r['id'],f,d,k)
    out.append(r)
json.dump(out,open('m17.json','w'),indent=1); print(len(out))
