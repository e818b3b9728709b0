import json
F=('Block','Build','Cache','ClosedForm','Containers','Diagnostics','Dynare','ErrorText','ExpandTime','Gensys','Grammar','Lexer','LinearSolve','Loader','PFCompile','ParserMisc','PerfectForesight','Perturbation','Plotting','PrintText','Printer','SSDriver','SSGraphs','Simplification','SimplifyBlock','Simulate','SparseRoot','StateSpace','Statistics','SteadyState','Tensor','ToSympy','Validate')
src={f:open(f'/verif/lean/Verif/Model/{f}.lean').read() for f in F}
L=[]
def m(file,d,old,new,claim,count=1,nth=None): L.append((file,d,old,new,claim,count,nth))
# Validate
m('Validate','paramDefinitions',"((dget d p.1).getD [] ++ [p.2])","[p.2]",'duplicate parameter across blocks reported',1)
m('Validate','Eqn.definedVar',"| .var n _ => some n | _ => none","| .var n (.t 0) => some n | _ => none",'variable defined at another date is defined')
m('Validate','checkUndefinedVars',"(sortedMissing (usedVars m) (definedVars m) ext)","(sortedMissing (usedVars m) ext (definedVars m))",'(probably equivalent)')
m('Validate','checkUndefinedVars',"(sortedMissing (usedVars m) (definedVars m) ext)","(sortedMissing (definedVars m) (usedVars m) ext)",'undefined variables')
m('Validate','checkUndefinedParams',"(sortedMissing (usedParams m) (calibratedParams m) ext).map .undefParam","(sortedMissing (usedParams m) (calibratedParams m) []).map .undefParam",'external parameters accepted')
m('Validate','fullValidation',"validateModel m ++ checkUndefinedVars m extV ++ checkUndefinedParams m extP","validateModel m ++ checkUndefinedVars m extP ++ checkUndefinedParams m extV",'external lists swapped')
m('Validate','fullValidation',"validateModel m ++ checkUndefinedVars m extV ++ checkUndefinedParams m extP","validateModel m ++ checkUndefinedVars m extV",'undefined parameters reported')
m('Validate','hasErrors',"es.any VErr.isError","es.all VErr.isError",'has_errors')
# ToSympy
m('ToSympy','equationToSympyMeta',"⟨.sym (.par (c :: p)), l.sub r⟩","⟨.sym (.par (c :: p)), r.sub l⟩",'sign of the calibrating equation (residual)')
m('ToSympy','equationToSympyMeta',"| _ => .ok ⟨l, r⟩","| _ => .ok ⟨r, l⟩",'sides of an equation')
m('ToSympy','toSympyArgs',"| .ok as' => .ok (a' :: as')","| .ok as' => .ok (as' ++ [a'])",'order of arguments')
# Block
m('Block','convertComponent',"| .ok (d, st') => .ok (some d, st')","| .ok (d, st') => .ok (some d, st)",'equation numbers unique')
m('Block','numberCalib',"{ eqNum := st.eqNum + 1\n        flags := dset st.flags st.eqNum (match a with","{ eqNum := st.eqNum\n        flags := dset st.flags st.eqNum (match a with",'numbers of calibration equations')
m('Block','numberCalib',"(dset acc st.eqNum s)","(dset acc (st.eqNum + 1) s)",'numbers of calibration equations')
m('Block','convertVars',"some (vs.map fun v => convVar asm v.name v.t)","some (vs.map fun v => convVar asm v.name (.t 0))",'date of controls')
m('Block','convertVars',"some (vs.map fun v => convVar asm v.name v.t)","some (vs.map fun v => convVar [] v.name v.t)",'assumptions of the controls')
m('Block','defDict',"| .sym s => dset d s e.rhs","| .sym s => dset d s e.lhs",'definition rhs')
m('Block','paramDicts',"if r.duplicates.isEmpty then .ok r else .error (.duplicateParameter r.duplicates)",".ok r",'duplicate parameters refused')
m('Block','shortName',"(splitUnderscore name).mapM List.head?","(splitUnderscore name).mapM List.getLast?",'multiplier name')
m('Block','splitUnderscore',"if c = '_' then [] :: w :: ws","if c = '_' then w :: ws",'multiplier name')
m('Block','lagrangianSubs',"lagrangianSubs es (dupdate acc d)","lagrangianSubs es (dupdate d acc)",'definitions: last wins')
m('Block','summands',"| .add a b => a.summands ++ b.summands\n","| .add a b => a.summands ++ [b]\n",'summands')
m('Block','SExpr.setDate',"| .sym (.tv y) => .sym (.tv { y with idx := i })","| .sym (.tv y) => .sym (.tv { y with idx := i.succ })",'date') if False else None
m('Block','SExpr.setDate',"| .sym (.tv y) => .sym (.tv { y with idx := i })","| .sym (.tv y) => .sym (.tv y)",'date')
m('Block','dvals',"(d.getD []).map Prod.snd","((d.getD []).map Prod.snd).reverse",'order of equations')
m('Block','SExpr.isNumber',"e.syms.isEmpty","e.tsyms.isEmpty",'parameter with a parameter rhs is deterministic')
# Build
m('Build','hyperNames',"p.2.names.map Prod.snd","p.2.names.map Prod.fst",'hyper-parameters')
m('Build','splitOutHyper',"(hyperStep param) (param, [])","(hyperStep []) (param, [])",'hyper-parameters moved')
m('Build','ssRelations',".sub (.sym p.1) p.2",".sub p.2 (.sym p.1)",'sign of ss relations')
m('Build','ssRelations',".sub (.sym p.1) p.2",".add (.sym p.1) p.2",'ss relations')
m('Build','distParamNames',"| .inl _ => none | .inr n => some n","| .inl _ => none | .inr _ => some d.param",'names of hyper parameters')
m('Build','symKeys',"(.par p.1, p.2)","(.par (p.1 ++ p.1), p.2)",'keys')
# Cache
m('Cache','modelStep',"| .linearize fl => let r := linearizeFunction vars build compile s fl; (.linearize r.1, r.2)","| .linearize fl => let r := linearizeFunction vars build compile s fl; (.linearize r.1, s)",'state kept after linearize')
m('Cache','modelStep',"| .equations b => let r := equationTensors buildEqs s b","| .equations b => let r := equationTensors buildEqs s true",'simplify flag')
# ClosedForm
m('ClosedForm','splitResidual',"| some y => some (y, a)","| some y => some (y, b)",'output and bundle')
m('ClosedForm','matchCD',"(matchCDResidual R idx (e.rhs.sub e.lhs)).orElse fun _ => matchCDResidual R idx (e.lhs.sub e.rhs)","(matchCDResidual R idx (e.rhs.sub e.lhs)).orElse fun _ => matchCDResidual R idx (e.lhs.add e.rhs)",'CD detection of the other side')
m('ClosedForm','matchCD',"(matchCDResidual R idx (e.rhs.sub e.lhs)).orElse fun _ => matchCDResidual R idx (e.lhs.sub e.rhs)","matchCDResidual R idx (e.rhs.sub e.lhs)",'CD detection of the other side')
m('ClosedForm','cesOuterLoop',"match A with\n    | some _ => none\n    | none => cesOuterLoop fs (some s) p","cesOuterLoop fs (some s) p",'two productivities refused')
m('ClosedForm','cesOuterLoop',"| .add x y, none => cesOuterLoop fs A (some (.add x y, e))\n    | _, _ => none","| .add x y, _ => cesOuterLoop fs A (some (.add x y, e))\n    | _, _ => none",'two aggregates refused')
m('ClosedForm','cesTermLoop',"cesTermLoop R s fs x (sh ++ [.pow b e])","cesTermLoop R s fs x sh",'share lost')
m('ClosedForm','cesTermLoop',"| f :: fs, x, sh => cesTermLoop R s fs x (sh ++ [f])","| _ :: fs, x, sh => cesTermLoop R s fs x sh",'share lost')
m('ClosedForm','cesTermLoop',"if R.isZero (e.sub s) then","if R.isZero (e.add s) then",'exponent of the input')
m('ClosedForm','mulAll',"| f :: fs => .mul f (mulAll fs)","| f :: fs => .add f (mulAll fs)",'share product')
m('ClosedForm','matchCESResidual',"if (Y :: (A.toList ++ ins.map Prod.fst)).Nodup then some","if (A.toList ++ ins.map Prod.fst).Nodup then some",'distinct symbols')
m('ClosedForm','dispatchKind',"if B.objective.isNone then .generic\n  else","",'no objective: generic')
m('ClosedForm','dispatchKind',"| some m => .ces m\n    | none =>","| some _ => .generic\n    | none =>",'CES dispatched')
m('ClosedForm','closedMultiplier',"| some none => .error .runtimeError","| some none => .error .keyError",'missing multiplier name')
# Containers
m('Containers','rsplit',"if c = '_' then (some [], last)","if c = '_' then (none, last)",'name split')
m('Containers','safeStringToSympy',".par s ((dget asm s).getD [])",".par s []",'assumptions of parameters')
m('Containers','safeStringToSympy',"asm := (dget asm name).getD []","asm := (dget asm s).getD []",'assumptions of variables')
m('Containers','safeStringToSympy',"| none => .par s","| none => .par last",'parameter with underscore')
m('Containers','sympyKeysToStrings',"dupdate [] (d.map fun p => (.str (symbolToString p.1), p.2))","d.map fun p => (.str (symbolToString p.1), p.2)",'clashing keys')
m('Containers','stringKeysToSympy',"dupdate [] (d.map fun p => (keyToSympy m p.1, p.2))","(dupdate [] (d.map fun p => (keyToSympy m p.1, p.2))).reverse",'order kept')
m('Containers','Meta.update',"asm := dupdate m.asm m'.asm","asm := m.asm",'metadata merged')
m('Containers','SDict.copy',"| p :: _ => if d.items.any (fun q => q.1.isSym ≠ p.1.isSym) then .error .keyError else .ok d","| _ :: _ => .ok d",'mixed keys')
m('Containers','SDict.updatePlain',"dupdate d.items o","dupdate o d.items",'update')
m('Containers','stepKeys',"if d.isSympy then return (r, h) else SDict.toStrInplace h r","return (r, h)",'string dictionaries stay string')
m('Containers','toSympyInplace',"let (s, h) ← SDict.toSympy h d\n  return SDict.cleanUpdate h d s","let (s, h) ← SDict.toStr h d\n  return SDict.cleanUpdate h d s",'to_sympy')
# Diagnostics
m('Diagnostics','truncTol',"if |M i j| < tol then 0 else M i j","if tol < |M i j| then 0 else M i j",'truncation')
m('Diagnostics','IsState',"tol ≤ |T i j|","tol < |T i j|",'boundary of the state rule')
m('Diagnostics','bkTol',"1 / 100000000","1 / 1000",'default tol')
m('Diagnostics','startsUnderscore',"| '_' :: _ => true","| '_' :: '_' :: _ => true",'renamed columns')
m('Diagnostics','indexName',"\"Index\".toList","\"index\".toList",'renamed columns')
m('Diagnostics','runSerial',"us.mapM check","us.reverse.mapM check",'order of draws')
# Dynare
m('Dynare','pAddLvl',"def pAddLvl : Nat := 40","def pAddLvl : Nat := 50",'precedences')
m('Dynare','pPowLvl',"def pPowLvl : Nat := 60","def pPowLvl : Nat := 50",'precedences')
m('Dynare','litOf',"| .flt v => some v\n","",'float exponents')
m('Dynare','isLongMul',"fs.length != 1","fs.length == 1",'parentheses of the denominator')
m('Dynare','isSum',"| .add _ => true","| .add _ => false",'nested sums')
m('Dynare','toks',"powToks (precOf b) (toks b) (litOf e) (precOf e) (toks e)","powToks (precOf e) (toks b) (litOf e) (precOf b) (toks e)",'powers')
m('Dynare','mulToks',"let r := factors pAddLvl fs\n      .op .sub :: quotient ([.num (-c)] :: r.1) r.2","let r := factors pAddLvl fs\n      quotient ([.num (-c)] :: r.1) r.2",'sign')
m('Dynare','mulToks',"let r := factors pMulLvl fs\n      quotient ([.num c] :: r.1) r.2","let r := factors pMulLvl fs\n      quotient r.1 r.2",'float coefficient')
m('Dynare','mulToks',"let k := if c = -1 then ([], []) else numFactor pAddLvl (-c)","let k := numFactor pAddLvl c",'sign of coefficient')
m('Dynare','ssName',"s.base ++ ssSuffix","s.base",'ss names')
m('Dynare','tsyms',"| .pow b e => tsyms b ++ tsyms e","| .pow b _ => tsyms b",'symbols')
# ErrorText
m('ErrorText','rstrip',"((s.reverse).dropWhile isWs).reverse","s.dropWhile isWs",'rstrip')
m('ErrorText','separator',"\"||GCN||\"","\"||\"",'separator')
m('ErrorText','helpRows',"  | [s] => [\"   = help: Did you mean '\".toList ++ s ++ \"'?\".toList]\n","",'single suggestion')
m('ErrorText','Cls.args',"| .semantic => [\"message\", \"symbol_name\", \"location\"","| .semantic => [\"message\", \"location\", \"symbol_name\"",'arguments')
m('ErrorText','rebuildArgs',"\"annotation\", \"notes\"]","\"notes\"]",'rebuild',nth=None,count=None)
# ExpandTime
m('ExpandTime','makeLagName',"x ++ ['_','_','l','a','g'] ++ natStr level","x ++ ['_','_','l','a','g']",'names of chain distinct')
m('ExpandTime','makeLeadName',"['_','_','l','e','a','d']","['_','_','l','a','g']",'lag and lead names distinct')
m('ExpandTime','collectExpr',"| .bin _ l r => collectExpr (collectExpr d l) r","| .bin _ l _ => collectExpr d l",'collect')
m('ExpandTime','collectExpr',"| .expect e => collectExpr d e","| .expect _ => d",'collect')
m('ExpandTime','collectFromEquations',"collectExpr (collectExpr d e.lhs) e.rhs","collectExpr d e.rhs",'collect lhs')
m('ExpandTime','replaceExpr',"| .neg e => .neg (replaceExpr d e)","| .neg e => replaceExpr d e",'replace')
m('ExpandTime','replaceExpr',"| .expect e => .expect (replaceExpr d e)","| .expect e => replaceExpr d e",'replace under expectations')
m('ExpandTime','createLagChain',"List.range' 1 depth","List.range' 1 (depth - 1)",'chain length')
m('ExpandTime','leadLink',"if level = 1 then x else makeLeadName x (level - 1)","if level = 1 then x else makeLeadName x level",'lead chain')
m('ExpandTime','leadLink',"(.t 1)) }","(.t (-1))) }",'lead chain')
# Gensys
m('Gensys','gensysPerform',"decide (eu.1 = 1 ∧ eu.2.1 = 1)","decide (eu.1 = 1)",'success flag')
m('Gensys','gensysNumba',"(r.G1.submatrix Sum.inl Sum.inl, decide (r.eu.1 = 1 ∧ r.eu.2.1 = 1))","(r.G1.submatrix Sum.inl Sum.inl, decide (r.eu.1 = 1 ∨ r.eu.2.1 = 1))",'success flag')
m('Gensys','Lead',"tol < ∑ i, |C i j|","tol < ∑ i, |C j i|",'lead variables')
# Grammar
m('Grammar','pNLoop',"pNLoop f (.snoc c o' a) r","pNLoop f c r",'operands lost')
m('Grammar','pWrapArgs',"| .rpar :: r => some ([], r)","| .rpar :: r => some ([], .rpar :: r)",'wrapper arguments')
m('Grammar','pWords',"| .id n :: ts => (n :: (pWords ts).1, (pWords ts).2)","| .id n :: ts => ([n], ts)",'option of several words')
m('Grammar','pOption',"optVal v), r)","optVal k), r)",'option value')
m('Grammar','pFile',"{ ss.foldl GFile.addSpecial {} with blocks := bs }","{ ss.foldl GFile.addSpecial {} with blocks := bs.reverse }",'block order')
m('Grammar','evalArgs',").map dictOf",").map id",'duplicate keyword')
# Lexer
m('Lexer','lexNumber',"some (m * tenPow e.1, e.2)","some (m, e.2)",'exponent')
m('Lexer','lexNumber',"if numEnd e.2 then some","if true then some",'number end')
m('Lexer','takeRun',"else ([], c :: cs)","else ([], cs)",'runs')
# LinearSolve
m('LinearSolve','stabilize',"x + jitter • (1 : Matrix ι ι ℝ)","x - jitter • (1 : Matrix ι ι ℝ)",'jitter sign')
m('LinearSolve','norm1',"∑ i, |M i j|","∑ i, M i j",'norm')
m('LinearSolve','scanCycleReduction',"(-Y, k)","(Y, k)",'sign')
m('LinearSolve','scanCycleReduction',"1000000000 0 with","1000000000 1 with",'step count')
m('LinearSolve','solveBackwardDirect',"solveBackwardShockMatrix B D with","solveBackwardShockMatrix A D with",'shock matrix')
m('LinearSolve','solveWithCR',".ok (some (p.T, p.R))",".ok (if p.T = 0 then none else some (p.T, p.R))",'result') if False else None
# Loader
m('Loader','isSSName',"['S','S'], ","",'SS block name')
m('Loader','sortToString',"sortBy (fun a b => strLe a.1 b.1) (dupdate","sortBy (fun a b => strLe b.1 a.1) (dupdate",'parameter order')
m('Loader','sortByName',"xs.eraseDups","xs",'duplicates')
m('Loader','TSym.now',"{ x with idx := .t 0 }","x",'date')
m('Loader','flattenOrEmpty',"(flattenSubs (p :: d)).join","some (p :: d)",'flatten')
m('Loader','ssEquations',".ok (ds, is)",".ok (is, ds)",'definitions and identities')
m('Loader','ssSymbols',"| .tv s => some (s, p.2)","| .tv s => some (toSS s, p.2)",'(maybe) symbols')
m('Loader','blockShockDists',"dset sd i.param s","dset sd i.name s",'keys') if 'i.name' in src['Loader'] else None
m('Loader','blockShockDists',"| some s => dset sd i.param s | none => sd","| some s => if (dget sd i.param).isSome then sd else dset sd i.param s | none => sd",'last distribution wins')
# ParserMisc
m('ParserMisc','NTree.toFloat',"| _ => .error .typeError","| _ => .ok 0",'nested lists',nth=0,count=None)
m('ParserMisc','foldOps',"| [_], _ => .error .indexError","| [_], r => .ok r",'dangling operator')
m('ParserMisc','evalNumber',"| .list [x] => evalNumber x","| .list [x] => .error .indexError",'single list')
m('ParserMisc','splitChain',"if p = o then ((f, []), (splitChain o t rest).1 :: (splitChain o t rest).2)","if p = o then ((t, []), (splitChain o f rest).1 :: (splitChain o f rest).2)",'operand order')
m('ParserMisc','buildLevels',"[.str o.tok, buildLevels os p.1 p.2]","[.str NOp.add.tok, buildLevels os p.1 p.2]",'operator')
m('ParserMisc','parserDefaults',"true)]","false)]",'defaults',nth=0,count=None)
# PerfectForesight
m('PerfectForesight','cooAt',"e.1 = i ∧ e.2.1 = j","e.1 = j ∧ e.2.1 = i",'transposed')
m('PerfectForesight','paramMatrix',"if names.all fun n => (dget defaults n).isSome then","if true then",'missing parameter')
m('PerfectForesight','nonzeroIn',"J r (lo + c) = 0","J r c = 0",'sparsity pattern')
m('PerfectForesight','removeSuffixSS',"k.take (k.length - 3)","k.take (k.length - 2)",'suffix')
m('PerfectForesight','normalizeConditions',"dupdate [] (d.map fun p => (removeSuffixSS p.1, p.2))","dupdate [] (d.map fun p => (p.1, p.2))",'suffix')
m('PerfectForesight','setCondition',"y.set (names.idxOf p.1) p.2","y.set 0 p.2",'condition')
m('PerfectForesight','stackedSystem',"(residuals, assembleEntries jacobians nVars nEq T)","(residuals, assembleEntries jacobians nVars nEq (T - 1))",'last period')
m('PerfectForesight','stackedSystem',"| some p => p.2.2 r c | none => 0","| some p => p.2.2 c r | none => 0",'transposed jacobian')
m('PerfectForesight','evaluatePeriods',"(t, f (periodArgs y yInit yTerm x params nVars T t))","(t, f (periodArgs y yTerm yInit x params nVars T t))",'init and terminal')
# PFCompile
m('PFCompile','PFParts.residual',"p.eqs[r]?","p.eqs[r + 1]?",'residual row')
m('PFCompile','PFCompiled.jacobian',"c.jac[r]?","c.jac[k]?",'jacobian row')
# Perturbation
m('Perturbation','incidence',"(incStep ie.2 ie.1)","(incStep (ie.2 + 1) ie.1)",'incidence row')
m('Perturbation','symJacobian',"eqs.map fun e => wrt.map fun v => jacEntry shocks e v","wrt.map fun v => eqs.map fun e => jacEntry shocks e v",'transposed')
m('Perturbation','takeRows',"M.getD i []","M.getD (i + 1) []",'rows')
m('Perturbation','takeCols',"row.getD j 0","row.getD (j + 1) 0",'cols')
m('Perturbation','TSym.assumed',"(dget v.asm key).getD false","(dget v.asm key).isSome",'assumption set to false')
m('Perturbation','whereIdx',"(List.range n).filter mask","(List.range (n - 1)).filter mask",'last')
# Plotting
m('Plotting','cornerVars',"| some [] => available","| some [] => []",'empty selection')
m('Plotting','F.below',"| .num x => x < b | _ => False","| .num x => x ≤ b | _ => False",'boundary')
m('Plotting','plotSummary',"summaryBars draws summaryOrder 0","summaryBars draws summaryOrder 1",'bars from 0')
# PrintText
m('PrintText','given',"| some (c :: cs) => some (c :: cs)","| some cs => some cs",'empty text') 
m('PrintText','varText',"v.name ++ indexText v.t","v.name",'index')
# Printer
m('Printer','pCalibrating',"| .arrow :: .id n :: ts => (some n, ts)","| .arrow :: .id _ :: ts => (none, ts)",'calibrating parameter')
m('Printer','pEqn',"lhs := l, rhs := rhs, lagrange","lhs := rhs, rhs := l, lagrange",'sides')
m('Printer','pTags',"(t :: a, r)","(a ++ [t], r)",'tag order')
m('Printer','tryreduceToks',"| n :: ns => .id n :: .comma :: tryreduceToks ns","| n :: ns => .id n :: tryreduceToks ns",'commas')
m('Printer','pPow',"some (.bin .pow a b, r')","some (.bin .pow b a, r')",'power')
# SSDriver
m('SSDriver','Asm.has',"dget a name = some true","(dget a name).isSome",'assumption set to false')
m('SSDriver','sigmoidExpr',"(.exp (.neg y))","(.exp y)",'sigmoid')
m('SSDriver','initialX0',"then -(8 / 10) else 8 / 10","then 8 / 10 else 8 / 10",'initial value negative')
m('SSDriver','boxMethods',"\"L-BFGS-B\".toList, ","",'bounded methods')
m('SSDriver','evalResid',"if eqs.isEmpty then .error .emptyResidual\n  else if","if",'no equations')
m('SSDriver','toNames',"dupdate [] (d.map","(d.map",'names') if False else None
m('SSDriver','asmOf',"| .tv s => s.asm","| .tv s => parAsm s.base",'assumptions')
m('SSDriver','toConstrained',"(backwardExpr t (.sym (.par []))).eval fun _ => v","(backwardExpr t (.sym (.par []))).eval fun _ => -v",'constrained')
m('SSDriver','SSModel.parameters',"| .error n => .error (.unknownParams n)","| .error n => .ok [] -- n",'unknown') if False else None
# SSGraphs
m('SSGraphs','eval',"| .inv a => (a.eval p env)⁻¹","| .inv a => a.eval p env",'inverse')
m('SSGraphs','syms',"| .mul a b => a.syms ++ b.syms","| .mul a _ => a.syms",'symbols')
m('SSGraphs','callMatrix',"g.flatten.flatMap TG.syms","[]",'inputs',nth=None,count=None)
# Simplification
m('Simplification','mentions',"(timeCombos v).any","(timeCombos v).all",'mentions')
m('Simplification','blockSubDict',"dvals b.identities ++ dvals b.objective ++ dvals b.constraints","dvals b.identities ++ dvals b.constraints",'objective definitions')
m('Simplification','naturalLt',"partsLt (splitDigits a) (splitDigits b)","partsLt (splitDigits b) (splitDigits a)",'natural order')
# Simulate
m('Simulate','validateIrfArgs',"(\"shock_cov\".toList, a.cov.isSome), (","(",'cov argument')
m('Simulate','isDiagonal',"i ≠ j → |M i j| ≤ 1 / 100000000","i < j → |M i j| ≤ 1 / 100000000",'diagonal')
m('Simulate','assignRow',"else if v.length = 1 then .ok fun _ => v.getD 0 0\n","",'broadcast of one number')
m('Simulate','assignPeriods',"List.replicate len x","List.replicate 1 x",'broadcast')
m('Simulate','mapExcept',"| .ok bs => .ok (b :: bs)","| .ok bs => .ok (bs ++ [b])",'order')
# SparseRoot
m('SparseRoot','maxAbs',"max a |x|","max a x",'norm')
m('SparseRoot','checkStep',"maxAbs dx < tol * (1 + maxAbs xNew)","maxAbs dx < tol * (1 + maxAbs dx)",'relative step')
m('SparseRoot','rootFind',"if maxAbs s.res < fTol then (S.reset o, { final := s, success := true","if maxAbs s.res < fTol then (S.reset o, { final := s, success := false",'already solved')
m('SparseRoot','rootFind',"rootLoop S f fTol xTol maxiter (S.reset o)","rootLoop S f fTol xTol maxiter o",'reset before each solve')
m('SparseRoot','solveOrGradient',"(-(Jᵀ *ᵥ res))","(Jᵀ *ᵥ res)",'fallback direction')
m('SparseRoot','chordDirection',"if c.calls % every = 0 then s.jac else","if c.calls % every = 1 then s.jac else",'chord')
m('SparseRoot','chordDirection',"calls := c.calls + 1","calls := c.calls",'chord')
m('SparseRoot','trialMerit',"| none => (f x).1 | some g => g x","| none => (f x).1 | some _ => (f x).1",'merit function')
m('SparseRoot','pushHistory',"(phi :: h).take memory","(phi :: h).take (memory + 1)",'memory')
m('SparseRoot','maxHistory',"h.foldl max phi","h.foldl max 0",'history max')
m('SparseRoot','predicted',"-(g ⬝ᵥ p + 0.5","-(g ⬝ᵥ p + 1.5",'predicted reduction')
m('SparseRoot','steihaugWith',"steihaugLoop bstep H g delta (2 * n) 0 g (-g)","steihaugLoop bstep H g delta (2 * n) 0 g g",'direction')
m('SparseRoot','doglegSolver',"doglegStep lin s.jac s.res (s.jacᵀ *ᵥ s.res)","doglegStep lin s.jac (-s.res) (s.jacᵀ *ᵥ s.res)",'dogleg')
m('SparseRoot','doglegSolver',"reset := fun _ => cfg.delta0","reset := fun d => d",'radius reset',nth=0,count=None)
m('SparseRoot','lmSolver',"reset := fun _ => cfg.lam0","reset := fun d => d",'damping reset')
m('SparseRoot','lmPredicted',"lam * (lmScale J ⬝ᵥ (p * p))","lam * (lmScale J ⬝ᵥ p)",'predicted')
# StateSpace
m('StateSpace','nObsLag',"(c.depths.map Prod.snd).sum","c.depths.length",'number of lags')
m('StateSpace','augTransition',"(NMat.kronEye (c.period - 1) shiftMat)","(NMat.kronEye c.period shiftMat)",'cumulator block')
m('StateSpace','obsColumn',"if lag = 0 then c.vars.idxOf v else","if lag = 1 then c.vars.idxOf v else",'column')
m('StateSpace','validSolvers',", \"backward_direct\".toList]","]",'solver')
m('StateSpace','stateCov',"sigma s ^ 2","sigma s",'variance')
m('StateSpace','paramNames',"decide (x ∉ r.constants)","true",'constants dropped')
m('StateSpace','paramNames',"if fullCov then [\"state_cov\".toList] else","if fullCov then [] else",'state_cov')
m('StateSpace','checkObsEq',"e.syms.all (obsSymOk vars params)","e.syms.any (obsSymOk vars params)",'unknown symbol refused')
m('StateSpace','forwardDict',"tildeForm loglin v k.2","tildeForm loglin v 0",'date')
m('StateSpace','obsEqAt',"intercept := l.1.eval env","intercept := 0",'intercept')
m('StateSpace','design',"if c.obsEqs = [] then c.observed","if c.obsEqs ≠ [] then c.observed",'design')
# Statistics
m('Statistics','indexOf?',"names i = x","names i ≠ x",'index')
m('Statistics','dimSizeOk',"n = nVars || n = nShocks","n = nVars && n = nShocks",'dims')
# SteadyState
m('SteadyState','knownSSSymbolic',"(vars.map safeToSS).zip (out.map Prod.snd)","vars.zip (out.map Prod.snd)",'ss keys')
m('SteadyState','ssIn',"filter fun s => s ∈ ssv","filter fun s => s ∉ ssv",'unknowns')
m('SteadyState','propagateSS',"(maxIter : Nat := 100)","(maxIter : Nat := 1)",'default iterations')
m('SteadyState','safeToSS',"| .tv s => .tv (toSS s)","| .tv s => .tv s",'ss')
# Tensor
m('Tensor','joinVal',"(idx.set a (idx.getD a 0 - x.shape.getD a 0))","(idx.set a (idx.getD a 0))",'join')
m('Tensor','bdVal',"else if j < c then 0 else","else",'off-diagonal zero')
m('Tensor','axisOf',"if z < 0 then z + n else z","z",'negative axis')
m('Tensor','swapLast',"if l.length < 2 then l else","if l.length < 3 then l else",'matrix transpose')
out=[]
seen=set()
for (f,d,o,n,c,count,nth) in L:
    s=src[f]; k=s.count(o)
    if k==0: print('MISSING',f,d,o); continue
    pos=None
    if k>1:
        # choose occurrence inside def d
        import re
        mm=re.search(r'def (?:\w+\.)?'+re.escape(d)+r'\b',s)
        a=mm.start() if mm else 0
        i=s.find(o,a); idx=s[:i].count(o) if i>=0 else 0
        print('MULTI',k,f,d,'->',idx)
        pos=idx
    e=dict(id=f'q{len(out):03d}',file=f,old=o,new=n,claim=c,edit=f'`{o}` -> `{n}`',count=k); e['def']=d
    if pos is not None: e['nth']=pos
    out.append(e)
json.dump(out,open('m15.json','w'),indent=0)
print(len(out))
