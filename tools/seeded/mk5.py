import json
M=[]
F='SSDriver'
def a(d,old,new,claim,count=1):
    M.append(dict(id='e%03d'%(len(M)+1),file=F,**{'def':d},old=old,new=new,claim=claim,edit='`%s` -> `%s`'%(old,new),count=count))
a('inferBounds','some (1 / 100000000) else none, if','some (-1 / 100000000) else none, if','C79 positive variables stay positive')
a('inferBounds','some (-1 / 100000000) else none)','some (1 / 100000000) else none)','C79 negative variables stay negative')
a('inferBounds','if a.has negativeStr then some (-1','if a.has positiveStr then some (-1','C79 assumed bounds')
a('inferTransform','| some (some lo, hi) => some (.interval (some lo) hi)','| some (some lo, hi) => some (.interval (some lo) none)','C79 upper user bound')
a('inferTransform','| some (none, some hi) => some (.interval none (some hi))','| some (none, some hi) => some (.interval (some hi) none)','C79 upper-only bound')
a('inferTransform','else if a.has positiveStr then some .log','else if a.has positiveStr then none','C79 declared positivity (transform)')
a('backwardExpr','| some (.interval (some lo) none) => .add (.exp y) (.num lo)','| some (.interval (some lo) none) => .sub (.exp y) (.num lo)','C79 lower bound transform')
a('backwardExpr','=> .sub (.num hi) (.exp y)','=> .add (.num hi) (.exp y)','C79 upper bound transform')
a('backwardExpr','.add (.mul (sigmoidExpr y) (.num hi)) (.mul (.sub (.num 1) (sigmoidExpr y)) (.num lo))','.add (.mul (sigmoidExpr y) (.num hi)) (.num lo)','C79 interval transform')
a('backwardExpr','| some .log => .exp y','| some .log => .log y','C79 bijective')
a('forwardNum','if (lo : ℝ) < x then some (Real.log (x - lo)) else none','if (lo : ℝ) < x then some (Real.log x) else none','C79 forward transform')
a('forwardNum','if x < hi then some (Real.log (hi - x)) else none','if x < hi then some (Real.log (x - hi)) else none','C79 forward transform (equivalent over Real.log, which takes absolute values)')
a('transformEquations','| some t => backwardExpr t (.sym s)','| some t => .sym s','C79 same system')
a('boundDict','dupdate (dupdate [] (vars.map fun v => (symName v, inferBounds (asmOf parAsm v)))) user','dupdate user (vars.map fun v => (symName v, inferBounds (asmOf parAsm v)))','C79 user bounds take precedence')
a('boundPlan','| none => .transformed "trust-ncg".toList (vars.map fun v => inferTransform (asmOf parAsm v) (some ((dget d (symName v)).getD (none, none))))','| none => .transformed "trust-ncg".toList (vars.map fun v => none)','C79 default method respects bounds')
a('minimizePoint','| .transformed _ ts => toConstrained ts optimum','| .transformed _ ts => optimum','C79 the point is mapped back')
a('names','dkeys m.calib ++ (dkeys m.params.det)','(dkeys m.params.det)','C80 calibrated parameters are found')
a('get','let name := removeSuffixSS name','let name := name','C80 x_ss finds the steady state')
a('get','| .tv v => .ok (.tv (toSS v))','| .tv v => .ok (.tv v)','C80 x_ss is the steady state')
a('get','| c :: _ => .error (.notFound c)','| c :: _ => .error (.notFound name)','C80 suggestion exists')
a('validateFixed','normed.filter fun x => 1 < normed.count x','normed.filter fun x => 2 < normed.count x','C81 duplicates refused')
a('validateFixed','let unknown := normed.filter fun x => x ∉ m.vars.map TSym.base','let unknown := given.filter fun x => x ∉ m.vars.map TSym.base','C81 names with _ss accepted')
a('validateFixed','let normed := given.map removeSuffixSS','let normed := given','C81 names with _ss accepted')
a('kwMerge','.error .duplicateKeyword else .ok (a ++ b)','.error .duplicateKeyword else .ok a','C83 parameters are passed')
a('allClose','decide (|v| ≤ 1 / 100000000) | none => false','decide (|v| ≤ 1 / 100000000) | none => true','C83 NaN is no success')
a('allClose','decide (|v| ≤ 1 / 100000000)','decide (v ≤ 1 / 100000000)','C83 absolute value')
a('isBad','decide (1 / 100000000 < |v|)','decide (1 / 100000000 < v)','C84 absolute value')
a('ssVars','(m.vars.map fun v => Sym.tv (toSS v)) ++ dkeys m.calib','(m.vars.map fun v => Sym.tv (toSS v))','C82 calibrated parameters are solved for')
a('known','nv p.2 fun s => (dget pd (symName s)).getD none)))','nv p.2 fun s => none)))','C82 formulas at the parameters of the call')
a('linearResult','some 0)), success := true','some 1)), success := true','C82 linear models are at zero')
a('linearResult','success := true','success := false','C82 linear models succeed')
a('tryAnalytic','if ss.length ≠ m.vars.length then .ok none','if ss.length = 0 then .ok none','C82 incomplete analytic steady states are solved numerically')
a('tryAnalytic','return some { values := toNames ss, success := allClose r }','return some { values := toNames ss, success := true }','C83 analytic success is checked')
a('fixedSyms','return (safeToSS s, v) :: r','return (s, v) :: r','C82 fixed values are steady-state values')
a('providedValues','dupdate (known.getD []) (fixed.map fun p => (p.1, some (p.2 : ℝ)))','dupdate (fixed.map fun p => (p.1, some (p.2 : ℝ))) (known.getD [])','C82 fixed values take precedence')
a('collect','return (s, v) :: r','return r','C82 every variable')
a('allResolved','  let r ← evalResid nv m.equations env\n  let out','  let r ← evalResid nv m.ssEqs env\n  let out','C83 calibrating equations are checked')
a('allResolved','return { values := toNames out, success := allClose r }','return { values := toNames out, success := true }','C83 resolved success is checked')
a('numericSuccess','decide ((r.map fun x => |x|).foldr max 0 < tol)','true','C83 maximal residual checked (implied by the sum of squares only for tol>=1)')
a('numericSuccess','| _, _ => false','| _, _ => true','C83 NaN is no success')
a('postprocess','dupdate (dupdate [] optimum) (providedValues known fixed)','dupdate (dupdate [] (providedValues known fixed)) optimum','C82 (equivalent when the unknowns are disjoint from the provided values)')
a('postprocess','(p.1, res.1 p.2)','(p.1, res.1 (p.2 + 1))','C82 unknown i gets entry i')
a('postprocess','success := res.2 ||','success := true ||','C83 success is checked')
a('validateEquations','if bad.isEmpty then .ok () else','if !bad.isEmpty then .ok () else','C84 bad equations refused')
a('validateEquations','fun s => symName s ∉ dkeys kw','fun s => symName s ∈ dkeys kw','C84 determined equations')
a('validateEquations','.error (.invalidFixed (bad.map Prod.fst))','.error (.invalidFixed [])','C84 reported equations')
a('validateEquations','p.1.syms.all fun s => s ∉ nonFixed','p.1.syms.any fun s => s ∉ nonFixed','C84 only determined equations are checked')
a('system','m.ssVars.filter fun s => symName s ∉ names','m.ssVars','C82 only unknowns are solved for')
a('system','dupdate m.ssSol (fixed.map','dupdate [] (fixed.map','C82 known values are used')
a('solveNumerically','if eqs.length ≠ toSolve.length then','if eqs.length < toSolve.length then','C82 root needs a square system')
a('solveNumerically','| .analytic | .minimize => m.postprocess nv minimize','| .analytic | .minimize => m.postprocess nv root','C82 the method asked for is used')
a('solveNumerically','| .other => .error .notImplemented','| .other => m.postprocess nv minimize tol eqs toSolve pd known fixed','C82 unknown methods are refused')
a('steadyState','m.validateFixed (dkeys f)\n','','C81 fixed values are validated')
a('steadyState','m.validateEquations nv fs pd\n      m.solve','m.solve','C84 fixed values are checked')
a('steadyState','let pd ← m.parameters updates','let pd ← m.parameters []','C82 parameter updates are used')
a('packEval','if needSlice then activeIndices.map x else','if false then activeIndices.map x else','C85 inactive entries are sliced away')
a('packEval','if p.1 ∈ inputs then some p.2 else none','if p.1 ∈ inputs then some (p.2 + 1) else none','C85 indices')
a('packEval','inputs.filter fun s => s ∉ active','inputs.filter fun s => s ∈ active','C85 parameters by name')
json.dump(M,open('m5.json','w'),indent=1)
src=open('/verif/lean/Verif/Model/SSDriver.lean').read()
for m in M:
    if src.count(m['old'])!=m['count']: print(m['id'],m['def'],src.count(m['old']))
