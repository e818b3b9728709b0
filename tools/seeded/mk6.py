import json
L=[]
def m(d,old,new,claim,count=1,nth=None,file='StateSpace'):
    x=dict(id=f'f{len(L)+1:03d}',file=file,**{'def':d},old=old,new=new,claim=claim,edit=f'`{old}` -> `{new}`',count=count)
    if nth is not None: x['nth']=nth; x['edit']+=f' (occurrence {nth+1})'
    L.append(x)
m('NMat.block','else B i (j - c)','else B i j','C92 block layout')
m('NMat.block','else D (i - r) (j - c)','else D (i - r) j','C92 block layout')
m('NMat.kronEye','if i / m = j / m then','if True then','C92 cumulators of different variables do not mix')
m('NMat.kronEye','M (i % m) (j % m)','M (j % m) (i % m)','C92 shift direction')
m('Agg.cumulates','| .sum | .mean => true','| .sum => true\n  | .mean => false','C92 mean aggregates')
m('SSCfg.cumVars','p.2.cumulates && decide (p.1 ∉ dkeys c.obsEqs)','p.2.cumulates','C92 cumulators for equation series')
m('SSCfg.nCum','c.cumVars.length * (c.period - 1)','c.cumVars.length * c.period','C92 number of cumulator states')
m('SSCfg.depthStep','max ((dget d key.1).getD 0) required.toNat','required.toNat','C93 lag depth is the maximum')
m('SSCfg.depthStep','let required : Int := -key.2 + broadcast','let required : Int := -key.2','C93 lags of aggregated equations')
m('SSCfg.depths','(if c.cumulates p.1 then c.period - 1 else 0)','(if c.cumulates p.1 then c.period - 2 else 0)','C93 lag depth of aggregated equations')
m('SSCfg.startsFrom','startsFrom (off + d) ds','startsFrom (off + 1) ds','C93 chains do not overlap')
m('SSCfg.starts','startsFrom (c.vars.length + c.nCum) c.depths','startsFrom c.vars.length c.depths','C93 chains after the cumulators')
m('SSCfg.lagColumn','((-lag).toNat - 1)','(-lag).toNat','C93 column of a lag')
m('SSCfg.loadCum','(p.2 * (c.period - 1)) (c.vars.idxOf p.1) 1','(p.2 * (c.period - 1) + 1) (c.vars.idxOf p.1) 1','C92 loading of the first cumulator')
m('SSCfg.loadCum','F.setAt (p.2 * (c.period - 1)) (c.vars.idxOf p.1) 1','F.setAt (p.2 * c.period) (c.vars.idxOf p.1) 1','C92 loading of the second variable')
m('SSCfg.shiftMat','if i = j + 1 then 1 else 0','if j = i + 1 then 1 else 0','C92 lower shift')
m('SSCfg.chainStep','(start + k) (start + k - 1) 1','(start + k - 1) (start + k) 1','C93 chain direction')
m('SSCfg.chainStep','List.range\' 1 (p.2 - 1)','List.range\' 1 (p.2 - 2)','C93 chain length')
m('SSCfg.chainStep','s.1.setAt start (c.vars.idxOf p.1) 1','s.1.setAt start 0 1','C93 chain loads its own variable')
m('SSCfg.selection','fun i s => if i < c.vars.length then R i s else 0','fun i s => if i < c.vars.length then R i s else R (i - c.vars.length) s','C92 shocks do not enter the lags')
m('SSCfg.selWeight','some .mean then 1 / (c.period : ℝ)','some .sum then 1 / (c.period : ℝ)','C92 mean divides')
m('SSCfg.cumStart','c.vars.length + c.cumVars.idxOf name * (c.period - 1)','c.vars.length + c.cumVars.idxOf name','C92 start of a cumulator block')
m('SSCfg.cumStart','c.cumVars.idxOf name','c.observed.idxOf name','C92 cumulator position by cumulator list')
m('SSCfg.selectorRow','(List.range (c.period - 1)).foldl (fun Z k => Z.setAt p.2 (c.cumStart p.1 + k) (c.selWeight p.1))\n      (Z.setAt','(List.range (c.period - 2)).foldl (fun Z k => Z.setAt p.2 (c.cumStart p.1 + k) (c.selWeight p.1))\n      (Z.setAt','C92 window length')
m('SSCfg.selectorRow','else Z.setAt p.2 (c.vars.idxOf p.1) 1','else Z.setAt (c.vars.idxOf p.1) p.2 1','C92 row and column of the selector')
m('SSCfg.obsWindow','| some .sum => (c.period, 1)','| some .sum => (c.period - 1, 1)','C93 window of a sum')
m('SSCfg.obsWindow','| some .mean => (c.period, 1 / (c.period : ℝ))','| some .mean => (c.period, 1)','C93 mean divides')
m('SSCfg.obsRow','(kc.1.2 - d)) (w.2 * kc.2)','kc.1.2) (w.2 * kc.2)','C93 broadcast over the window')
m('SSCfg.obsRow','(fun Z (d : ℕ) => Z.incAt','(fun Z (d : ℕ) => Z.setAt','C93 coefficients accumulate')
m('SSCfg.obsRow','(w.2 * kc.2)','kc.2','C93 weight')
m('SSCfg.symSelectorRow','if c.cumulates p.1 then\n    (List.range (c.period - 1)).foldl (fun Z k => Z.setAt p.2 (c.cumStart p.1 + k) (c.selWeight p.1)) Z\n  else Z','Z','C92 aggregation next to equations')
m('SSCfg.symRow','| some eq => c.obsRow eq Z p','| some _ => c.symSelectorRow Z p','C93 equation rows')
m('SSCfg.interceptEntry','some .sum then (c.period : ℝ) * base','some .mean then (c.period : ℝ) * base','C93 intercept of a sum')
m('SSCfg.interceptEntry','.ok (scaled eq.intercept)','.ok eq.intercept','C93 intercept scaling')
m('SSCfg.interceptEntry','if name ∈ c.loglin then Real.log v else v','v','C92 log steady state')
m('SSCfg.interceptEntry','else .ok 0','else .ok (scaled 1)','C92 no intercept unless asked')
m('SSCfg.obsIntercept','c.ssObs = [] ∧ c.obsEqs = []','c.ssObs = []','C93 intercept with equations only')
m('SSCfg.stateNames','c.vars ++ (c.cumVars','(c.cumVars','C95 state names start with the variables')
m('aggOfStr','if s = "mean".toList then some .mean','if s = "mean".toList then some .sum','C95 stored method')
m('constantsOf','x ∉ o.priorNames','x ∈ o.priorNames','C95 auto constants')
m('constantsOf','refuse (l.filter fun x => decide (x ∉ o.inputParams)) .unknownConstant','refuse [] .unknownConstant','C95 unknown constants')
m('configure','decide (x ∉ o.stateNames) && decide (x ∉ dkeys a.obsEqs)','decide (x ∉ o.stateNames)','C95 observed by equation')
m('configure','refuse (a.measurementError.filter fun x => decide (x ∉ a.observed)) .unobservedError','refuse (a.measurementError.filter fun x => decide (x ∉ o.vars)) .unobservedError','C95 errors on observed series')
m('configure','decide (a.period < 2)','decide (a.period < 1)','C95 period')
m('configure','refuse (a.ssObs.filter fun x => decide (x ∉ o.vars)) .unknownIntercept','refuse [] .unknownIntercept','C95 intercept of unknown variables')
m('configure','refuse ((dkeys a.obsEqs).filter fun x => decide (x ∈ a.ssObs)) .overlap','refuse [] .overlap','C95 overlap')
m('configure','a.measurementError.length + o.shocks.length < a.observed.length))\n','a.measurementError.length + o.shocks.length ≤ a.observed.length))\n','C95 singularity boundary')
m('configure','errorStates := a.measurementError, constants','errorStates := a.observed, constants','C95 stored errors')
m('configure','period := a.period.toNat','period := 4','C95 stored period')
m('obsCov','(errorStates[i]?).map fun s => sigma s ^ 2','(errorStates[i]?).map fun s => sigma s','C94 variance')
m('obsCov','if i = j then ((errorStates[i]?)','if i ≤ j then ((errorStates[i]?)','C94 diagonal')
m('obsSymOk','decide (k ≤ 0)','decide (k ≤ 1)','C93 leads refused')
m('obsSymOk','&& decide (s.base ∈ vars)','','C93 unknown variables refused')
m('tildeName',"if lag = 0 then ['0'] else 'm' :: natStr lag.natAbs","if lag = 0 then ['0'] else ['m']",'C93 one dummy per lag')
m('appearing','| .ss => none','| .ss => some (s.base, 0)','C93 appearing variables')
m('tildeForm','if v.base ∈ loglin then .mul ss (.exp tilde) else .add ss tilde','if v.base ∉ loglin then .mul ss (.exp tilde) else .add ss tilde','C93 log deviations')
m('tildeForm','.mul ss (.exp tilde)','.add ss (.exp tilde)','C93 log deviations')
m('linearizeObs','g.xreplace zeros, (appearing','g, (appearing','C93 intercept at the steady state')
m('linearizeObs','(k, (g.diff (.par (tildeName k.1 k.2))).xreplace zeros)','(k, (g.diff (.par (tildeName k.1 0))).xreplace zeros)','C93 derivative in the right dummy')
m('linearizeObs','(k, (g.diff (.par (tildeName k.1 k.2))).xreplace zeros)','(k, g.diff (.par (tildeName k.1 k.2)))','C93 derivative at the steady state')
m('policyMatrices','((T.rows inv).cols inv, R.rows inv,','((T.rows inv), R.rows inv,','C91 both axes')
m('policyMatrices','((T.rows inv).cols inv, R.rows inv,','((T.rows inv).cols inv, R,','C91 rows of R')
m('policyMatrices','(A i j + (B.dot n T) i j + ((C.dot n T).dot n T) i j) ^ 2)','(A i j + (B.dot n T) i j + (C.dot n T) i j) ^ 2)','C91 residual')
m('normCheck','((C.dot n R\').dot nState Q) i j + D i j','((C.dot n R\').dot nState Q) i j - D i j','C91 stochastic norm')
m('normCheck','let P := (T.rows state).cols state','let P := T','C91 deterministic norm')
m('potentials','(addBK && !bkSatisfied) ||','(addBK && bkSatisfied) ||','C91 potentials')
m('potentials','!decide (resid < solverTol)','!decide (resid ≤ solverTol)','C91 tolerance boundary')
m('stepPower','List.range (lagStep - 1)','List.range lagStep','C97 lag step')
m('stepPowers','| 0 => 1','| 0 => T','C97 lag 0')
m('acfStates','List.range (nLags + 1)','List.range nLags','C97 number of lags',count=2,nth=0)
m('acfStates','Real.sqrt (Sigma i i) * Real.sqrt (Sigma j j)','Sigma i i * Sigma j j','C97 normalisation')
m('acfObserved','let cov0 := Z * Sigma * Zᵀ + H','let cov0 := Z * Sigma * Zᵀ','C97 measurement error')
m('acfObserved','(Z * (stepPowers T lagStep k * Sigma)) * Zᵀ','(Z * (stepPowers T lagStep k * Sigma)) * Zᵀ + H','C97 measurement error at positive lags')
m('placeRows','decide (r.1 ≤ d)','decide (r.1 < d)','C96 own date in the window')
m('placeRows','.take period)[posIdx]?','.take period)[posIdx + 1]?','C96 position')
m('placeRows','if q.1 = d then (d, some r.2) else q','if q.1 = d then (d, some r.2) else (q.1, none)','C96 earlier rows kept')
m('trimTail','(l.reverse.dropWhile fun q => q.2.isNone).reverse','l','C96 trailing rows')
m('trimTail','if l.all (fun q => q.2.isNone) then l else (l.reverse.dropWhile fun q => q.2.isNone).reverse','l.dropWhile fun q => q.2.isNone','C96 leading rows kept')
m('prepareMixed','(rows.length * period)','((rows.length - 1) * period)','C96 last window')
m('prepareMixed','if last then period - 1 else 0','if last then period else 0','C96 last position')
m('prepareMixed','.min? with','.head? with','C96 first date')
json.dump(L,open('m6.json','w'),indent=1)
print(len(L))
