[
 {
  "id": "f001",
  "file": "StateSpace",
  "def": "NMat.block",
  "old": "else B i (j - c)",
  "new": "else B i j",
  "claim": "C92 block layout",
  "edit": "`else B i (j - c)` -> `else B i j`",
  "count": 1
 },
 {
  "id": "f002",
  "file": "StateSpace",
  "def": "NMat.block",
  "old": "else D (i - r) (j - c)",
  "new": "else D (i - r) j",
  "claim": "C92 block layout",
  "edit": "`else D (i - r) (j - c)` -> `else D (i - r) j`",
  "count": 1
 },
 {
  "id": "f003",
  "file": "StateSpace",
  "def": "NMat.kronEye",
  "old": "if i / m = j / m then",
  "new": "if True then",
  "claim": "C92 cumulators of different variables do not mix",
  "edit": "`if i / m = j / m then` -> `if True then`",
  "count": 1
 },
 {
  "id": "f004",
  "file": "StateSpace",
  "def": "NMat.kronEye",
  "old": "M (i % m) (j % m)",
  "new": "M (j % m) (i % m)",
  "claim": "C92 shift direction",
  "edit": "`M (i % m) (j % m)` -> `M (j % m) (i % m)`",
  "count": 1
 },
 {
  "id": "f005",
  "file": "StateSpace",
  "def": "Agg.cumulates",
  "old": "| .sum | .mean => true",
  "new": "| .sum => true\n  | .mean => false",
  "claim": "C92 mean aggregates",
  "edit": "`| .sum | .mean => true` -> `| .sum => true\n  | .mean => false`",
  "count": 1
 },
 {
  "id": "f006",
  "file": "StateSpace",
  "def": "SSCfg.cumVars",
  "old": "p.2.cumulates && decide (p.1 \u2209 dkeys c.obsEqs)",
  "new": "p.2.cumulates",
  "claim": "C92 cumulators for equation series",
  "edit": "`p.2.cumulates && decide (p.1 \u2209 dkeys c.obsEqs)` -> `p.2.cumulates`",
  "count": 1
 },
 {
  "id": "f007",
  "file": "StateSpace",
  "def": "SSCfg.nCum",
  "old": "c.cumVars.length * (c.period - 1)",
  "new": "c.cumVars.length * c.period",
  "claim": "C92 number of cumulator states",
  "edit": "`c.cumVars.length * (c.period - 1)` -> `c.cumVars.length * c.period`",
  "count": 1
 },
 {
  "id": "f008",
  "file": "StateSpace",
  "def": "SSCfg.depthStep",
  "old": "max ((dget d key.1).getD 0) required.toNat",
  "new": "required.toNat",
  "claim": "C93 lag depth is the maximum",
  "edit": "`max ((dget d key.1).getD 0) required.toNat` -> `required.toNat`",
  "count": 1
 },
 {
  "id": "f009",
  "file": "StateSpace",
  "def": "SSCfg.depthStep",
  "old": "let required : Int := -key.2 + broadcast",
  "new": "let required : Int := -key.2",
  "claim": "C93 lags of aggregated equations",
  "edit": "`let required : Int := -key.2 + broadcast` -> `let required : Int := -key.2`",
  "count": 1
 },
 {
  "id": "f010",
  "file": "StateSpace",
  "def": "SSCfg.depths",
  "old": "(if c.cumulates p.1 then c.period - 1 else 0)",
  "new": "(if c.cumulates p.1 then c.period - 2 else 0)",
  "claim": "C93 lag depth of aggregated equations",
  "edit": "`(if c.cumulates p.1 then c.period - 1 else 0)` -> `(if c.cumulates p.1 then c.period - 2 else 0)`",
  "count": 1
 },
 {
  "id": "f011",
  "file": "StateSpace",
  "def": "SSCfg.startsFrom",
  "old": "startsFrom (off + d) ds",
  "new": "startsFrom (off + 1) ds",
  "claim": "C93 chains do not overlap",
  "edit": "`startsFrom (off + d) ds` -> `startsFrom (off + 1) ds`",
  "count": 1
 },
 {
  "id": "f012",
  "file": "StateSpace",
  "def": "SSCfg.starts",
  "old": "startsFrom (c.vars.length + c.nCum) c.depths",
  "new": "startsFrom c.vars.length c.depths",
  "claim": "C93 chains after the cumulators",
  "edit": "`startsFrom (c.vars.length + c.nCum) c.depths` -> `startsFrom c.vars.length c.depths`",
  "count": 1
 },
 {
  "id": "f013",
  "file": "StateSpace",
  "def": "SSCfg.lagColumn",
  "old": "((-lag).toNat - 1)",
  "new": "(-lag).toNat",
  "claim": "C93 column of a lag",
  "edit": "`((-lag).toNat - 1)` -> `(-lag).toNat`",
  "count": 1
 },
 {
  "id": "f014",
  "file": "StateSpace",
  "def": "SSCfg.loadCum",
  "old": "(p.2 * (c.period - 1)) (c.vars.idxOf p.1) 1",
  "new": "(p.2 * (c.period - 1) + 1) (c.vars.idxOf p.1) 1",
  "claim": "C92 loading of the first cumulator",
  "edit": "`(p.2 * (c.period - 1)) (c.vars.idxOf p.1) 1` -> `(p.2 * (c.period - 1) + 1) (c.vars.idxOf p.1) 1`",
  "count": 1
 },
 {
  "id": "f015",
  "file": "StateSpace",
  "def": "SSCfg.loadCum",
  "old": "F.setAt (p.2 * (c.period - 1)) (c.vars.idxOf p.1) 1",
  "new": "F.setAt (p.2 * c.period) (c.vars.idxOf p.1) 1",
  "claim": "C92 loading of the second variable",
  "edit": "`F.setAt (p.2 * (c.period - 1)) (c.vars.idxOf p.1) 1` -> `F.setAt (p.2 * c.period) (c.vars.idxOf p.1) 1`",
  "count": 1
 },
 {
  "id": "f016",
  "file": "StateSpace",
  "def": "SSCfg.shiftMat",
  "old": "if i = j + 1 then 1 else 0",
  "new": "if j = i + 1 then 1 else 0",
  "claim": "C92 lower shift",
  "edit": "`if i = j + 1 then 1 else 0` -> `if j = i + 1 then 1 else 0`",
  "count": 1
 },
 {
  "id": "f017",
  "file": "StateSpace",
  "def": "SSCfg.chainStep",
  "old": "(start + k) (start + k - 1) 1",
  "new": "(start + k - 1) (start + k) 1",
  "claim": "C93 chain direction",
  "edit": "`(start + k) (start + k - 1) 1` -> `(start + k - 1) (start + k) 1`",
  "count": 1
 },
 {
  "id": "f018",
  "file": "StateSpace",
  "def": "SSCfg.chainStep",
  "old": "List.range' 1 (p.2 - 1)",
  "new": "List.range' 1 (p.2 - 2)",
  "claim": "C93 chain length",
  "edit": "`List.range' 1 (p.2 - 1)` -> `List.range' 1 (p.2 - 2)`",
  "count": 1
 },
 {
  "id": "f019",
  "file": "StateSpace",
  "def": "SSCfg.chainStep",
  "old": "s.1.setAt start (c.vars.idxOf p.1) 1",
  "new": "s.1.setAt start 0 1",
  "claim": "C93 chain loads its own variable",
  "edit": "`s.1.setAt start (c.vars.idxOf p.1) 1` -> `s.1.setAt start 0 1`",
  "count": 1
 },
 {
  "id": "f020",
  "file": "StateSpace",
  "def": "SSCfg.selection",
  "old": "fun i s => if i < c.vars.length then R i s else 0",
  "new": "fun i s => if i < c.vars.length then R i s else R (i - c.vars.length) s",
  "claim": "C92 shocks do not enter the lags",
  "edit": "`fun i s => if i < c.vars.length then R i s else 0` -> `fun i s => if i < c.vars.length then R i s else R (i - c.vars.length) s`",
  "count": 1
 },
 {
  "id": "f021",
  "file": "StateSpace",
  "def": "SSCfg.selWeight",
  "old": "some .mean then 1 / (c.period : \u211d)",
  "new": "some .sum then 1 / (c.period : \u211d)",
  "claim": "C92 mean divides",
  "edit": "`some .mean then 1 / (c.period : \u211d)` -> `some .sum then 1 / (c.period : \u211d)`",
  "count": 1
 },
 {
  "id": "f022",
  "file": "StateSpace",
  "def": "SSCfg.cumStart",
  "old": "c.vars.length + c.cumVars.idxOf name * (c.period - 1)",
  "new": "c.vars.length + c.cumVars.idxOf name",
  "claim": "C92 start of a cumulator block",
  "edit": "`c.vars.length + c.cumVars.idxOf name * (c.period - 1)` -> `c.vars.length + c.cumVars.idxOf name`",
  "count": 1
 },
 {
  "id": "f023",
  "file": "StateSpace",
  "def": "SSCfg.cumStart",
  "old": "c.cumVars.idxOf name",
  "new": "c.observed.idxOf name",
  "claim": "C92 cumulator position by cumulator list",
  "edit": "`c.cumVars.idxOf name` -> `c.observed.idxOf name`",
  "count": 1
 },
 {
  "id": "f024",
  "file": "StateSpace",
  "def": "SSCfg.selectorRow",
  "old": "(List.range (c.period - 1)).foldl (fun Z k => Z.setAt p.2 (c.cumStart p.1 + k) (c.selWeight p.1))\n      (Z.setAt",
  "new": "(List.range (c.period - 2)).foldl (fun Z k => Z.setAt p.2 (c.cumStart p.1 + k) (c.selWeight p.1))\n      (Z.setAt",
  "claim": "C92 window length",
  "edit": "`(List.range (c.period - 1)).foldl (fun Z k => Z.setAt p.2 (c.cumStart p.1 + k) (c.selWeight p.1))\n      (Z.setAt` -> `(List.range (c.period - 2)).foldl (fun Z k => Z.setAt p.2 (c.cumStart p.1 + k) (c.selWeight p.1))\n      (Z.setAt`",
  "count": 1
 },
 {
  "id": "f025",
  "file": "StateSpace",
  "def": "SSCfg.selectorRow",
  "old": "else Z.setAt p.2 (c.vars.idxOf p.1) 1",
  "new": "else Z.setAt (c.vars.idxOf p.1) p.2 1",
  "claim": "C92 row and column of the selector",
  "edit": "`else Z.setAt p.2 (c.vars.idxOf p.1) 1` -> `else Z.setAt (c.vars.idxOf p.1) p.2 1`",
  "count": 1
 },
 {
  "id": "f026",
  "file": "StateSpace",
  "def": "SSCfg.obsWindow",
  "old": "| some .sum => (c.period, 1)",
  "new": "| some .sum => (c.period - 1, 1)",
  "claim": "C93 window of a sum",
  "edit": "`| some .sum => (c.period, 1)` -> `| some .sum => (c.period - 1, 1)`",
  "count": 1
 },
 {
  "id": "f027",
  "file": "StateSpace",
  "def": "SSCfg.obsWindow",
  "old": "| some .mean => (c.period, 1 / (c.period : \u211d))",
  "new": "| some .mean => (c.period, 1)",
  "claim": "C93 mean divides",
  "edit": "`| some .mean => (c.period, 1 / (c.period : \u211d))` -> `| some .mean => (c.period, 1)`",
  "count": 1
 },
 {
  "id": "f028",
  "file": "StateSpace",
  "def": "SSCfg.obsRow",
  "old": "(kc.1.2 - d)) (w.2 * kc.2)",
  "new": "kc.1.2) (w.2 * kc.2)",
  "claim": "C93 broadcast over the window",
  "edit": "`(kc.1.2 - d)) (w.2 * kc.2)` -> `kc.1.2) (w.2 * kc.2)`",
  "count": 1
 },
 {
  "id": "f029",
  "file": "StateSpace",
  "def": "SSCfg.obsRow",
  "old": "(fun Z (d : \u2115) => Z.incAt",
  "new": "(fun Z (d : \u2115) => Z.setAt",
  "claim": "C93 coefficients accumulate",
  "edit": "`(fun Z (d : \u2115) => Z.incAt` -> `(fun Z (d : \u2115) => Z.setAt`",
  "count": 1
 },
 {
  "id": "f030",
  "file": "StateSpace",
  "def": "SSCfg.obsRow",
  "old": "(w.2 * kc.2)",
  "new": "kc.2",
  "claim": "C93 weight",
  "edit": "`(w.2 * kc.2)` -> `kc.2`",
  "count": 1
 },
 {
  "id": "f031",
  "file": "StateSpace",
  "def": "SSCfg.symSelectorRow",
  "old": "if c.cumulates p.1 then\n    (List.range (c.period - 1)).foldl (fun Z k => Z.setAt p.2 (c.cumStart p.1 + k) (c.selWeight p.1)) Z\n  else Z",
  "new": "Z",
  "claim": "C92 aggregation next to equations",
  "edit": "`if c.cumulates p.1 then\n    (List.range (c.period - 1)).foldl (fun Z k => Z.setAt p.2 (c.cumStart p.1 + k) (c.selWeight p.1)) Z\n  else Z` -> `Z`",
  "count": 1
 },
 {
  "id": "f032",
  "file": "StateSpace",
  "def": "SSCfg.symRow",
  "old": "| some eq => c.obsRow eq Z p",
  "new": "| some _ => c.symSelectorRow Z p",
  "claim": "C93 equation rows",
  "edit": "`| some eq => c.obsRow eq Z p` -> `| some _ => c.symSelectorRow Z p`",
  "count": 1
 },
 {
  "id": "f033",
  "file": "StateSpace",
  "def": "SSCfg.interceptEntry",
  "old": "some .sum then (c.period : \u211d) * base",
  "new": "some .mean then (c.period : \u211d) * base",
  "claim": "C93 intercept of a sum",
  "edit": "`some .sum then (c.period : \u211d) * base` -> `some .mean then (c.period : \u211d) * base`",
  "count": 1
 },
 {
  "id": "f034",
  "file": "StateSpace",
  "def": "SSCfg.interceptEntry",
  "old": ".ok (scaled eq.intercept)",
  "new": ".ok eq.intercept",
  "claim": "C93 intercept scaling",
  "edit": "`.ok (scaled eq.intercept)` -> `.ok eq.intercept`",
  "count": 1
 },
 {
  "id": "f035",
  "file": "StateSpace",
  "def": "SSCfg.interceptEntry",
  "old": "if name \u2208 c.loglin then Real.log v else v",
  "new": "v",
  "claim": "C92 log steady state",
  "edit": "`if name \u2208 c.loglin then Real.log v else v` -> `v`",
  "count": 1
 },
 {
  "id": "f036",
  "file": "StateSpace",
  "def": "SSCfg.interceptEntry",
  "old": "else .ok 0",
  "new": "else .ok (scaled 1)",
  "claim": "C92 no intercept unless asked",
  "edit": "`else .ok 0` -> `else .ok (scaled 1)`",
  "count": 1
 },
 {
  "id": "f037",
  "file": "StateSpace",
  "def": "SSCfg.obsIntercept",
  "old": "c.ssObs = [] \u2227 c.obsEqs = []",
  "new": "c.ssObs = []",
  "claim": "C93 intercept with equations only",
  "edit": "`c.ssObs = [] \u2227 c.obsEqs = []` -> `c.ssObs = []`",
  "count": 1
 },
 {
  "id": "f038",
  "file": "StateSpace",
  "def": "SSCfg.stateNames",
  "old": "c.vars ++ (c.cumVars",
  "new": "(c.cumVars",
  "claim": "C95 state names start with the variables",
  "edit": "`c.vars ++ (c.cumVars` -> `(c.cumVars`",
  "count": 1
 },
 {
  "id": "f039",
  "file": "StateSpace",
  "def": "aggOfStr",
  "old": "if s = \"mean\".toList then some .mean",
  "new": "if s = \"mean\".toList then some .sum",
  "claim": "C95 stored method",
  "edit": "`if s = \"mean\".toList then some .mean` -> `if s = \"mean\".toList then some .sum`",
  "count": 1
 },
 {
  "id": "f040",
  "file": "StateSpace",
  "def": "constantsOf",
  "old": "x \u2209 o.priorNames",
  "new": "x \u2208 o.priorNames",
  "claim": "C95 auto constants",
  "edit": "`x \u2209 o.priorNames` -> `x \u2208 o.priorNames`",
  "count": 1
 },
 {
  "id": "f041",
  "file": "StateSpace",
  "def": "constantsOf",
  "old": "refuse (l.filter fun x => decide (x \u2209 o.inputParams)) .unknownConstant",
  "new": "refuse [] .unknownConstant",
  "claim": "C95 unknown constants",
  "edit": "`refuse (l.filter fun x => decide (x \u2209 o.inputParams)) .unknownConstant` -> `refuse [] .unknownConstant`",
  "count": 1
 },
 {
  "id": "f042",
  "file": "StateSpace",
  "def": "configure",
  "old": "decide (x \u2209 o.stateNames) && decide (x \u2209 dkeys a.obsEqs)",
  "new": "decide (x \u2209 o.stateNames)",
  "claim": "C95 observed by equation",
  "edit": "`decide (x \u2209 o.stateNames) && decide (x \u2209 dkeys a.obsEqs)` -> `decide (x \u2209 o.stateNames)`",
  "count": 1
 },
 {
  "id": "f043",
  "file": "StateSpace",
  "def": "configure",
  "old": "refuse (a.measurementError.filter fun x => decide (x \u2209 a.observed)) .unobservedError",
  "new": "refuse (a.measurementError.filter fun x => decide (x \u2209 o.vars)) .unobservedError",
  "claim": "C95 errors on observed series",
  "edit": "`refuse (a.measurementError.filter fun x => decide (x \u2209 a.observed)) .unobservedError` -> `refuse (a.measurementError.filter fun x => decide (x \u2209 o.vars)) .unobservedError`",
  "count": 1
 },
 {
  "id": "f044",
  "file": "StateSpace",
  "def": "configure",
  "old": "decide (a.period < 2)",
  "new": "decide (a.period < 1)",
  "claim": "C95 period",
  "edit": "`decide (a.period < 2)` -> `decide (a.period < 1)`",
  "count": 1
 },
 {
  "id": "f045",
  "file": "StateSpace",
  "def": "configure",
  "old": "refuse (a.ssObs.filter fun x => decide (x \u2209 o.vars)) .unknownIntercept",
  "new": "refuse [] .unknownIntercept",
  "claim": "C95 intercept of unknown variables",
  "edit": "`refuse (a.ssObs.filter fun x => decide (x \u2209 o.vars)) .unknownIntercept` -> `refuse [] .unknownIntercept`",
  "count": 1
 },
 {
  "id": "f046",
  "file": "StateSpace",
  "def": "configure",
  "old": "refuse ((dkeys a.obsEqs).filter fun x => decide (x \u2208 a.ssObs)) .overlap",
  "new": "refuse [] .overlap",
  "claim": "C95 overlap",
  "edit": "`refuse ((dkeys a.obsEqs).filter fun x => decide (x \u2208 a.ssObs)) .overlap` -> `refuse [] .overlap`",
  "count": 1
 },
 {
  "id": "f047",
  "file": "StateSpace",
  "def": "configure",
  "old": "a.measurementError.length + o.shocks.length < a.observed.length))\n",
  "new": "a.measurementError.length + o.shocks.length \u2264 a.observed.length))\n",
  "claim": "C95 singularity boundary",
  "edit": "`a.measurementError.length + o.shocks.length < a.observed.length))\n` -> `a.measurementError.length + o.shocks.length \u2264 a.observed.length))\n`",
  "count": 1
 },
 {
  "id": "f048",
  "file": "StateSpace",
  "def": "configure",
  "old": "errorStates := a.measurementError, constants",
  "new": "errorStates := a.observed, constants",
  "claim": "C95 stored errors",
  "edit": "`errorStates := a.measurementError, constants` -> `errorStates := a.observed, constants`",
  "count": 1
 },
 {
  "id": "f049",
  "file": "StateSpace",
  "def": "configure",
  "old": "period := a.period.toNat",
  "new": "period := 4",
  "claim": "C95 stored period",
  "edit": "`period := a.period.toNat` -> `period := 4`",
  "count": 1
 },
 {
  "id": "f050",
  "file": "StateSpace",
  "def": "obsCov",
  "old": "(errorStates[i]?).map fun s => sigma s ^ 2",
  "new": "(errorStates[i]?).map fun s => sigma s",
  "claim": "C94 variance",
  "edit": "`(errorStates[i]?).map fun s => sigma s ^ 2` -> `(errorStates[i]?).map fun s => sigma s`",
  "count": 1
 },
 {
  "id": "f051",
  "file": "StateSpace",
  "def": "obsCov",
  "old": "if i = j then ((errorStates[i]?)",
  "new": "if i \u2264 j then ((errorStates[i]?)",
  "claim": "C94 diagonal",
  "edit": "`if i = j then ((errorStates[i]?)` -> `if i \u2264 j then ((errorStates[i]?)`",
  "count": 1
 },
 {
  "id": "f052",
  "file": "StateSpace",
  "def": "obsSymOk",
  "old": "decide (k \u2264 0)",
  "new": "decide (k \u2264 1)",
  "claim": "C93 leads refused",
  "edit": "`decide (k \u2264 0)` -> `decide (k \u2264 1)`",
  "count": 1
 },
 {
  "id": "f053",
  "file": "StateSpace",
  "def": "obsSymOk",
  "old": "&& decide (s.base \u2208 vars)",
  "new": "",
  "claim": "C93 unknown variables refused",
  "edit": "`&& decide (s.base \u2208 vars)` -> ``",
  "count": 1
 },
 {
  "id": "f054",
  "file": "StateSpace",
  "def": "tildeName",
  "old": "if lag = 0 then ['0'] else 'm' :: natStr lag.natAbs",
  "new": "if lag = 0 then ['0'] else ['m']",
  "claim": "C93 one dummy per lag",
  "edit": "`if lag = 0 then ['0'] else 'm' :: natStr lag.natAbs` -> `if lag = 0 then ['0'] else ['m']`",
  "count": 1
 },
 {
  "id": "f055",
  "file": "StateSpace",
  "def": "appearing",
  "old": "| .ss => none",
  "new": "| .ss => some (s.base, 0)",
  "claim": "C93 appearing variables",
  "edit": "`| .ss => none` -> `| .ss => some (s.base, 0)`",
  "count": 1
 },
 {
  "id": "f056",
  "file": "StateSpace",
  "def": "tildeForm",
  "old": "if v.base \u2208 loglin then .mul ss (.exp tilde) else .add ss tilde",
  "new": "if v.base \u2209 loglin then .mul ss (.exp tilde) else .add ss tilde",
  "claim": "C93 log deviations",
  "edit": "`if v.base \u2208 loglin then .mul ss (.exp tilde) else .add ss tilde` -> `if v.base \u2209 loglin then .mul ss (.exp tilde) else .add ss tilde`",
  "count": 1
 },
 {
  "id": "f057",
  "file": "StateSpace",
  "def": "tildeForm",
  "old": ".mul ss (.exp tilde)",
  "new": ".add ss (.exp tilde)",
  "claim": "C93 log deviations",
  "edit": "`.mul ss (.exp tilde)` -> `.add ss (.exp tilde)`",
  "count": 1
 },
 {
  "id": "f058",
  "file": "StateSpace",
  "def": "linearizeObs",
  "old": "g.xreplace zeros, (appearing",
  "new": "g, (appearing",
  "claim": "C93 intercept at the steady state",
  "edit": "`g.xreplace zeros, (appearing` -> `g, (appearing`",
  "count": 1
 },
 {
  "id": "f059",
  "file": "StateSpace",
  "def": "linearizeObs",
  "old": "(k, (g.diff (.par (tildeName k.1 k.2))).xreplace zeros)",
  "new": "(k, (g.diff (.par (tildeName k.1 0))).xreplace zeros)",
  "claim": "C93 derivative in the right dummy",
  "edit": "`(k, (g.diff (.par (tildeName k.1 k.2))).xreplace zeros)` -> `(k, (g.diff (.par (tildeName k.1 0))).xreplace zeros)`",
  "count": 1
 },
 {
  "id": "f060",
  "file": "StateSpace",
  "def": "linearizeObs",
  "old": "(k, (g.diff (.par (tildeName k.1 k.2))).xreplace zeros)",
  "new": "(k, g.diff (.par (tildeName k.1 k.2)))",
  "claim": "C93 derivative at the steady state",
  "edit": "`(k, (g.diff (.par (tildeName k.1 k.2))).xreplace zeros)` -> `(k, g.diff (.par (tildeName k.1 k.2)))`",
  "count": 1
 },
 {
  "id": "f061",
  "file": "StateSpace",
  "def": "policyMatrices",
  "old": "((T.rows inv).cols inv, R.rows inv,",
  "new": "((T.rows inv), R.rows inv,",
  "claim": "C91 both axes",
  "edit": "`((T.rows inv).cols inv, R.rows inv,` -> `((T.rows inv), R.rows inv,`",
  "count": 1
 },
 {
  "id": "f062",
  "file": "StateSpace",
  "def": "policyMatrices",
  "old": "((T.rows inv).cols inv, R.rows inv,",
  "new": "((T.rows inv).cols inv, R,",
  "claim": "C91 rows of R",
  "edit": "`((T.rows inv).cols inv, R.rows inv,` -> `((T.rows inv).cols inv, R,`",
  "count": 1
 },
 {
  "id": "f063",
  "file": "StateSpace",
  "def": "policyMatrices",
  "old": "(A i j + (B.dot n T) i j + ((C.dot n T).dot n T) i j) ^ 2)",
  "new": "(A i j + (B.dot n T) i j + (C.dot n T) i j) ^ 2)",
  "claim": "C91 residual",
  "edit": "`(A i j + (B.dot n T) i j + ((C.dot n T).dot n T) i j) ^ 2)` -> `(A i j + (B.dot n T) i j + (C.dot n T) i j) ^ 2)`",
  "count": 1
 },
 {
  "id": "f064",
  "file": "StateSpace",
  "def": "normCheck",
  "old": "((C.dot n R').dot nState Q) i j + D i j",
  "new": "((C.dot n R').dot nState Q) i j - D i j",
  "claim": "C91 stochastic norm",
  "edit": "`((C.dot n R').dot nState Q) i j + D i j` -> `((C.dot n R').dot nState Q) i j - D i j`",
  "count": 1
 },
 {
  "id": "f065",
  "file": "StateSpace",
  "def": "normCheck",
  "old": "let P := (T.rows state).cols state",
  "new": "let P := T",
  "claim": "C91 deterministic norm",
  "edit": "`let P := (T.rows state).cols state` -> `let P := T`",
  "count": 1
 },
 {
  "id": "f066",
  "file": "StateSpace",
  "def": "potentials",
  "old": "(addBK && !bkSatisfied) ||",
  "new": "(addBK && bkSatisfied) ||",
  "claim": "C91 potentials",
  "edit": "`(addBK && !bkSatisfied) ||` -> `(addBK && bkSatisfied) ||`",
  "count": 1
 },
 {
  "id": "f067",
  "file": "StateSpace",
  "def": "potentials",
  "old": "!decide (resid < solverTol)",
  "new": "!decide (resid \u2264 solverTol)",
  "claim": "C91 tolerance boundary",
  "edit": "`!decide (resid < solverTol)` -> `!decide (resid \u2264 solverTol)`",
  "count": 1
 },
 {
  "id": "f068",
  "file": "StateSpace",
  "def": "stepPower",
  "old": "List.range (lagStep - 1)",
  "new": "List.range lagStep",
  "claim": "C97 lag step",
  "edit": "`List.range (lagStep - 1)` -> `List.range lagStep`",
  "count": 1
 },
 {
  "id": "f069",
  "file": "StateSpace",
  "def": "stepPowers",
  "old": "| 0 => 1",
  "new": "| 0 => T",
  "claim": "C97 lag 0",
  "edit": "`| 0 => 1` -> `| 0 => T`",
  "count": 1
 },
 {
  "id": "f070",
  "file": "StateSpace",
  "def": "acfStates",
  "old": "List.range (nLags + 1)",
  "new": "List.range nLags",
  "claim": "C97 number of lags",
  "edit": "`List.range (nLags + 1)` -> `List.range nLags` (occurrence 1)",
  "count": 2,
  "nth": 0
 },
 {
  "id": "f071",
  "file": "StateSpace",
  "def": "acfStates",
  "old": "Real.sqrt (Sigma i i) * Real.sqrt (Sigma j j)",
  "new": "Sigma i i * Sigma j j",
  "claim": "C97 normalisation",
  "edit": "`Real.sqrt (Sigma i i) * Real.sqrt (Sigma j j)` -> `Sigma i i * Sigma j j`",
  "count": 1
 },
 {
  "id": "f072",
  "file": "StateSpace",
  "def": "acfObserved",
  "old": "let cov0 := Z * Sigma * Z\u1d40 + H",
  "new": "let cov0 := Z * Sigma * Z\u1d40",
  "claim": "C97 measurement error",
  "edit": "`let cov0 := Z * Sigma * Z\u1d40 + H` -> `let cov0 := Z * Sigma * Z\u1d40`",
  "count": 1
 },
 {
  "id": "f073",
  "file": "StateSpace",
  "def": "acfObserved",
  "old": "(Z * (stepPowers T lagStep k * Sigma)) * Z\u1d40",
  "new": "(Z * (stepPowers T lagStep k * Sigma)) * Z\u1d40 + H",
  "claim": "C97 measurement error at positive lags",
  "edit": "`(Z * (stepPowers T lagStep k * Sigma)) * Z\u1d40` -> `(Z * (stepPowers T lagStep k * Sigma)) * Z\u1d40 + H`",
  "count": 1
 },
 {
  "id": "f074",
  "file": "StateSpace",
  "def": "placeRows",
  "old": "decide (r.1 \u2264 d)",
  "new": "decide (r.1 < d)",
  "claim": "C96 own date in the window",
  "edit": "`decide (r.1 \u2264 d)` -> `decide (r.1 < d)`",
  "count": 1
 },
 {
  "id": "f075",
  "file": "StateSpace",
  "def": "placeRows",
  "old": ".take period)[posIdx]?",
  "new": ".take period)[posIdx + 1]?",
  "claim": "C96 position",
  "edit": "`.take period)[posIdx]?` -> `.take period)[posIdx + 1]?`",
  "count": 1
 },
 {
  "id": "f076",
  "file": "StateSpace",
  "def": "placeRows",
  "old": "if q.1 = d then (d, some r.2) else q",
  "new": "if q.1 = d then (d, some r.2) else (q.1, none)",
  "claim": "C96 earlier rows kept",
  "edit": "`if q.1 = d then (d, some r.2) else q` -> `if q.1 = d then (d, some r.2) else (q.1, none)`",
  "count": 1
 },
 {
  "id": "f077",
  "file": "StateSpace",
  "def": "trimTail",
  "old": "(l.reverse.dropWhile fun q => q.2.isNone).reverse",
  "new": "l",
  "claim": "C96 trailing rows",
  "edit": "`(l.reverse.dropWhile fun q => q.2.isNone).reverse` -> `l`",
  "count": 1
 },
 {
  "id": "f078",
  "file": "StateSpace",
  "def": "trimTail",
  "old": "if l.all (fun q => q.2.isNone) then l else (l.reverse.dropWhile fun q => q.2.isNone).reverse",
  "new": "l.dropWhile fun q => q.2.isNone",
  "claim": "C96 leading rows kept",
  "edit": "`if l.all (fun q => q.2.isNone) then l else (l.reverse.dropWhile fun q => q.2.isNone).reverse` -> `l.dropWhile fun q => q.2.isNone`",
  "count": 1
 },
 {
  "id": "f079",
  "file": "StateSpace",
  "def": "prepareMixed",
  "old": "(rows.length * period)",
  "new": "((rows.length - 1) * period)",
  "claim": "C96 last window",
  "edit": "`(rows.length * period)` -> `((rows.length - 1) * period)`",
  "count": 1
 },
 {
  "id": "f080",
  "file": "StateSpace",
  "def": "prepareMixed",
  "old": "if last then period - 1 else 0",
  "new": "if last then period else 0",
  "claim": "C96 last position",
  "edit": "`if last then period - 1 else 0` -> `if last then period else 0`",
  "count": 1
 },
 {
  "id": "f081",
  "file": "StateSpace",
  "def": "prepareMixed",
  "old": ".min? with",
  "new": ".head? with",
  "claim": "C96 first date",
  "edit": "`.min? with` -> `.head? with`",
  "count": 1
 }
]