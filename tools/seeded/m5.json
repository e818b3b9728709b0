[
 {
  "id": "e001",
  "file": "SSDriver",
  "def": "inferBounds",
  "old": "some (1 / 100000000) else none, if",
  "new": "some (-1 / 100000000) else none, if",
  "claim": "C79 positive variables stay positive",
  "edit": "`some (1 / 100000000) else none, if` -> `some (-1 / 100000000) else none, if`",
  "count": 1
 },
 {
  "id": "e002",
  "file": "SSDriver",
  "def": "inferBounds",
  "old": "some (-1 / 100000000) else none)",
  "new": "some (1 / 100000000) else none)",
  "claim": "C79 negative variables stay negative",
  "edit": "`some (-1 / 100000000) else none)` -> `some (1 / 100000000) else none)`",
  "count": 1
 },
 {
  "id": "e003",
  "file": "SSDriver",
  "def": "inferBounds",
  "old": "if a.has negativeStr then some (-1",
  "new": "if a.has positiveStr then some (-1",
  "claim": "C79 assumed bounds",
  "edit": "`if a.has negativeStr then some (-1` -> `if a.has positiveStr then some (-1`",
  "count": 1
 },
 {
  "id": "e004",
  "file": "SSDriver",
  "def": "inferTransform",
  "old": "| some (some lo, hi) => some (.interval (some lo) hi)",
  "new": "| some (some lo, hi) => some (.interval (some lo) none)",
  "claim": "C79 upper user bound",
  "edit": "`| some (some lo, hi) => some (.interval (some lo) hi)` -> `| some (some lo, hi) => some (.interval (some lo) none)`",
  "count": 1
 },
 {
  "id": "e005",
  "file": "SSDriver",
  "def": "inferTransform",
  "old": "| some (none, some hi) => some (.interval none (some hi))",
  "new": "| some (none, some hi) => some (.interval (some hi) none)",
  "claim": "C79 upper-only bound",
  "edit": "`| some (none, some hi) => some (.interval none (some hi))` -> `| some (none, some hi) => some (.interval (some hi) none)`",
  "count": 1
 },
 {
  "id": "e006",
  "file": "SSDriver",
  "def": "inferTransform",
  "old": "else if a.has positiveStr then some .log",
  "new": "else if a.has positiveStr then none",
  "claim": "C79 declared positivity (transform)",
  "edit": "`else if a.has positiveStr then some .log` -> `else if a.has positiveStr then none`",
  "count": 1
 },
 {
  "id": "e007",
  "file": "SSDriver",
  "def": "backwardExpr",
  "old": "| some (.interval (some lo) none) => .add (.exp y) (.num lo)",
  "new": "| some (.interval (some lo) none) => .sub (.exp y) (.num lo)",
  "claim": "C79 lower bound transform",
  "edit": "`| some (.interval (some lo) none) => .add (.exp y) (.num lo)` -> `| some (.interval (some lo) none) => .sub (.exp y) (.num lo)`",
  "count": 1
 },
 {
  "id": "e008",
  "file": "SSDriver",
  "def": "backwardExpr",
  "old": "=> .sub (.num hi) (.exp y)",
  "new": "=> .add (.num hi) (.exp y)",
  "claim": "C79 upper bound transform",
  "edit": "`=> .sub (.num hi) (.exp y)` -> `=> .add (.num hi) (.exp y)`",
  "count": 1
 },
 {
  "id": "e009",
  "file": "SSDriver",
  "def": "backwardExpr",
  "old": ".add (.mul (sigmoidExpr y) (.num hi)) (.mul (.sub (.num 1) (sigmoidExpr y)) (.num lo))",
  "new": ".add (.mul (sigmoidExpr y) (.num hi)) (.num lo)",
  "claim": "C79 interval transform",
  "edit": "`.add (.mul (sigmoidExpr y) (.num hi)) (.mul (.sub (.num 1) (sigmoidExpr y)) (.num lo))` -> `.add (.mul (sigmoidExpr y) (.num hi)) (.num lo)`",
  "count": 1
 },
 {
  "id": "e010",
  "file": "SSDriver",
  "def": "backwardExpr",
  "old": "| some .log => .exp y",
  "new": "| some .log => .log y",
  "claim": "C79 bijective",
  "edit": "`| some .log => .exp y` -> `| some .log => .log y`",
  "count": 1
 },
 {
  "id": "e011",
  "file": "SSDriver",
  "def": "forwardNum",
  "old": "if (lo : \u211d) < x then some (Real.log (x - lo)) else none",
  "new": "if (lo : \u211d) < x then some (Real.log x) else none",
  "claim": "C79 forward transform",
  "edit": "`if (lo : \u211d) < x then some (Real.log (x - lo)) else none` -> `if (lo : \u211d) < x then some (Real.log x) else none`",
  "count": 1
 },
 {
  "id": "e012",
  "file": "SSDriver",
  "def": "forwardNum",
  "old": "if x < hi then some (Real.log (hi - x)) else none",
  "new": "if x < hi then some (Real.log (x - hi)) else none",
  "claim": "C79 forward transform (equivalent over Real.log, which takes absolute values)",
  "edit": "`if x < hi then some (Real.log (hi - x)) else none` -> `if x < hi then some (Real.log (x - hi)) else none`",
  "count": 1
 },
 {
  "id": "e013",
  "file": "SSDriver",
  "def": "transformEquations",
  "old": "| some t => backwardExpr t (.sym s)",
  "new": "| some t => .sym s",
  "claim": "C79 same system",
  "edit": "`| some t => backwardExpr t (.sym s)` -> `| some t => .sym s`",
  "count": 1
 },
 {
  "id": "e014",
  "file": "SSDriver",
  "def": "boundDict",
  "old": "dupdate (dupdate [] (vars.map fun v => (symName v, inferBounds (asmOf parAsm v)))) user",
  "new": "dupdate user (vars.map fun v => (symName v, inferBounds (asmOf parAsm v)))",
  "claim": "C79 user bounds take precedence",
  "edit": "`dupdate (dupdate [] (vars.map fun v => (symName v, inferBounds (asmOf parAsm v)))) user` -> `dupdate user (vars.map fun v => (symName v, inferBounds (asmOf parAsm v)))`",
  "count": 1
 },
 {
  "id": "e015",
  "file": "SSDriver",
  "def": "boundPlan",
  "old": "| none => .transformed \"trust-ncg\".toList (vars.map fun v => inferTransform (asmOf parAsm v) (some ((dget d (symName v)).getD (none, none))))",
  "new": "| none => .transformed \"trust-ncg\".toList (vars.map fun v => none)",
  "claim": "C79 default method respects bounds",
  "edit": "`| none => .transformed \"trust-ncg\".toList (vars.map fun v => inferTransform (asmOf parAsm v) (some ((dget d (symName v)).getD (none, none))))` -> `| none => .transformed \"trust-ncg\".toList (vars.map fun v => none)`",
  "count": 1
 },
 {
  "id": "e016",
  "file": "SSDriver",
  "def": "minimizePoint",
  "old": "| .transformed _ ts => toConstrained ts optimum",
  "new": "| .transformed _ ts => optimum",
  "claim": "C79 the point is mapped back",
  "edit": "`| .transformed _ ts => toConstrained ts optimum` -> `| .transformed _ ts => optimum`",
  "count": 1
 },
 {
  "id": "e017",
  "file": "SSDriver",
  "def": "names",
  "old": "dkeys m.calib ++ (dkeys m.params.det)",
  "new": "(dkeys m.params.det)",
  "claim": "C80 calibrated parameters are found",
  "edit": "`dkeys m.calib ++ (dkeys m.params.det)` -> `(dkeys m.params.det)`",
  "count": 1
 },
 {
  "id": "e018",
  "file": "SSDriver",
  "def": "get",
  "old": "let name := removeSuffixSS name",
  "new": "let name := name",
  "claim": "C80 x_ss finds the steady state",
  "edit": "`let name := removeSuffixSS name` -> `let name := name`",
  "count": 1
 },
 {
  "id": "e019",
  "file": "SSDriver",
  "def": "get",
  "old": "| .tv v => .ok (.tv (toSS v))",
  "new": "| .tv v => .ok (.tv v)",
  "claim": "C80 x_ss is the steady state",
  "edit": "`| .tv v => .ok (.tv (toSS v))` -> `| .tv v => .ok (.tv v)`",
  "count": 1
 },
 {
  "id": "e020",
  "file": "SSDriver",
  "def": "get",
  "old": "| c :: _ => .error (.notFound c)",
  "new": "| c :: _ => .error (.notFound name)",
  "claim": "C80 suggestion exists",
  "edit": "`| c :: _ => .error (.notFound c)` -> `| c :: _ => .error (.notFound name)`",
  "count": 1
 },
 {
  "id": "e021",
  "file": "SSDriver",
  "def": "validateFixed",
  "old": "normed.filter fun x => 1 < normed.count x",
  "new": "normed.filter fun x => 2 < normed.count x",
  "claim": "C81 duplicates refused",
  "edit": "`normed.filter fun x => 1 < normed.count x` -> `normed.filter fun x => 2 < normed.count x`",
  "count": 1
 },
 {
  "id": "e022",
  "file": "SSDriver",
  "def": "validateFixed",
  "old": "let unknown := normed.filter fun x => x \u2209 m.vars.map TSym.base",
  "new": "let unknown := given.filter fun x => x \u2209 m.vars.map TSym.base",
  "claim": "C81 names with _ss accepted",
  "edit": "`let unknown := normed.filter fun x => x \u2209 m.vars.map TSym.base` -> `let unknown := given.filter fun x => x \u2209 m.vars.map TSym.base`",
  "count": 1
 },
 {
  "id": "e023",
  "file": "SSDriver",
  "def": "validateFixed",
  "old": "let normed := given.map removeSuffixSS",
  "new": "let normed := given",
  "claim": "C81 names with _ss accepted",
  "edit": "`let normed := given.map removeSuffixSS` -> `let normed := given`",
  "count": 1
 },
 {
  "id": "e024",
  "file": "SSDriver",
  "def": "kwMerge",
  "old": ".error .duplicateKeyword else .ok (a ++ b)",
  "new": ".error .duplicateKeyword else .ok a",
  "claim": "C83 parameters are passed",
  "edit": "`.error .duplicateKeyword else .ok (a ++ b)` -> `.error .duplicateKeyword else .ok a`",
  "count": 1
 },
 {
  "id": "e025",
  "file": "SSDriver",
  "def": "allClose",
  "old": "decide (|v| \u2264 1 / 100000000) | none => false",
  "new": "decide (|v| \u2264 1 / 100000000) | none => true",
  "claim": "C83 NaN is no success",
  "edit": "`decide (|v| \u2264 1 / 100000000) | none => false` -> `decide (|v| \u2264 1 / 100000000) | none => true`",
  "count": 1
 },
 {
  "id": "e026",
  "file": "SSDriver",
  "def": "allClose",
  "old": "decide (|v| \u2264 1 / 100000000)",
  "new": "decide (v \u2264 1 / 100000000)",
  "claim": "C83 absolute value",
  "edit": "`decide (|v| \u2264 1 / 100000000)` -> `decide (v \u2264 1 / 100000000)`",
  "count": 1
 },
 {
  "id": "e027",
  "file": "SSDriver",
  "def": "isBad",
  "old": "decide (1 / 100000000 < |v|)",
  "new": "decide (1 / 100000000 < v)",
  "claim": "C84 absolute value",
  "edit": "`decide (1 / 100000000 < |v|)` -> `decide (1 / 100000000 < v)`",
  "count": 1
 },
 {
  "id": "e028",
  "file": "SSDriver",
  "def": "ssVars",
  "old": "(m.vars.map fun v => Sym.tv (toSS v)) ++ dkeys m.calib",
  "new": "(m.vars.map fun v => Sym.tv (toSS v))",
  "claim": "C82 calibrated parameters are solved for",
  "edit": "`(m.vars.map fun v => Sym.tv (toSS v)) ++ dkeys m.calib` -> `(m.vars.map fun v => Sym.tv (toSS v))`",
  "count": 1
 },
 {
  "id": "e029",
  "file": "SSDriver",
  "def": "known",
  "old": "nv p.2 fun s => (dget pd (symName s)).getD none)))",
  "new": "nv p.2 fun s => none)))",
  "claim": "C82 formulas at the parameters of the call",
  "edit": "`nv p.2 fun s => (dget pd (symName s)).getD none)))` -> `nv p.2 fun s => none)))`",
  "count": 1
 },
 {
  "id": "e030",
  "file": "SSDriver",
  "def": "linearResult",
  "old": "some 0)), success := true",
  "new": "some 1)), success := true",
  "claim": "C82 linear models are at zero",
  "edit": "`some 0)), success := true` -> `some 1)), success := true`",
  "count": 1
 },
 {
  "id": "e031",
  "file": "SSDriver",
  "def": "linearResult",
  "old": "success := true",
  "new": "success := false",
  "claim": "C82 linear models succeed",
  "edit": "`success := true` -> `success := false`",
  "count": 1
 },
 {
  "id": "e032",
  "file": "SSDriver",
  "def": "tryAnalytic",
  "old": "if ss.length \u2260 m.vars.length then .ok none",
  "new": "if ss.length = 0 then .ok none",
  "claim": "C82 incomplete analytic steady states are solved numerically",
  "edit": "`if ss.length \u2260 m.vars.length then .ok none` -> `if ss.length = 0 then .ok none`",
  "count": 1
 },
 {
  "id": "e033",
  "file": "SSDriver",
  "def": "tryAnalytic",
  "old": "return some { values := toNames ss, success := allClose r }",
  "new": "return some { values := toNames ss, success := true }",
  "claim": "C83 analytic success is checked",
  "edit": "`return some { values := toNames ss, success := allClose r }` -> `return some { values := toNames ss, success := true }`",
  "count": 1
 },
 {
  "id": "e034",
  "file": "SSDriver",
  "def": "fixedSyms",
  "old": "return (safeToSS s, v) :: r",
  "new": "return (s, v) :: r",
  "claim": "C82 fixed values are steady-state values",
  "edit": "`return (safeToSS s, v) :: r` -> `return (s, v) :: r`",
  "count": 1
 },
 {
  "id": "e035",
  "file": "SSDriver",
  "def": "providedValues",
  "old": "dupdate (known.getD []) (fixed.map fun p => (p.1, some (p.2 : \u211d)))",
  "new": "dupdate (fixed.map fun p => (p.1, some (p.2 : \u211d))) (known.getD [])",
  "claim": "C82 fixed values take precedence",
  "edit": "`dupdate (known.getD []) (fixed.map fun p => (p.1, some (p.2 : \u211d)))` -> `dupdate (fixed.map fun p => (p.1, some (p.2 : \u211d))) (known.getD [])`",
  "count": 1
 },
 {
  "id": "e036",
  "file": "SSDriver",
  "def": "collect",
  "old": "return (s, v) :: r",
  "new": "return r",
  "claim": "C82 every variable",
  "edit": "`return (s, v) :: r` -> `return r`",
  "count": 1
 },
 {
  "id": "e037",
  "file": "SSDriver",
  "def": "allResolved",
  "old": "  let r \u2190 evalResid nv m.equations env\n  let out",
  "new": "  let r \u2190 evalResid nv m.ssEqs env\n  let out",
  "claim": "C83 calibrating equations are checked",
  "edit": "`  let r \u2190 evalResid nv m.equations env\n  let out` -> `  let r \u2190 evalResid nv m.ssEqs env\n  let out`",
  "count": 1
 },
 {
  "id": "e038",
  "file": "SSDriver",
  "def": "allResolved",
  "old": "return { values := toNames out, success := allClose r }",
  "new": "return { values := toNames out, success := true }",
  "claim": "C83 resolved success is checked",
  "edit": "`return { values := toNames out, success := allClose r }` -> `return { values := toNames out, success := true }`",
  "count": 1
 },
 {
  "id": "e039",
  "file": "SSDriver",
  "def": "numericSuccess",
  "old": "decide ((r.map fun x => |x|).foldr max 0 < tol)",
  "new": "true",
  "claim": "C83 maximal residual checked (implied by the sum of squares only for tol>=1)",
  "edit": "`decide ((r.map fun x => |x|).foldr max 0 < tol)` -> `true`",
  "count": 1
 },
 {
  "id": "e040",
  "file": "SSDriver",
  "def": "numericSuccess",
  "old": "| _, _ => false",
  "new": "| _, _ => true",
  "claim": "C83 NaN is no success",
  "edit": "`| _, _ => false` -> `| _, _ => true`",
  "count": 1
 },
 {
  "id": "e041",
  "file": "SSDriver",
  "def": "postprocess",
  "old": "dupdate (dupdate [] optimum) (providedValues known fixed)",
  "new": "dupdate (dupdate [] (providedValues known fixed)) optimum",
  "claim": "C82 (equivalent when the unknowns are disjoint from the provided values)",
  "edit": "`dupdate (dupdate [] optimum) (providedValues known fixed)` -> `dupdate (dupdate [] (providedValues known fixed)) optimum`",
  "count": 1
 },
 {
  "id": "e042",
  "file": "SSDriver",
  "def": "postprocess",
  "old": "(p.1, res.1 p.2)",
  "new": "(p.1, res.1 (p.2 + 1))",
  "claim": "C82 unknown i gets entry i",
  "edit": "`(p.1, res.1 p.2)` -> `(p.1, res.1 (p.2 + 1))`",
  "count": 1
 },
 {
  "id": "e043",
  "file": "SSDriver",
  "def": "postprocess",
  "old": "success := res.2 ||",
  "new": "success := true ||",
  "claim": "C83 success is checked",
  "edit": "`success := res.2 ||` -> `success := true ||`",
  "count": 1
 },
 {
  "id": "e044",
  "file": "SSDriver",
  "def": "validateEquations",
  "old": "if bad.isEmpty then .ok () else",
  "new": "if !bad.isEmpty then .ok () else",
  "claim": "C84 bad equations refused",
  "edit": "`if bad.isEmpty then .ok () else` -> `if !bad.isEmpty then .ok () else`",
  "count": 1
 },
 {
  "id": "e045",
  "file": "SSDriver",
  "def": "validateEquations",
  "old": "fun s => symName s \u2209 dkeys kw",
  "new": "fun s => symName s \u2208 dkeys kw",
  "claim": "C84 determined equations",
  "edit": "`fun s => symName s \u2209 dkeys kw` -> `fun s => symName s \u2208 dkeys kw`",
  "count": 1
 },
 {
  "id": "e046",
  "file": "SSDriver",
  "def": "validateEquations",
  "old": ".error (.invalidFixed (bad.map Prod.fst))",
  "new": ".error (.invalidFixed [])",
  "claim": "C84 reported equations",
  "edit": "`.error (.invalidFixed (bad.map Prod.fst))` -> `.error (.invalidFixed [])`",
  "count": 1
 },
 {
  "id": "e047",
  "file": "SSDriver",
  "def": "validateEquations",
  "old": "p.1.syms.all fun s => s \u2209 nonFixed",
  "new": "p.1.syms.any fun s => s \u2209 nonFixed",
  "claim": "C84 only determined equations are checked",
  "edit": "`p.1.syms.all fun s => s \u2209 nonFixed` -> `p.1.syms.any fun s => s \u2209 nonFixed`",
  "count": 1
 },
 {
  "id": "e048",
  "file": "SSDriver",
  "def": "system",
  "old": "m.ssVars.filter fun s => symName s \u2209 names",
  "new": "m.ssVars",
  "claim": "C82 only unknowns are solved for",
  "edit": "`m.ssVars.filter fun s => symName s \u2209 names` -> `m.ssVars`",
  "count": 1
 },
 {
  "id": "e049",
  "file": "SSDriver",
  "def": "system",
  "old": "dupdate m.ssSol (fixed.map",
  "new": "dupdate [] (fixed.map",
  "claim": "C82 known values are used",
  "edit": "`dupdate m.ssSol (fixed.map` -> `dupdate [] (fixed.map`",
  "count": 1
 },
 {
  "id": "e050",
  "file": "SSDriver",
  "def": "solveNumerically",
  "old": "if eqs.length \u2260 toSolve.length then",
  "new": "if eqs.length < toSolve.length then",
  "claim": "C82 root needs a square system",
  "edit": "`if eqs.length \u2260 toSolve.length then` -> `if eqs.length < toSolve.length then`",
  "count": 1
 },
 {
  "id": "e051",
  "file": "SSDriver",
  "def": "solveNumerically",
  "old": "| .analytic | .minimize => m.postprocess nv minimize",
  "new": "| .analytic | .minimize => m.postprocess nv root",
  "claim": "C82 the method asked for is used",
  "edit": "`| .analytic | .minimize => m.postprocess nv minimize` -> `| .analytic | .minimize => m.postprocess nv root`",
  "count": 1
 },
 {
  "id": "e052",
  "file": "SSDriver",
  "def": "solveNumerically",
  "old": "| .other => .error .notImplemented",
  "new": "| .other => m.postprocess nv minimize tol eqs toSolve pd known fixed",
  "claim": "C82 unknown methods are refused",
  "edit": "`| .other => .error .notImplemented` -> `| .other => m.postprocess nv minimize tol eqs toSolve pd known fixed`",
  "count": 1
 },
 {
  "id": "e053",
  "file": "SSDriver",
  "def": "steadyState",
  "old": "m.validateFixed (dkeys f)\n",
  "new": "",
  "claim": "C81 fixed values are validated",
  "edit": "`m.validateFixed (dkeys f)\n` -> ``",
  "count": 1
 },
 {
  "id": "e054",
  "file": "SSDriver",
  "def": "steadyState",
  "old": "m.validateEquations nv fs pd\n      m.solve",
  "new": "m.solve",
  "claim": "C84 fixed values are checked",
  "edit": "`m.validateEquations nv fs pd\n      m.solve` -> `m.solve`",
  "count": 1
 },
 {
  "id": "e055",
  "file": "SSDriver",
  "def": "steadyState",
  "old": "let pd \u2190 m.parameters updates",
  "new": "let pd \u2190 m.parameters []",
  "claim": "C82 parameter updates are used",
  "edit": "`let pd \u2190 m.parameters updates` -> `let pd \u2190 m.parameters []`",
  "count": 1
 },
 {
  "id": "e056",
  "file": "SSDriver",
  "def": "packEval",
  "old": "if needSlice then activeIndices.map x else",
  "new": "if false then activeIndices.map x else",
  "claim": "C85 inactive entries are sliced away",
  "edit": "`if needSlice then activeIndices.map x else` -> `if false then activeIndices.map x else`",
  "count": 1
 },
 {
  "id": "e057",
  "file": "SSDriver",
  "def": "packEval",
  "old": "if p.1 \u2208 inputs then some p.2 else none",
  "new": "if p.1 \u2208 inputs then some (p.2 + 1) else none",
  "claim": "C85 indices",
  "edit": "`if p.1 \u2208 inputs then some p.2 else none` -> `if p.1 \u2208 inputs then some (p.2 + 1) else none`",
  "count": 1
 },
 {
  "id": "e058",
  "file": "SSDriver",
  "def": "packEval",
  "old": "inputs.filter fun s => s \u2209 active",
  "new": "inputs.filter fun s => s \u2208 active",
  "claim": "C85 parameters by name",
  "edit": "`inputs.filter fun s => s \u2209 active` -> `inputs.filter fun s => s \u2208 active`",
  "count": 1
 }
]