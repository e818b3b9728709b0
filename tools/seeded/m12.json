[
{
"id": "n000",
"file": "StateSpaceBuild",
"def": "paramMapping",
"old": "determ.map Prod.snd))",
"new": "determ.map (fun p => SExpr.sym (.par p.1))))",
"claim": "C117 deterministic parameters replaced",
"edit": "`determ.map Prod.snd))` -> `determ.map (fun p => SExpr.sym (.par p.1))))`",
"count": 1
},
{
"id": "n001",
"file": "StateSpaceBuild",
"def": "paramMapping",
"old": "(free.map Sym.par ++ determ.map fun p => Sym.par p.1)",
"new": "(determ.map (fun p => Sym.par p.1) ++ free.map Sym.par)",
"claim": "C117 parameters paired with their expressions",
"edit": "`(free.map Sym.par ++ determ.map fun p => Sym.par p.1)` -> `(determ.map (fun p => Sym.par p.1) ++ free.map Sym.par)`",
"count": 1
},
{
"id": "n002",
"file": "StateSpaceBuild",
"def": "Scale.graphReplace",
"old": "| .ss v => .ss ((SExpr.sym (.tv (toSS v))).graphReplace d)",
"new": "| .ss v => .ss (SExpr.sym (.tv (toSS v)))",
"claim": "C117 scale at the steady state",
"edit": "`| .ss v => .ss ((SExpr.sym (.tv (toSS v))).graphReplace d)` -> `| .ss v => .ss (SExpr.sym (.tv (toSS v)))`",
"count": 1
},
{
"id": "n003",
"file": "StateSpaceBuild",
"def": "Scale.graphReplace",
"old": "| .guarded v => .guarded ((SExpr",
"new": "| .guarded v => .ss ((SExpr",
"claim": "equivalent (guarded unused here)? C117",
"edit": "`| .guarded v => .guarded ((SExpr` -> `| .guarded v => .ss ((SExpr`",
"count": 1
},
{
"id": "n004",
"file": "StateSpaceBuild",
"def": "Scale.graphReplace",
"old": "| .one => .one",
"new": "| .one => .ss (.num 0)",
"claim": "C117 levels",
"edit": "`| .one => .one` -> `| .one => .ss (.num 0)`",
"count": 1
},
{
"id": "n005",
"file": "StateSpaceBuild",
"def": "replaceRows",
"old": "(e.graphReplace d, s.graphReplace d)",
"new": "(e, s.graphReplace d)",
"claim": "C117 matrices closed",
"edit": "`(e.graphReplace d, s.graphReplace d)` -> `(e, s.graphReplace d)`",
"count": 1
},
{
"id": "n006",
"file": "StateSpaceBuild",
"def": "statespaceFromGcn",
"old": "if !calib.isEmpty then .error .calibration",
"new": "if false then .error .calibration",
"claim": "C117 refuses calibration",
"edit": "`if !calib.isEmpty then .error .calibration` -> `if false then .error .calibration`",
"count": 1
},
{
"id": "n007",
"file": "StateSpaceBuild",
"def": "statespaceFromGcn",
"old": "if ssMap.length \u2260 vars.length then",
"new": "if false then",
"claim": "C117 refuses numeric steady states",
"edit": "`if ssMap.length \u2260 vars.length then` -> `if false then`",
"count": 1
},
{
"id": "n008",
"file": "StateSpaceBuild",
"def": "statespaceFromGcn",
"old": "if unknown \u2260 [] then",
"new": "if false then",
"claim": "C117 unknown names",
"edit": "`if unknown \u2260 [] then` -> `if false then`",
"count": 1
},
{
"id": "n009",
"file": "StateSpaceBuild",
"def": "statespaceFromGcn",
"old": "logLinearize && !linear",
"new": "logLinearize",
"claim": "C117 linear models",
"edit": "`logLinearize && !linear` -> `logLinearize`",
"count": 1
},
{
"id": "n010",
"file": "StateSpaceBuild",
"def": "statespaceFromGcn",
"old": "vars.filter fun v => !exclude.contains v.base",
"new": "vars.filter fun v => exclude.contains v.base",
"claim": "C117 not_loglin_variables",
"edit": "`vars.filter fun v => !exclude.contains v.base` -> `vars.filter fun v => exclude.contains v.base`",
"count": 1
},
{
"id": "n011",
"file": "StateSpaceBuild",
"def": "statespaceFromGcn",
"old": "let exclude := notLoglin.getD []",
"new": "let exclude := ([] : List Str)",
"claim": "C117 not_loglin_variables",
"edit": "`let exclude := notLoglin.getD []` -> `let exclude := ([] : List Str)`",
"count": 1
},
{
"id": "n012",
"file": "StateSpaceBuild",
"def": "statespaceFromGcn",
"old": "B := replaceRows d sys.scale sys.B",
"new": "B := replaceRows d sys.scale sys.A",
"claim": "C117 matrices",
"edit": "`B := replaceRows d sys.scale sys.B` -> `B := replaceRows d sys.scale sys.A`",
"count": 1
},
{
"id": "n013",
"file": "StateSpaceBuild",
"def": "statespaceFromGcn",
"old": "C := replaceRows d sys.scale sys.C",
"new": "C := replaceRows params sys.scale sys.C",
"claim": "C117 steady-state values put in",
"edit": "`C := replaceRows d sys.scale sys.C` -> `C := replaceRows params sys.scale sys.C`",
"count": 1
},
{
"id": "n014",
"file": "StateSpaceBuild",
"def": "statespaceFromGcn",
"old": "D := sys.D.map fun row => row.map fun e => e.graphReplace d",
"new": "D := sys.D",
"claim": "C117 shock matrix",
"edit": "`D := sys.D.map fun row => row.map fun e => e.graphReplace d` -> `D := sys.D`",
"count": 1
},
{
"id": "n015",
"file": "StateSpaceBuild",
"def": "statespaceFromGcn",
"old": "varOrder := sys.varOrder",
"new": "varOrder := List.range vars.length",
"claim": "C117 order",
"edit": "`varOrder := sys.varOrder` -> `varOrder := List.range vars.length`",
"count": 1
},
{
"id": "n016",
"file": "StateSpaceBuild",
"def": "statespaceFromGcn",
"old": "let ssMap := ssMap.map fun p => (p.1, p.2.graphReplace params)",
"new": "",
"claim": "C117 steady state in free parameters",
"edit": "`let ssMap := ssMap.map fun p => (p.1, p.2.graphReplace params)` -> ``",
"count": 1
},
{
"id": "n017",
"file": "StateSpaceBuild",
"def": "statespaceFromGcn",
"old": "let d := dupdate params ssMap",
"new": "let d := ssMap",
"claim": "C117 deterministic parameters in matrices",
"edit": "`let d := dupdate params ssMap` -> `let d := ssMap`",
"count": 1
},
{
"id": "n018",
"file": "StateSpaceBuild",
"def": "statespaceFromGcn",
"old": "loglin := loglin.map TSym.base",
"new": "loglin := vars.map TSym.base",
"claim": "C117 loglin list",
"edit": "`loglin := loglin.map TSym.base` -> `loglin := vars.map TSym.base`",
"count": 1
},
{
"id": "n019",
"file": "GensysParts",
"def": "divStep",
"old": "let absB := \u2016p.2\u2016",
"new": "let absB := \u2016p.1\u2016",
"claim": "C118 count",
"edit": "`let absB := \u2016p.2\u2016` -> `let absB := \u2016p.1\u2016`",
"count": 1
},
{
"id": "n020",
"file": "GensysParts",
"def": "divStep",
"old": "1 + realsmall < absB / absA \u2227 absB / absA \u2264 st.div",
"new": "absB / absA \u2264 st.div",
"claim": "C118 heuristic",
"edit": "`1 + realsmall < absB / absA \u2227 absB / absA \u2264 st.div` -> `absB / absA \u2264 st.div`",
"count": 1
},
{
"id": "n021",
"file": "GensysParts",
"def": "divStep",
"old": "(1 / 2) * (1 + absB / absA)",
"new": "(1 / 2) * (absB / absA)",
"claim": "C118 heuristic",
"edit": "`(1 / 2) * (1 + absB / absA)` -> `(1 / 2) * (absB / absA)`",
"count": 1
},
{
"id": "n022",
"file": "GensysParts",
"def": "divStep",
"old": "if computeDiv = true \u2227 0 < absA then",
"new": "if 0 < absA then",
"claim": "C118 given div is kept",
"edit": "`if computeDiv = true \u2227 0 < absA then` -> `if 0 < absA then`",
"count": 1
},
{
"id": "n023",
"file": "GensysParts",
"def": "divStep",
"old": "absB / absA \u2264 st.div then",
"new": "absB / absA < st.div then",
"claim": "C118 heuristic boundary",
"edit": "`absB / absA \u2264 st.div then` -> `absB / absA < st.div then`",
"count": 1
},
{
"id": "n024",
"file": "GensysParts",
"def": "divStep",
"old": "if div * absA < absB then st.n + 1",
"new": "if div * absA \u2264 absB then st.n + 1",
"claim": "C118 boundary",
"edit": "`if div * absA < absB then st.n + 1` -> `if div * absA \u2264 absB then st.n + 1`",
"count": 1
},
{
"id": "n025",
"file": "GensysParts",
"def": "divStep",
"old": "if div * absA < absB then st.n + 1",
"new": "if absB < div * absA then st.n + 1",
"claim": "C118 which are unstable",
"edit": "`if div * absA < absB then st.n + 1` -> `if absB < div * absA then st.n + 1`",
"count": 1
},
{
"id": "n026",
"file": "GensysParts",
"def": "divStep",
"old": "if div * absA < absB then",
"new": "if st.div * absA < absB then",
"claim": "C118 uses the updated div",
"edit": "`if div * absA < absB then` -> `if st.div * absA < absB then`",
"count": 1
},
{
"id": "n027",
"file": "GensysParts",
"def": "divStep",
"old": "decide (absA < realsmall) && decide",
"new": "decide (absA < realsmall) || decide",
"claim": "C118 flag",
"edit": "`decide (absA < realsmall) && decide` -> `decide (absA < realsmall) || decide`",
"count": 1
},
{
"id": "n028",
"file": "GensysParts",
"def": "determineNUnstable",
"old": "div.getD (101 / 100)",
"new": "div.getD 1",
"claim": "C118 start",
"edit": "`div.getD (101 / 100)` -> `div.getD 1`",
"count": 1
},
{
"id": "n029",
"file": "GensysParts",
"def": "determineNUnstable",
"old": "divStep div.isNone",
"new": "divStep div.isSome",
"claim": "C118 when searched",
"edit": "`divStep div.isNone` -> `divStep div.isSome`",
"count": 1
},
{
"id": "n030",
"file": "GensysParts",
"def": "splitRows",
"old": "then n - nUnstable else",
"new": "then nUnstable else",
"claim": "C118 split",
"edit": "`then n - nUnstable else` -> `then nUnstable else`",
"count": 1
},
{
"id": "n031",
"file": "GensysParts",
"def": "splitRows",
"old": "(rows.take cut, rows.drop cut)",
"new": "(rows.drop cut, rows.take cut)",
"claim": "C118 split order",
"edit": "`(rows.take cut, rows.drop cut)` -> `(rows.drop cut, rows.take cut)`",
"count": 1
},
{
"id": "n032",
"file": "GensysParts",
"def": "splitRows",
"old": "else n - (nUnstable - n)",
"new": "else 0",
"claim": "C118 split beyond the end",
"edit": "`else n - (nUnstable - n)` -> `else 0`",
"count": 1
},
{
"id": "n033",
"file": "GensysParts",
"def": "buildUVD",
"old": "decide (realsmall < s i)",
"new": "decide (s i < realsmall)",
"claim": "C118 kept singular values",
"edit": "`decide (realsmall < s i)` -> `decide (s i < realsmall)`",
"count": 1
},
{
"id": "n034",
"file": "GensysParts",
"def": "buildUVD",
"old": "v := v.submatrix id big.get",
"new": "v := v.submatrix id (fun i => big.get i.rev)",
"claim": "C118 pairing",
"edit": "`v := v.submatrix id big.get` -> `v := v.submatrix id (fun i => big.get i.rev)`",
"count": 1
},
{
"id": "n035",
"file": "GensysParts",
"def": "buildUVD",
"old": "if invalid || empty then",
"new": "if invalid then",
"claim": "C118 empty",
"edit": "`if invalid || empty then` -> `if invalid then`",
"count": 1
},
{
"id": "n036",
"file": "GensysParts",
"def": "buildUVD",
"old": "if invalid || empty then",
"new": "if empty then",
"claim": "C118 invalid",
"edit": "`if invalid || empty then` -> `if empty then`",
"count": 1
},
{
"id": "n037",
"file": "GensysParts",
"def": "buildUVD",
"old": "d := fun i => s (big.get i)",
"new": "d := fun i => (s (big.get i)) ^ 2",
"claim": "C118 singular values",
"edit": "`d := fun i => s (big.get i)` -> `d := fun i => (s (big.get i)) ^ 2`",
"count": 1
},
{
"id": "n038",
"file": "ForwardVars",
"def": "shiftedAtoms",
"old": "decide (a.idx = .t k)",
"new": "decide (a.idx \u2260 .t k)",
"claim": "C119 dates",
"edit": "`decide (a.idx = .t k)` -> `decide (a.idx \u2260 .t k)`",
"count": 1
},
{
"id": "n039",
"file": "ForwardVars",
"def": "shiftedAtoms",
"old": "fun a => a.atT 0",
"new": "fun a => a",
"claim": "C119 moved to now",
"edit": "`fun a => a.atT 0` -> `fun a => a`",
"count": 1
},
{
"id": "n040",
"file": "ForwardVars",
"def": "backwardVariables",
"old": "shiftedAtoms eqs (-1)",
"new": "shiftedAtoms eqs 1",
"claim": "C119 lags",
"edit": "`shiftedAtoms eqs (-1)` -> `shiftedAtoms eqs 1`",
"count": 1
},
{
"id": "n041",
"file": "ForwardVars",
"def": "symbolicForwardVariables",
"old": "shiftedAtoms eqs 1",
"new": "shiftedAtoms eqs 0",
"claim": "C119 leads",
"edit": "`shiftedAtoms eqs 1` -> `shiftedAtoms eqs 0`",
"count": 1
},
{
"id": "n042",
"file": "ForwardVars",
"def": "absColSums",
"old": "|row.getD j 0|",
"new": "row.getD j 0",
"claim": "C119 cancelling derivatives",
"edit": "`|row.getD j 0|` -> `row.getD j 0`",
"count": 1
},
{
"id": "n043",
"file": "ForwardVars",
"def": "absColSums",
"old": "(C.map fun row",
"new": "(C.take 1 |>.map fun row",
"claim": "C119 every equation",
"edit": "`(C.map fun row` -> `(C.take 1 |>.map fun row`",
"count": 1
},
{
"id": "n044",
"file": "ForwardVars",
"def": "forwardVariables",
"old": "decide (tol < p.2)",
"new": "decide (tol \u2264 p.2)",
"claim": "C119 boundary",
"edit": "`decide (tol < p.2)` -> `decide (tol \u2264 p.2)`",
"count": 1
},
{
"id": "n045",
"file": "ForwardVars",
"def": "forwardVariables",
"old": "absColSums vars.length M.C",
"new": "absColSums vars.length M.A",
"claim": "C119 C matrix",
"edit": "`absColSums vars.length M.C` -> `absColSums vars.length M.A`",
"count": 1
},
{
"id": "n046",
"file": "ForwardVars",
"def": "forwardVariables",
"old": "| none => symbolicForwardVariables vars eqs",
"new": "| none => []",
"claim": "C119 fallback",
"edit": "`| none => symbolicForwardVariables vars eqs` -> `| none => []`",
"count": 1
},
{
"id": "n047",
"file": "ForwardVars",
"def": "leadVarIdx",
"old": "decide (p.1 \u2208 fwd)",
"new": "decide (p.1 \u2209 fwd)",
"claim": "C119 indices",
"edit": "`decide (p.1 \u2208 fwd)` -> `decide (p.1 \u2209 fwd)`",
"count": 1
},
{
"id": "n048",
"file": "ForwardVars",
"def": "leadVarIdx",
"old": "vars.zipIdx.filter",
"new": "(vars.zipIdx 1).filter",
"claim": "C119 indices from zero",
"edit": "`vars.zipIdx.filter` -> `(vars.zipIdx 1).filter`",
"count": 1
},
{
"id": "n049",
"file": "ToDistribution",
"def": "pzArg",
"old": "| some q => .num q",
"new": "| some q => .num (-q)",
"claim": "C120 wrapper arguments",
"edit": "`| some q => .num q` -> `| some q => .num (-q)`",
"count": 1
},
{
"id": "n050",
"file": "ToDistribution",
"def": "wrapArgs",
"old": "if w = \"maxent\".toList then",
"new": "if w \u2260 \"maxent\".toList then",
"claim": "C120 wrapper arguments",
"edit": "`if w = \"maxent\".toList then` -> `if w \u2260 \"maxent\".toList then`",
"count": 1
},
{
"id": "n051",
"file": "ToDistribution",
"def": "wrapArgs",
"old": "dset kw \"plot\".toList (.flag false)",
"new": "kw",
"claim": "C120 maxent plots",
"edit": "`dset kw \"plot\".toList (.flag false)` -> `kw`",
"count": 1
},
{
"id": "n052",
"file": "ToDistribution",
"def": "toPreliz",
"old": "| none => .ok \u27e8d.dist, d.kwargs, none\u27e9",
"new": "| none => .ok \u27e8d.param, d.kwargs, none\u27e9",
"claim": "C120 distribution name",
"edit": "`| none => .ok \u27e8d.dist, d.kwargs, none\u27e9` -> `| none => .ok \u27e8d.param, d.kwargs, none\u27e9`",
"count": 1
},
{
"id": "n053",
"file": "ToDistribution",
"def": "toPreliz",
"old": "| none => .ok \u27e8d.dist, d.kwargs, none\u27e9",
"new": "| none => .ok \u27e8d.dist, d.kwargs.take 1, none\u27e9",
"claim": "C120 all arguments",
"edit": "`| none => .ok \u27e8d.dist, d.kwargs, none\u27e9` -> `| none => .ok \u27e8d.dist, d.kwargs.take 1, none\u27e9`",
"count": 1
},
{
"id": "n054",
"file": "ToDistribution",
"def": "toPreliz",
"old": ".ok \u27e8d.dist, d.kwargs, some (w,",
"new": ".ok \u27e8d.dist, [], some (w,",
"claim": "C120 arguments of wrapped distributions",
"edit": "`.ok \u27e8d.dist, d.kwargs, some (w,` -> `.ok \u27e8d.dist, [], some (w,`",
"count": 1
},
{
"id": "n055",
"file": "ToDistribution",
"def": "toPreliz",
"old": "if d.dist \u2209 dists then",
"new": "if d.dist \u2208 dists then",
"claim": "C120 known distributions",
"edit": "`if d.dist \u2209 dists then` -> `if d.dist \u2208 dists then`",
"count": 1
},
{
"id": "n056",
"file": "ToDistribution",
"def": "acceptsDist",
"old": "| .error _ => false",
"new": "| .error _ => true",
"claim": "C120 refused distributions",
"edit": "`| .error _ => false` -> `| .error _ => true`",
"count": 1
},
{
"id": "n057",
"file": "ToDistribution",
"def": "acceptsDist",
"old": "| .ok c => pz c",
"new": "| .ok _ => true",
"claim": "C120 PreliZ refuses",
"edit": "`| .ok c => pz c` -> `| .ok _ => true`",
"count": 1
},
{
"id": "n058",
"file": "ToDistribution",
"def": "metadata",
"old": "(d.param, d.initial,",
"new": "(d.dist, d.initial,",
"claim": "C120 metadata",
"edit": "`(d.param, d.initial,` -> `(d.dist, d.initial,`",
"count": 1
},
{
"id": "n059",
"file": "ToDistribution",
"def": "distsFromCalibration",
"old": "| .eq _ :: cs, acc => distsFromCalibration pz cs acc",
"new": "| .eq _ :: _, acc => .ok acc",
"claim": "C120 priors after equations",
"edit": "`| .eq _ :: cs, acc => distsFromCalibration pz cs acc` -> `| .eq _ :: _, acc => .ok acc`",
"count": 1
},
{
"id": "n060",
"file": "ToDistribution",
"def": "distsFromModel",
"old": "distsFromModel pz bs (dupdate acc r)",
"new": "distsFromModel pz bs r",
"claim": "C120 priors of every block",
"edit": "`distsFromModel pz bs (dupdate acc r)` -> `distsFromModel pz bs r`",
"count": 1
},
{
"id": "n061",
"file": "PFCompile",
"def": "Sym.node",
"old": "| .tv s => .tv (createName s)",
"new": "| .tv s => .tv s.base",
"claim": "C121 dates are told apart",
"edit": "`| .tv s => .tv (createName s)` -> `| .tv s => .tv s.base`",
"count": 1
},
{
"id": "n062",
"file": "PFCompile",
"def": "Slot.read",
"old": "| .prev i => a.yPrev i",
"new": "| .prev i => a.yNow i",
"claim": "C121 lags",
"edit": "`| .prev i => a.yPrev i` -> `| .prev i => a.yNow i`",
"count": 1
},
{
"id": "n063",
"file": "PFCompile",
"def": "Slot.read",
"old": "| .param i => a.params i",
"new": "| .param i => a.params (i + 1)",
"claim": "C121 parameters",
"edit": "`| .param i => a.params i` -> `| .param i => a.params (i + 1)`",
"count": 1
},
{
"id": "n064",
"file": "PFCompile",
"def": "substituteSS",
"old": "if remaining \u2260 [] then .error",
"new": "if false then .error",
"claim": "C121 unsolved steady states",
"edit": "`if remaining \u2260 [] then .error` -> `if false then .error`",
"count": 1
},
{
"id": "n065",
"file": "PFCompile",
"def": "substituteSS",
"old": "if atoms = [] then .ok eqs else",
"new": "if atoms \u2260 [] then .ok eqs else",
"claim": "C121 steady-state values",
"edit": "`if atoms = [] then .ok eqs else` -> `if atoms \u2260 [] then .ok eqs else`",
"count": 1
},
{
"id": "n066",
"file": "PFCompile",
"def": "substituteSS",
"old": "symName (safeToSS p.1) = createName a",
"new": "symName p.1 = a.base",
"claim": "C121 steady-state names",
"edit": "`symName (safeToSS p.1) = createName a` -> `symName p.1 = a.base`",
"count": 1
},
{
"id": "n067",
"file": "PFCompile",
"def": "substituteSS",
"old": "(Sym.tv a, p.2)",
"new": "(Sym.tv a, .num 0)",
"claim": "C121 steady-state values",
"edit": "`(Sym.tv a, p.2)` -> `(Sym.tv a, .num 0)`",
"count": 1
},
{
"id": "n068",
"file": "PFCompile",
"def": "jacobianVarLists",
"old": "(dget lagOf n).getD (.lagDummy n)",
"new": "(dget leadOf n).getD (.lagDummy n)",
"claim": "C121 lags",
"edit": "`(dget lagOf n).getD (.lagDummy n)` -> `(dget leadOf n).getD (.lagDummy n)`",
"count": 1
},
{
"id": "n069",
"file": "PFCompile",
"def": "jacobianVarLists",
"old": ".getD (.leadDummy n))",
"new": ".getD (.tv n))",
"claim": "C121 dummies (equivalent?)",
"edit": "`.getD (.leadDummy n))` -> `.getD (.tv n))`",
"count": 1
},
{
"id": "n070",
"file": "PFCompile",
"def": "vectorReplacements",
"old": "dset (dset (dset d a (.prev i)) b (.now i)) c (.next i)",
"new": "dset (dset d a (.prev i)) b (.now i)",
"claim": "C121 leads",
"edit": "`dset (dset (dset d a (.prev i)) b (.now i)) c (.next i)` -> `dset (dset d a (.prev i)) b (.now i)`",
"count": 1
},
{
"id": "n071",
"file": "PFCompile",
"def": "vectorReplacements",
"old": "dset (dset (dset d a (.prev i)) b (.now i)) c (.next i)",
"new": "dset (dset (dset d a (.next i)) b (.now i)) c (.prev i)",
"claim": "C121 lags and leads",
"edit": "`dset (dset (dset d a (.prev i)) b (.now i)) c (.next i)` -> `dset (dset (dset d a (.next i)) b (.now i)) c (.prev i)`",
"count": 1
},
{
"id": "n072",
"file": "PFCompile",
"def": "vectorReplacements",
"old": "(.shock p.2)) d",
"new": "(.shock 0)) d",
"claim": "C121 shocks by position",
"edit": "`(.shock p.2)) d` -> `(.shock 0)) d`",
"count": 1
},
{
"id": "n073",
"file": "PFCompile",
"def": "vectorReplacements",
"old": "shocks.zipIdx.foldl (fun d p => dset d p.1 (.shock p.2)) d",
"new": "d",
"claim": "C121 shocks",
"edit": "`shocks.zipIdx.foldl (fun d p => dset d p.1 (.shock p.2)) d` -> `d`",
"count": 1
},
{
"id": "n074",
"file": "PFCompile",
"def": "pfParts",
"old": "(m.params ++ m.determ).filter",
"new": "m.params.filter",
"claim": "C121 deterministic parameters",
"edit": "`(m.params ++ m.determ).filter` -> `m.params.filter`",
"count": 1
},
{
"id": "n075",
"file": "PFCompile",
"def": "PFParts.replacements",
"old": "(dupdate [] (p.timing.leads.map",
"new": "(dupdate [] (p.timing.lags.map",
"claim": "C121 leads",
"edit": "`(dupdate [] (p.timing.leads.map` -> `(dupdate [] (p.timing.lags.map`",
"count": 1
},
{
"id": "n076",
"file": "PFCompile",
"def": "PFParts.slot",
"old": "if k \u2208 p.params then some (.param (p.params.idxOf k)) else none",
"new": "some (.param (p.params.idxOf k))",
"claim": "C121 unknown parameters raise",
"edit": "`if k \u2208 p.params then some (.param (p.params.idxOf k)) else none` -> `some (.param (p.params.idxOf k))`",
"count": 1
},
{
"id": "n077",
"file": "PFCompile",
"def": "PFParts.slot",
"old": "(.param (p.params.idxOf k))",
"new": "(.param 0)",
"claim": "C121 parameters by position",
"edit": "`(.param (p.params.idxOf k))` -> `(.param 0)`",
"count": 1
},
{
"id": "n078",
"file": "PFCompile",
"def": "PFParts.check",
"old": "if p.eqs = [] then .error .emptyStack\n  else ",
"new": "",
"claim": "C121 no equations",
"edit": "`if p.eqs = [] then .error .emptyStack\n  else ` -> ``",
"count": 1
},
{
"id": "n079",
"file": "PFCompile",
"def": "PFParts.check",
"old": "(p.slot n).isNone with",
"new": "(p.slot n).isSome with",
"claim": "C121 success condition",
"edit": "`(p.slot n).isNone with` -> `(p.slot n).isSome with`",
"count": 1
},
{
"id": "n080",
"file": "PFCompile",
"def": "compileSinglePeriod",
"old": "p.timing.now.map (fun v => v.atT (-1)) ++ p.timing.now ++",
"new": "p.timing.now ++ p.timing.now.map (fun v => v.atT (-1)) ++",
"claim": "C121 column order",
"edit": "`p.timing.now.map (fun v => v.atT (-1)) ++ p.timing.now ++` -> `p.timing.now ++ p.timing.now.map (fun v => v.atT (-1)) ++`",
"count": 1
},
{
"id": "n081",
"file": "PFCompile",
"def": "compileSinglePeriod",
"old": "p.timing.now.map fun v => v.atT 1",
"new": "p.timing.now.map fun v => v.atT (-1)",
"claim": "C121 lead derivatives",
"edit": "`p.timing.now.map fun v => v.atT 1` -> `p.timing.now.map fun v => v.atT (-1)`",
"count": 1
},
{
"id": "n082",
"file": "PFCompile",
"def": "compileSinglePeriod",
"old": "p.eqs.map fun e => wrt.map fun v => e.diff (.tv v)",
"new": "m.eqs.map fun e => wrt.map fun v => e.diff (.tv v)",
"claim": "C121 Jacobian after substitution",
"edit": "`p.eqs.map fun e => wrt.map fun v => e.diff (.tv v)` -> `m.eqs.map fun e => wrt.map fun v => e.diff (.tv v)`",
"count": 1
},
{
"id": "n083",
"file": "PFCompile",
"def": "compileSinglePeriod",
"old": "wrt.map fun v => e.diff (.tv v)",
"new": "wrt.map fun v => .neg (e.diff (.tv v))",
"claim": "C121 Jacobian sign",
"edit": "`wrt.map fun v => e.diff (.tv v)` -> `wrt.map fun v => .neg (e.diff (.tv v))`",
"count": 1
},
{
"id": "n084",
"file": "PFCompile",
"def": "compileSinglePeriod",
"old": ".ok \u27e8p, jac, p.timing.now.map TSym.base, p.timing.shocks.map TSym.base, p.params\u27e9",
"new": ".ok \u27e8p, jac, p.timing.now.map TSym.base, p.timing.shocks.map TSym.base, m.params\u27e9",
"claim": "C121 parameter names",
"edit": "`.ok \u27e8p, jac, p.timing.now.map TSym.base, p.timing.shocks.map TSym.base, p.params\u27e9` -> `.ok \u27e8p, jac, p.timing.now.map TSym.base, p.timing.shocks.map TSym.base, m.params\u27e9`",
"count": 1
},
{
"id": "n085",
"file": "PFCompile",
"def": "compileSinglePeriod",
"old": "p.timing.now.map TSym.base, p.timing.shocks.map TSym.base, p.params\u27e9",
"new": "p.timing.now.map createName, p.timing.shocks.map TSym.base, p.params\u27e9",
"claim": "C121 names",
"edit": "`p.timing.now.map TSym.base, p.timing.shocks.map TSym.base, p.params\u27e9` -> `p.timing.now.map createName, p.timing.shocks.map TSym.base, p.params\u27e9`",
"count": 1
},
{
"id": "n086",
"file": "PFCompile",
"def": "compileResidualOnly",
"old": "match p.check p.eqs with",
"new": "match p.check [] with",
"claim": "equivalent? C121 residual function",
"edit": "`match p.check p.eqs with` -> `match p.check [] with`",
"count": 1
},
{
"id": "n087",
"file": "PFCompile",
"def": "PFParts.env",
"old": "(p.slot s.node).map (Slot.read a)",
"new": "(dget p.replacements s.node).map (Slot.read a)",
"claim": "C121 parameters read",
"edit": "`(p.slot s.node).map (Slot.read a)` -> `(dget p.replacements s.node).map (Slot.read a)`",
"count": 1
},
{
"id": "n088",
"file": "SSDriver",
"def": "packGraph",
"old": "then some p.2 else none",
"new": "then some 0 else none",
"claim": "C85 slicing",
"edit": "`then some p.2 else none` -> `then some 0 else none`",
"count": 1
},
{
"id": "n089",
"file": "SSDriver",
"def": "packGraph",
"old": "active.length \u2260 ssNodes.length",
"new": "active.length = ssNodes.length",
"claim": "C85 slicing",
"edit": "`active.length \u2260 ssNodes.length` -> `active.length = ssNodes.length`",
"count": 1
},
{
"id": "n090",
"file": "SSDriver",
"def": "packGraph",
"old": "let paramInputs := inputs.filter fun s => s \u2209 active",
"new": "let paramInputs := inputs.filter fun s => s \u2208 active",
"claim": "C85 missing parameter",
"edit": "`let paramInputs := inputs.filter fun s => s \u2209 active` -> `let paramInputs := inputs.filter fun s => s \u2208 active`",
"count": 1
},
{
"id": "n091",
"file": "SteadyState",
"def": "SExpr.graphReplace",
"old": "(dget d s).getD (.sym s)",
"new": "(dget d s).getD (.num 0)",
"claim": "C72 other symbols stay",
"edit": "`(dget d s).getD (.sym s)` -> `(dget d s).getD (.num 0)`",
"count": 1
}
]