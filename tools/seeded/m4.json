[
 {
  "id": "d001",
  "file": "Statistics",
  "def": "nProvided",
  "old": "o.stdDict.isSome.toNat + o.cov.isSome.toNat + o.std.isSome.toNat",
  "new": "o.stdDict.isSome.toNat + o.std.isSome.toNat",
  "claim": "C47 exactly one shock description",
  "edit": "`o.stdDict.isSome.toNat + o.cov.isSome.toNat + o.std.isSome.toNat` -> `o.stdDict.isSome.toNat + o.std.isSome.toNat`",
  "count": 1
 },
 {
  "id": "d002",
  "file": "Statistics",
  "def": "validateCov",
  "old": "if m ≠ k ∨ p ≠ k then",
  "new": "if m ≠ k then",
  "claim": "C47 covariance must be square of the right size",
  "edit": "`if m ≠ k ∨ p ≠ k then` -> `if m ≠ k then`",
  "count": 1
 },
 {
  "id": "d003",
  "file": "Statistics",
  "def": "validateDict",
  "old": "if missing ≠ [] then .error (.mustGiveAll missing)\n    else if",
  "new": "if",
  "claim": "C47 unknown names are rejected",
  "edit": "`if missing ≠ [] then .error (.mustGiveAll missing)\n    else if` -> `if`",
  "count": 1
 },
 {
  "id": "d004",
  "file": "Statistics",
  "def": "validateDict",
  "old": "else if extra ≠ [] then .error (.unexpected extra)\n",
  "new": "",
  "claim": "C47 every shock needs a value",
  "edit": "`else if extra ≠ [] then .error (.unexpected extra)\n` -> ``",
  "count": 1
 },
 {
  "id": "d005",
  "file": "Statistics",
  "def": "validateStd",
  "old": "if ∀ x ∈ l, 0 < x then",
  "new": "if ∃ x ∈ l, 0 < x then",
  "claim": "C47 standard deviations must be positive",
  "edit": "`if ∀ x ∈ l, 0 < x then` -> `if ∃ x ∈ l, 0 < x then`",
  "count": 1
 },
 {
  "id": "d006",
  "file": "Statistics",
  "def": "validateStd",
  "old": "if r < 0 then",
  "new": "if r ≤ 0 then",
  "claim": "C47 scalar zero is accepted",
  "edit": "`if r < 0 then` -> `if r ≤ 0 then`",
  "count": 1
 },
 {
  "id": "d007",
  "file": "Statistics",
  "def": "validateShockOptions",
  "old": "1 < o.nProvided ∨ o.nProvided = 0",
  "new": "2 < o.nProvided ∨ o.nProvided = 0",
  "claim": "C47 exactly one description",
  "edit": "`1 < o.nProvided ∨ o.nProvided = 0` -> `2 < o.nProvided ∨ o.nProvided = 0`",
  "count": 1
 },
 {
  "id": "d008",
  "file": "Statistics",
  "def": "validateShockOptions",
  "old": "1 < o.nProvided ∨ o.nProvided = 0",
  "new": "1 < o.nProvided",
  "claim": "C47 at least one description",
  "edit": "`1 < o.nProvided ∨ o.nProvided = 0` -> `1 < o.nProvided`",
  "count": 1
 },
 {
  "id": "d009",
  "file": "Statistics",
  "def": "dictQ",
  "old": "(v ^ 2)",
  "new": "v",
  "claim": "C47 variances are squares",
  "edit": "`(v ^ 2)` -> `v`",
  "count": 1
 },
 {
  "id": "d010",
  "file": "Statistics",
  "def": "stdVariance",
  "old": "| .ndarray l => l.getD i 0 ^ 2",
  "new": "| .ndarray l => l.getD 0 0 ^ 2",
  "claim": "C47 each shock its own deviation",
  "edit": "`| .ndarray l => l.getD i 0 ^ 2` -> `| .ndarray l => l.getD 0 0 ^ 2`",
  "count": 1
 },
 {
  "id": "d011",
  "file": "Statistics",
  "def": "stdVariance",
  "old": "| .scalar r => r ^ 2",
  "new": "| .scalar r => r",
  "claim": "C47 variances are squares",
  "edit": "`| .scalar r => r ^ 2` -> `| .scalar r => r`",
  "count": 1
 },
 {
  "id": "d012",
  "file": "Statistics",
  "def": "buildQ",
  "old": "Q ⟨i, h.1⟩ ⟨j, h.2⟩ else 0",
  "new": "(if i = j then Q ⟨i, h.1⟩ ⟨j, h.2⟩ else 0) else 0",
  "claim": "C47 covariance used as given",
  "edit": "`Q ⟨i, h.1⟩ ⟨j, h.2⟩ else 0` -> `(if i = j then Q ⟨i, h.1⟩ ⟨j, h.2⟩ else 0) else 0`",
  "count": 1
 },
 {
  "id": "d013",
  "file": "Statistics",
  "def": "stationaryCov",
  "old": "lyap T (R * Q * Rᵀ)",
  "new": "lyap Tᵀ (R * Q * Rᵀ)",
  "claim": "C47 stationary covariance",
  "edit": "`lyap T (R * Q * Rᵀ)` -> `lyap Tᵀ (R * Q * Rᵀ)`",
  "count": 1
 },
 {
  "id": "d014",
  "file": "Statistics",
  "def": "stationaryCov",
  "old": "lyap T (R * Q * Rᵀ)",
  "new": "lyap T (R * Rᵀ)",
  "claim": "C47 stationary covariance",
  "edit": "`lyap T (R * Q * Rᵀ)` -> `lyap T (R * Rᵀ)`",
  "count": 1
 },
 {
  "id": "d015",
  "file": "Statistics",
  "def": "computeAutocov",
  "old": "(T ^ l * Sigma) i j",
  "new": "(Sigma * T ^ l) i j",
  "claim": "C47 autocovariances",
  "edit": "`(T ^ l * Sigma) i j` -> `(Sigma * T ^ l) i j`",
  "count": 1
 },
 {
  "id": "d016",
  "file": "Statistics",
  "def": "computeAutocov",
  "old": "T ^ l * Sigma",
  "new": "T ^ (l + 1) * Sigma",
  "claim": "C47 lag zero is the covariance",
  "edit": "`T ^ l * Sigma` -> `T ^ (l + 1) * Sigma`",
  "count": 1
 },
 {
  "id": "d017",
  "file": "Statistics",
  "def": "computeAutocov",
  "old": "std i * std j",
  "new": "std i * std i",
  "claim": "C47 correlations",
  "edit": "`std i * std j` -> `std i * std i`",
  "count": 1
 },
 {
  "id": "d018",
  "file": "Statistics",
  "def": "computeAutocov",
  "old": "Real.sqrt (Sigma i i)",
  "new": "Sigma i i",
  "claim": "C47 correlations",
  "edit": "`Real.sqrt (Sigma i i)` -> `Sigma i i`",
  "count": 1
 },
 {
  "id": "d019",
  "file": "Statistics",
  "def": "autocovarianceMatrix",
  "old": "computeAutocov T Sigma nLags correlation",
  "new": "computeAutocov T Sigma (nLags + 1) correlation",
  "claim": "C47 number of lags",
  "edit": "`computeAutocov T Sigma nLags correlation` -> `computeAutocov T Sigma (nLags + 1) correlation`",
  "count": 1
 },
 {
  "id": "d020",
  "file": "Statistics",
  "def": "maybeSolve",
  "old": "let T := if n = 1 then none else T",
  "new": "let T := T",
  "claim": "C63 half-given solutions are recomputed",
  "edit": "`let T := if n = 1 then none else T` -> `let T := T`",
  "count": 1
 },
 {
  "id": "d021",
  "file": "Statistics",
  "def": "maybeSolve",
  "old": "(some solved.1, some solved.2) else (T, R)",
  "new": "(some solved.1, some solved.2) else (some solved.1, R)",
  "claim": "C63 given matrices are used",
  "edit": "`(some solved.1, some solved.2) else (T, R)` -> `(some solved.1, some solved.2) else (some solved.1, R)`",
  "count": 1
 },
 {
  "id": "d022",
  "file": "Statistics",
  "def": "maybeLinearize",
  "old": "decide (n < 4) &&",
  "new": "decide (n < 3) &&",
  "claim": "C63 incomplete sets are recomputed",
  "edit": "`decide (n < 4) &&` -> `decide (n < 3) &&`",
  "count": 1
 },
 {
  "id": "d023",
  "file": "Statistics",
  "def": "maybeLinearize",
  "old": "(some lin.1, some lin.2.1, some lin.2.2.1, some lin.2.2.2)",
  "new": "(some lin.2.2.1, some lin.2.1, some lin.1, some lin.2.2.2)",
  "claim": "C63 order of the matrices",
  "edit": "`(some lin.1, some lin.2.1, some lin.2.2.1, some lin.2.2.2)` -> `(some lin.2.2.1, some lin.2.1, some lin.1, some lin.2.2.2)`",
  "count": 1
 },
 {
  "id": "d024",
  "file": "Statistics",
  "def": "unsatisfied",
  "old": "1 / 100000000 < |x|",
  "new": "1 / 100000000 < x",
  "claim": "C65 negative residuals count",
  "edit": "`1 / 100000000 < |x|` -> `1 / 100000000 < x`",
  "count": 1
 },
 {
  "id": "d025",
  "file": "Statistics",
  "def": "checkGivenSteadyState",
  "old": "if resid.any unsatisfied then .error bad",
  "new": "if resid.all unsatisfied then .error bad",
  "claim": "C65 any unsatisfied equation rejects",
  "edit": "`if resid.any unsatisfied then .error bad` -> `if resid.all unsatisfied then .error bad`",
  "count": 1
 },
 {
  "id": "d026",
  "file": "Statistics",
  "def": "checkGivenSteadyState",
  "old": ".error bad",
  "new": ".error [0]",
  "claim": "C65 the unsatisfied equations are named",
  "edit": "`.error bad` -> `.error [0]`",
  "count": 1
 },
 {
  "id": "d027",
  "file": "Statistics",
  "def": "inferDim",
  "old": "if n = nVars then .variable else .shock",
  "new": "if n = nVars then .shock else .variable",
  "claim": "C64 labels",
  "edit": "`if n = nVars then .variable else .shock` -> `if n = nVars then .shock else .variable`",
  "count": 1
 },
 {
  "id": "d028",
  "file": "Statistics",
  "def": "dimLabels",
  "old": "\"Equation \".toList ++ natStr i",
  "new": "\"Equation \".toList ++ natStr (i + 1)",
  "claim": "C64 equation labels",
  "edit": "`\"Equation \".toList ++ natStr i` -> `\"Equation \".toList ++ natStr (i + 1)`",
  "count": 1
 },
 {
  "id": "d029",
  "file": "Statistics",
  "def": "matrixLabels",
  "old": "if l1.length = r ∧ l2.length = c then some (l1, l2)",
  "new": "if l1.length = r then some (l1, l2)",
  "claim": "C64 wrong label lists raise",
  "edit": "`if l1.length = r ∧ l2.length = c then some (l1, l2)` -> `if l1.length = r then some (l1, l2)`",
  "count": 1
 },
 {
  "id": "d030",
  "file": "Perturbation",
  "def": "incStep",
  "old": "varLag := setTrue inc.varLag jv.2 }",
  "new": "varLag := setTrue inc.varLag i }",
  "claim": "C39 variable order",
  "edit": "`varLag := setTrue inc.varLag jv.2 }` -> `varLag := setTrue inc.varLag i }`",
  "count": 1
 },
 {
  "id": "d031",
  "file": "Perturbation",
  "def": "incStep",
  "old": "eqLead := setTrue inc.eqLead i, varLead",
  "new": "eqLag := setTrue inc.eqLag i, varLead",
  "claim": "C39 equation order",
  "edit": "`eqLead := setTrue inc.eqLead i, varLead` -> `eqLag := setTrue inc.eqLag i, varLead`",
  "count": 1
 },
 {
  "id": "d032",
  "file": "Perturbation",
  "def": "eqOrderOf",
  "old": "whereIdx n (fun i => inc.eqLag i && inc.eqLead i)",
  "new": "whereIdx n (fun i => inc.eqLag i || inc.eqLead i)",
  "claim": "C39 orders are permutations",
  "edit": "`whereIdx n (fun i => inc.eqLag i && inc.eqLead i)` -> `whereIdx n (fun i => inc.eqLag i || inc.eqLead i)`",
  "count": 1
 },
 {
  "id": "d033",
  "file": "Perturbation",
  "def": "varOrderOf",
  "old": "whereIdx n (fun j => inc.varLag j && inc.varLead j) ++",
  "new": "",
  "claim": "C39 orders are permutations",
  "edit": "`whereIdx n (fun j => inc.varLag j && inc.varLead j) ++` -> ``",
  "count": 1
 },
 {
  "id": "d034",
  "file": "Perturbation",
  "def": "jacEntry",
  "old": "let d := e.diff (.tv v)",
  "new": "let d := e",
  "claim": "C39 entries are derivatives",
  "edit": "`let d := e.diff (.tv v)` -> `let d := e`",
  "count": 1
 },
 {
  "id": "d035",
  "file": "Perturbation",
  "def": "jacEntry",
  "old": "eqToSSIn d.tsyms shocks d",
  "new": "d",
  "claim": "C39 evaluated at the steady state",
  "edit": "`eqToSSIn d.tsyms shocks d` -> `d`",
  "count": 1
 },
 {
  "id": "d036",
  "file": "Perturbation",
  "def": "inLoglin",
  "old": "| none => decide (j < vars.length)",
  "new": "| none => false",
  "claim": "C39 all variables by default",
  "edit": "`| none => decide (j < vars.length)` -> `| none => false`",
  "count": 1
 },
 {
  "id": "d037",
  "file": "Perturbation",
  "def": "columnScale",
  "old": "!inLoglin vars loglin j || v.assumed",
  "new": "!inLoglin vars loglin j && v.assumed",
  "claim": "C39 only requested variables are scaled",
  "edit": "`!inLoglin vars loglin j || v.assumed` -> `!inLoglin vars loglin j && v.assumed`",
  "count": 1
 },
 {
  "id": "d038",
  "file": "Perturbation",
  "def": "columnScale",
  "old": "else .guarded v",
  "new": "else .one",
  "claim": "C39 variables without assumptions",
  "edit": "`else .guarded v` -> `else .one`",
  "count": 1
 },
 {
  "id": "d039",
  "file": "Perturbation",
  "def": "linearize",
  "old": "A := symJacobian shocks eqsP lagsP, B := symJacobian shocks eqsP nowP",
  "new": "A := symJacobian shocks eqsP nowP, B := symJacobian shocks eqsP lagsP",
  "claim": "C39 A belongs to the lags",
  "edit": "`A := symJacobian shocks eqsP lagsP, B := symJacobian shocks eqsP nowP` -> `A := symJacobian shocks eqsP nowP, B := symJacobian shocks eqsP lagsP`",
  "count": 1
 },
 {
  "id": "d040",
  "file": "Perturbation",
  "def": "linearize",
  "old": "C := symJacobian shocks eqsP leadsP",
  "new": "C := symJacobian shocks eqsP lagsP",
  "claim": "C39 C belongs to the leads",
  "edit": "`C := symJacobian shocks eqsP leadsP` -> `C := symJacobian shocks eqsP lagsP`",
  "count": 1
 },
 {
  "id": "d041",
  "file": "Perturbation",
  "def": "linearize",
  "old": "D := symJacobian shocks eqsP shocks, scale",
  "new": "D := symJacobian shocks eqs shocks, scale",
  "claim": "C39 D has the same equation order",
  "edit": "`D := symJacobian shocks eqsP shocks, scale` -> `D := symJacobian shocks eqs shocks, scale`",
  "count": 1
 },
 {
  "id": "d042",
  "file": "Perturbation",
  "def": "Scale.eval",
  "old": "if 0 < ssv (toSS v) then ssv (toSS v) else 1",
  "new": "ssv (toSS v)",
  "claim": "C39 non-positive values are not scaled",
  "edit": "`if 0 < ssv (toSS v) then ssv (toSS v) else 1` -> `ssv (toSS v)`",
  "count": 1
 },
 {
  "id": "d043",
  "file": "Perturbation",
  "def": "scaledRows",
  "old": "fun e s => ev e * s",
  "new": "fun e _ => ev e",
  "claim": "C39 log-linearised columns are scaled",
  "edit": "`fun e s => ev e * s` -> `fun e _ => ev e`",
  "count": 1
 },
 {
  "id": "d044",
  "file": "Perturbation",
  "def": "argsort",
  "old": "decide (xs.getD a 0 ≤ xs.getD b 0)",
  "new": "decide (xs.getD b 0 ≤ xs.getD a 0)",
  "claim": "C39 user order is restored",
  "edit": "`decide (xs.getD a 0 ≤ xs.getD b 0)` -> `decide (xs.getD b 0 ≤ xs.getD a 0)`",
  "count": 1
 },
 {
  "id": "d045",
  "file": "Perturbation",
  "def": "eqFlags",
  "old": "if st.1 && st.2 then st else",
  "new": "if st.1 || st.2 then st else",
  "claim": "C66 classification of equations",
  "edit": "`if st.1 && st.2 then st else` -> `if st.1 || st.2 then st else`",
  "count": 1
 },
 {
  "id": "d046",
  "file": "Perturbation",
  "def": "varFlag",
  "old": "if e.tsyms.contains (v.atT k) then true else b",
  "new": "if e.tsyms.contains (v.atT k) then true else false",
  "claim": "C39 any equation counts",
  "edit": "`if e.tsyms.contains (v.atT k) then true else b` -> `if e.tsyms.contains (v.atT k) then true else false`",
  "count": 1
 },
 {
  "id": "d047",
  "file": "Perturbation",
  "def": "DROrder.fromModel",
  "old": "let vLead := fun j => (vars[j]?).any (varFlag eqs 1)",
  "new": "let vLead := fun j => (vars[j]?).any (varFlag eqs (-1))",
  "claim": "C39 classification",
  "edit": "`let vLead := fun j => (vars[j]?).any (varFlag eqs 1)` -> `let vLead := fun j => (vars[j]?).any (varFlag eqs (-1))`",
  "count": 1
 },
 {
  "id": "d048",
  "file": "Perturbation",
  "def": "DROrder.fromModel",
  "old": "invVarOrder := argsort vo",
  "new": "invVarOrder := vo",
  "claim": "C39 user order is restored",
  "edit": "`invVarOrder := argsort vo` -> `invVarOrder := vo`",
  "count": 1
 },
 {
  "id": "d049",
  "file": "Perturbation",
  "def": "DROrder.fromModel",
  "old": "nPredVar := vPred.length",
  "new": "nPredVar := vMixed.length",
  "claim": "C39 counts",
  "edit": "`nPredVar := vPred.length` -> `nPredVar := vMixed.length`",
  "count": 1
 },
 {
  "id": "d050",
  "file": "Perturbation",
  "def": "undoOrders",
  "old": "D := takeRows dr.invEqOrder M.D }",
  "new": "D := M.D }",
  "claim": "C39 D is reordered with the equations",
  "edit": "`D := takeRows dr.invEqOrder M.D }` -> `D := M.D }`",
  "count": 1
 },
 {
  "id": "d051",
  "file": "Perturbation",
  "def": "undoOrders",
  "old": "B := takeCols dr.invVarOrder M.B, C",
  "new": "B := M.B, C",
  "claim": "C39 columns are reordered",
  "edit": "`B := takeCols dr.invVarOrder M.B, C` -> `B := M.B, C`",
  "count": 1
 },
 {
  "id": "d052",
  "file": "Perturbation",
  "def": "ssVals",
  "old": "dget (normalizeConditions ss) v.base",
  "new": "dget ss v.base",
  "claim": "C39 names with the suffix _ss are found",
  "edit": "`dget (normalizeConditions ss) v.base` -> `dget ss v.base`",
  "count": 2,
  "nth": 0
 },
 {
  "id": "d053",
  "file": "Perturbation",
  "def": "linearizeModel",
  "old": "linearize vars eqs shocks (some loglin)",
  "new": "linearize vars eqs shocks none",
  "claim": "C39 only the chosen variables are log-linearised",
  "edit": "`linearize vars eqs shocks (some loglin)` -> `linearize vars eqs shocks none`",
  "count": 1
 },
 {
  "id": "d054",
  "file": "Perturbation",
  "def": "maskSet",
  "old": "fun m f => m || f",
  "new": "fun m _ => m",
  "claim": "C66 excluded variables stay excluded",
  "edit": "`fun m f => m || f` -> `fun m _ => m`",
  "count": 1
 },
 {
  "id": "d055",
  "file": "Perturbation",
  "def": "notLoglinFlags",
  "old": "if unknown ≠ [] then .error (.unknown unknown)\n    else do",
  "new": "do",
  "claim": "C66 unknown names are rejected",
  "edit": "`if unknown ≠ [] then .error (.unknown unknown)\n    else do` -> `do`",
  "count": 1
 },
 {
  "id": "d056",
  "file": "Perturbation",
  "def": "notLoglinFlags",
  "old": "decide (|x| < tol)",
  "new": "decide (x < tol)",
  "claim": "C66 zero steady states",
  "edit": "`decide (|x| < tol)` -> `decide (x < tol)`",
  "count": 1
 },
 {
  "id": "d057",
  "file": "Perturbation",
  "def": "notLoglinFlags",
  "old": "decide (x < 0)",
  "new": "decide (0 < x)",
  "claim": "C66 negative steady states",
  "edit": "`decide (x < 0)` -> `decide (0 < x)`",
  "count": 1
 },
 {
  "id": "d058",
  "file": "Perturbation",
  "def": "notLoglinFlags",
  "old": "if !logLinearize then .ok (varNames.map fun _ => true)",
  "new": "if !logLinearize then .ok (varNames.map fun _ => false)",
  "claim": "C66 log_linearize=False",
  "edit": "`if !logLinearize then .ok (varNames.map fun _ => true)` -> `if !logLinearize then .ok (varNames.map fun _ => false)`",
  "count": 1
 },
 {
  "id": "d059",
  "file": "Perturbation",
  "def": "loglinVars",
  "old": "filter fun p => !p.2",
  "new": "filter fun p => p.2",
  "claim": "C66 flags mean not log-linear",
  "edit": "`filter fun p => !p.2` -> `filter fun p => p.2`",
  "count": 1
 },
 {
  "id": "d060",
  "file": "Gensys",
  "def": "setupG0",
  "old": "fromBlocks B C (-1) 0",
  "new": "fromBlocks B C 1 0",
  "claim": "C68 the companion form",
  "edit": "`fromBlocks B C (-1) 0` -> `fromBlocks B C 1 0`",
  "count": 1
 },
 {
  "id": "d061",
  "file": "Gensys",
  "def": "setupG0",
  "old": "-((fromBlocks B C (-1) 0)",
  "new": "((fromBlocks B C (-1) 0)",
  "claim": "C68 sign of G0",
  "edit": "`-((fromBlocks B C (-1) 0)` -> `((fromBlocks B C (-1) 0)`",
  "count": 1
 },
 {
  "id": "d062",
  "file": "Gensys",
  "def": "setupG1",
  "old": "fromBlocks A 0 0 1",
  "new": "fromBlocks A 0 1 0",
  "claim": "C68 the companion form",
  "edit": "`fromBlocks A 0 0 1` -> `fromBlocks A 0 1 0`",
  "count": 1
 },
 {
  "id": "d063",
  "file": "Gensys",
  "def": "setupPsi",
  "old": "fromRows D 0",
  "new": "fromRows (-D) 0",
  "claim": "C68 impact of shocks",
  "edit": "`fromRows D 0` -> `fromRows (-D) 0`",
  "count": 1
 },
 {
  "id": "d064",
  "file": "Gensys",
  "def": "setupPi",
  "old": "fromRows (0 : Mat n n) (1 : Mat n n)",
  "new": "fromRows (1 : Mat n n) (1 : Mat n n)",
  "claim": "C68 expectational errors",
  "edit": "`fromRows (0 : Mat n n) (1 : Mat n n)` -> `fromRows (1 : Mat n n) (1 : Mat n n)`",
  "count": 1
 },
 {
  "id": "d065",
  "file": "Gensys",
  "def": "gensysCount",
  "old": "realsmall ≤ ‖b‖ ∧ ‖b‖ < ‖a‖",
  "new": "realsmall ≤ ‖b‖ ∧ ‖a‖ < ‖b‖",
  "claim": "C69 stability count",
  "edit": "`realsmall ≤ ‖b‖ ∧ ‖b‖ < ‖a‖` -> `realsmall ≤ ‖b‖ ∧ ‖a‖ < ‖b‖`",
  "count": 1
 },
 {
  "id": "d066",
  "file": "Gensys",
  "def": "gensysCount",
  "old": "if ‖a‖ < realsmall ∧ ‖b‖ < realsmall then true",
  "new": "if ‖a‖ < realsmall ∨ ‖b‖ < realsmall then true",
  "claim": "C69 coincident zeros",
  "edit": "`if ‖a‖ < realsmall ∧ ‖b‖ < realsmall then true` -> `if ‖a‖ < realsmall ∨ ‖b‖ < realsmall then true`",
  "count": 1
 },
 {
  "id": "d067",
  "file": "Gensys",
  "def": "EtaSVD.loose",
  "old": "s.stable.v - s.unstable.v * s.unstable.vᴴ * s.stable.v",
  "new": "s.stable.v",
  "claim": "C69 uniqueness code",
  "edit": "`s.stable.v - s.unstable.v * s.unstable.vᴴ * s.stable.v` -> `s.stable.v`",
  "count": 1
 },
 {
  "id": "d068",
  "file": "Gensys",
  "def": "EtaSVD.innerH",
  "old": "((s.unstable.d i : ℂ))⁻¹",
  "new": "((s.unstable.d i : ℂ))",
  "claim": "C68 the solution",
  "edit": "`((s.unstable.d i : ℂ))⁻¹` -> `((s.unstable.d i : ℂ))`",
  "count": 1
 },
 {
  "id": "d069",
  "file": "Gensys",
  "def": "EtaSVD.tMat",
  "old": "fromCols 1 (-s.innerH)",
  "new": "fromCols 1 s.innerH",
  "claim": "C68 the solution",
  "edit": "`fromCols 1 (-s.innerH)` -> `fromCols 1 s.innerH`",
  "count": 1
 },
 {
  "id": "d070",
  "file": "Gensys",
  "def": "EtaSVD.transitionC",
  "old": "fromRows (s.tMat * q.B)",
  "new": "fromRows (s.tMat * q.A)",
  "claim": "C68 the solution",
  "edit": "`fromRows (s.tMat * q.B)` -> `fromRows (s.tMat * q.A)`",
  "count": 1
 },
 {
  "id": "d071",
  "file": "Gensys",
  "def": "EtaSVD.impactC",
  "old": "s.tMat * q.Q * psi",
  "new": "q.Q1 * psi",
  "claim": "C68 the impact matrix",
  "edit": "`s.tMat * q.Q * psi` -> `q.Q1 * psi`",
  "count": 1
 },
 {
  "id": "d072",
  "file": "Gensys",
  "def": "gensysEU",
  "old": "if q.nu ≤ s.unstable.r then 1 else 0",
  "new": "if q.nu < s.unstable.r then 1 else 0",
  "claim": "C69 existence code",
  "edit": "`if q.nu ≤ s.unstable.r then 1 else 0` -> `if q.nu < s.unstable.r then 1 else 0`",
  "count": 1
 },
 {
  "id": "d073",
  "file": "Gensys",
  "def": "gensysEU",
  "old": "if nLoose = 0 then 1 else 0",
  "new": "if nLoose ≤ 1 then 1 else 0",
  "claim": "C69 uniqueness code",
  "edit": "`if nLoose = 0 then 1 else 0` -> `if nLoose ≤ 1 then 1 else 0`",
  "count": 1
 },
 {
  "id": "d074",
  "file": "Gensys",
  "def": "gensysCore",
  "old": "then ⟨0, 0, gensysEU s⟩",
  "new": "then ⟨0, 0, (1, 1, 0)⟩",
  "claim": "C69 coincident zeros",
  "edit": "`then ⟨0, 0, gensysEU s⟩` -> `then ⟨0, 0, (1, 1, 0)⟩`",
  "count": 1
 },
 {
  "id": "d075",
  "file": "Gensys",
  "def": "solveWithGensys",
  "old": "r.eu.1 = -2 ∧ r.eu.2.1 = -2",
  "new": "r.eu.1 = -2 ∧ r.eu.2.1 = 0",
  "claim": "C69 coincident zeros give no matrices",
  "edit": "`r.eu.1 = -2 ∧ r.eu.2.1 = -2` -> `r.eu.1 = -2 ∧ r.eu.2.1 = 0`",
  "count": 1
 },
 {
  "id": "d076",
  "file": "Gensys",
  "def": "modelSolveGensys",
  "old": "if eu.1 = 1 ∧ eu.2.1 = 1 then",
  "new": "if eu.1 = 1 then",
  "claim": "C69 only unique solutions are returned",
  "edit": "`if eu.1 = 1 ∧ eu.2.1 = 1 then` -> `if eu.1 = 1 then`",
  "count": 2,
  "nth": 0
 },
 {
  "id": "d077",
  "file": "Gensys",
  "def": "modelSolveGensys",
  "old": "if onFailureError then .failedException else .nothing",
  "new": "if onFailureError then .nothing else .failedException",
  "claim": "C69 on_failure",
  "edit": "`if onFailureError then .failedException else .nothing` -> `if onFailureError then .nothing else .failedException`",
  "count": 1
 },
 {
  "id": "d078",
  "file": "Gensys",
  "def": "interpretGensys",
  "old": "else if eu.1 = 1 ∧ eu.2.1 = 0 then .notUnique",
  "new": "else if eu.1 = 0 ∧ eu.2.1 = 1 then .notUnique",
  "claim": "C69 messages",
  "edit": "`else if eu.1 = 1 ∧ eu.2.1 = 0 then .notUnique` -> `else if eu.1 = 0 ∧ eu.2.1 = 1 then .notUnique`",
  "count": 1
 },
 {
  "id": "d079",
  "file": "Gensys",
  "def": "bkForward",
  "old": "filter fun j => tol < ∑ i, |C i j|",
  "new": "filter fun j => tol < ∑ i, C i j",
  "claim": "C40 number of forward variables",
  "edit": "`filter fun j => tol < ∑ i, |C i j|` -> `filter fun j => tol < ∑ i, C i j`",
  "count": 1
 },
 {
  "id": "d080",
  "file": "Gensys",
  "def": "bkUnstable",
  "old": "countP fun z => 1 < Real.sqrt",
  "new": "countP fun z => 1 ≤ Real.sqrt",
  "claim": "C40 unit roots are not unstable",
  "edit": "`countP fun z => 1 < Real.sqrt` -> `countP fun z => 1 ≤ Real.sqrt`",
  "count": 1
 },
 {
  "id": "d081",
  "file": "Gensys",
  "def": "checkBK",
  "old": "if nForward = nU then .satisfied",
  "new": "if nForward ≤ nU then .satisfied",
  "claim": "C40 the condition is an equality",
  "edit": "`if nForward = nU then .satisfied` -> `if nForward ≤ nU then .satisfied`",
  "count": 1
 },
 {
  "id": "d082",
  "file": "Gensys",
  "def": "checkBK",
  "old": "if nForward ≠ nU ∧ raiseOnFailure then",
  "new": "if nForward ≠ nU then",
  "claim": "C40 raising is optional",
  "edit": "`if nForward ≠ nU ∧ raiseOnFailure then` -> `if nForward ≠ nU then`",
  "count": 1
 },
 {
  "id": "d083",
  "file": "Gensys",
  "def": "checkBK",
  "old": ".flag (decide (nForward = nU))",
  "new": ".flag (decide (nForward ≠ nU))",
  "claim": "C40 the flag",
  "edit": "`.flag (decide (nForward = nU))` -> `.flag (decide (nForward ≠ nU))`",
  "count": 1
 },
 {
  "id": "d084",
  "file": "Gensys",
  "def": "bkEigenvalues",
  "old": "p.2 / (p.1 + (tol : ℂ))",
  "new": "p.1 / (p.2 + (tol : ℂ))",
  "claim": "C40 eigenvalues",
  "edit": "`p.2 / (p.1 + (tol : ℂ))` -> `p.1 / (p.2 + (tol : ℂ))`",
  "count": 1
 },
 {
  "id": "d085",
  "file": "SteadyState",
  "def": "ssVariables",
  "old": "vars.map toSS",
  "new": "vars",
  "claim": "C45 steady-state variables",
  "edit": "`vars.map toSS` -> `vars`",
  "count": 1
 },
 {
  "id": "d086",
  "file": "SteadyState",
  "def": "systemToSS",
  "old": "eqToSSIn (order e) shocks e",
  "new": "eqToSSIn (order e) [] e",
  "claim": "C70 shocks are zero",
  "edit": "`eqToSSIn (order e) shocks e` -> `eqToSSIn (order e) [] e`",
  "count": 1
 },
 {
  "id": "d087",
  "file": "SteadyState",
  "def": "errorFromResid",
  "old": "| .abs => some (resid.map fun r => |r|).sum",
  "new": "| .abs => some |resid.sum|",
  "claim": "C71 absolute error",
  "edit": "`| .abs => some (resid.map fun r => |r|).sum` -> `| .abs => some |resid.sum|`",
  "count": 1
 },
 {
  "id": "d088",
  "file": "SteadyState",
  "def": "errorFromResid",
  "old": "| .squared => some (resid.map fun r => r ^ 2).sum",
  "new": "| .squared => some (resid.sum ^ 2)",
  "claim": "C71 squared error",
  "edit": "`| .squared => some (resid.map fun r => r ^ 2).sum` -> `| .squared => some (resid.sum ^ 2)`",
  "count": 1
 },
 {
  "id": "d089",
  "file": "SteadyState",
  "def": "knownOf",
  "old": "filter fun p => safeToSS p.1 ∈ ssVars",
  "new": "filter fun p => p.1 ∈ ssVars",
  "claim": "C72 dated names are found",
  "edit": "`filter fun p => safeToSS p.1 ∈ ssVars` -> `filter fun p => p.1 ∈ ssVars`",
  "count": 1
 },
 {
  "id": "d090",
  "file": "SteadyState",
  "def": "substituteAndFilter",
  "old": "s ∈ ssVars ∧ s ∉ dkeys",
  "new": "s ∈ ssVars ∨ s ∉ dkeys",
  "claim": "C72 only equations with unknowns remain",
  "edit": "`s ∈ ssVars ∧ s ∉ dkeys` -> `s ∈ ssVars ∨ s ∉ dkeys`",
  "count": 1
 },
 {
  "id": "d091",
  "file": "SteadyState",
  "def": "substituteAndFilter",
  "old": "if (knownOf ss ssVars).isEmpty then eqs",
  "new": "if (knownOf ss ssVars).isEmpty then []",
  "claim": "C72 nothing known",
  "edit": "`if (knownOf ss ssVars).isEmpty then eqs` -> `if (knownOf ss ssVars).isEmpty then []`",
  "count": 1
 },
 {
  "id": "d092",
  "file": "SteadyState",
  "def": "ssResidual",
  "old": "if ss.isEmpty then ssEqs ++ calib.map Prod.snd",
  "new": "if ss.isEmpty then ssEqs",
  "claim": "C72 calibrating equations are part of the system",
  "edit": "`if ss.isEmpty then ssEqs ++ calib.map Prod.snd` -> `if ss.isEmpty then ssEqs`",
  "count": 1
 },
 {
  "id": "d093",
  "file": "SteadyState",
  "def": "knownSS",
  "old": "filter fun k => k ∈ dkeys ss",
  "new": "filter fun k => k ∉ dkeys ss",
  "claim": "C73 known values",
  "edit": "`filter fun k => k ∈ dkeys ss` -> `filter fun k => k ∉ dkeys ss`",
  "count": 1
 },
 {
  "id": "d094",
  "file": "SteadyState",
  "def": "simplifyProvided",
  "old": "(ss.filter fun p => p.1 ∈ (ssVariables vars)",
  "new": "(ss.filter fun p => p.1 ∉ (ssVariables vars)",
  "claim": "C74 variables are kept",
  "edit": "`(ss.filter fun p => p.1 ∈ (ssVariables vars)` -> `(ss.filter fun p => p.1 ∉ (ssVariables vars)`",
  "count": 1
 },
 {
  "id": "d095",
  "file": "SteadyState",
  "def": "simplifyProvided",
  "old": "(p.1, p.2.subsSeq flat)",
  "new": "(p.1, p.2)",
  "claim": "C74 auxiliaries are substituted",
  "edit": "`(p.1, p.2.subsSeq flat)` -> `(p.1, p.2)`",
  "count": 1
 },
 {
  "id": "d096",
  "file": "SteadyState",
  "def": "trySolve",
  "old": "if ssIn ssv e' = [x] then",
  "new": "if x ∈ ssIn ssv e' then",
  "claim": "C45 closed forms only",
  "edit": "`if ssIn ssv e' = [x] then` -> `if x ∈ ssIn ssv e' then`",
  "count": 1
 },
 {
  "id": "d097",
  "file": "SteadyState",
  "def": "trySolve",
  "old": "| some [s] =>",
  "new": "| some (s :: _) =>",
  "claim": "C45 only unique solutions",
  "edit": "`| some [s] =>` -> `| some (s :: _) =>`",
  "count": 1
 },
 {
  "id": "d098",
  "file": "SteadyState",
  "def": "storeValue",
  "old": "if s.syms.isEmpty then o.flt s else s",
  "new": "o.flt s",
  "claim": "C45 values kept symbolic",
  "edit": "`if s.syms.isEmpty then o.flt s else s` -> `o.flt s`",
  "count": 1
 },
 {
  "id": "d099",
  "file": "SteadyState",
  "def": "propEq",
  "old": "filter fun s => Sym.tv s ∉ dkeys st.1",
  "new": "filter fun s => Sym.tv s ∈ dkeys st.1",
  "claim": "C45 user values are kept",
  "edit": "`filter fun s => Sym.tv s ∉ dkeys st.1` -> `filter fun s => Sym.tv s ∈ dkeys st.1`",
  "count": 1
 },
 {
  "id": "d100",
  "file": "SteadyState",
  "def": "propEq",
  "old": "| some s => (dset st.1 (.tv x) (storeValue o s), true)",
  "new": "| some s => (dset st.1 (.tv x) (storeValue o s), st.2)",
  "claim": "C45 propagation continues",
  "edit": "`| some s => (dset st.1 (.tv x) (storeValue o s), true)` -> `| some s => (dset st.1 (.tv x) (storeValue o s), st.2)`",
  "count": 1
 },
 {
  "id": "d101",
  "file": "SteadyState",
  "def": "propPass",
  "old": "eqs.foldl (propEq o ssv) (d, false)",
  "new": "(eqs.drop 1).foldl (propEq o ssv) (d, false)",
  "claim": "C45 all equations are used",
  "edit": "`eqs.foldl (propEq o ssv) (d, false)` -> `(eqs.drop 1).foldl (propEq o ssv) (d, false)`",
  "count": 1
 },
 {
  "id": "d102",
  "file": "SteadyState",
  "def": "propLoop",
  "old": "then propLoop o ssv eqs n (propPass o ssv eqs d).1 else",
  "new": "then (propPass o ssv eqs d).1 else",
  "claim": "C45 exhaustive",
  "edit": "`then propLoop o ssv eqs n (propPass o ssv eqs d).1 else` -> `then (propPass o ssv eqs d).1 else`",
  "count": 1
 },
 {
  "id": "d103",
  "file": "Build",
  "def": "ddel",
  "old": "p.1 ≠ k",
  "new": "p.1 = k",
  "claim": "C75 split",
  "edit": "`p.1 ≠ k` -> `p.1 = k`",
  "count": 1
 },
 {
  "id": "d104",
  "file": "Build",
  "def": "hyperStep",
  "old": "(ddel st.1 n, dset st.2 n v)",
  "new": "(st.1, dset st.2 n v)",
  "claim": "C75 never both",
  "edit": "`(ddel st.1 n, dset st.2 n v)` -> `(st.1, dset st.2 n v)`",
  "count": 1
 },
 {
  "id": "d105",
  "file": "Build",
  "def": "hyperStep",
  "old": "(ddel st.1 n, dset st.2 n v)",
  "new": "(ddel st.1 n, st.2)",
  "claim": "C75 nothing lost",
  "edit": "`(ddel st.1 n, dset st.2 n v)` -> `(ddel st.1 n, st.2)`",
  "count": 1
 },
 {
  "id": "d106",
  "file": "Build",
  "def": "orphanParams",
  "old": "if n ∉ dkeys joint ∧ ¬ joint.any",
  "new": "if n ∉ dkeys joint ∨ ¬ joint.any",
  "claim": "C41 orphans",
  "edit": "`if n ∉ dkeys joint ∧ ¬ joint.any` -> `if n ∉ dkeys joint ∨ ¬ joint.any`",
  "count": 1
 },
 {
  "id": "d107",
  "file": "Build",
  "def": "extraParams",
  "old": "∧ n ∉ distAtoms",
  "new": "",
  "claim": "C41 parameters of priors are used",
  "edit": "`∧ n ∉ distAtoms` -> ``",
  "count": 1
 },
 {
  "id": "d108",
  "file": "Build",
  "def": "distributionAtoms",
  "old": "args ++ distParams.filter fun n => n ∈ dkeys joint",
  "new": "args",
  "claim": "C41 parameters of shock distributions are used",
  "edit": "`args ++ distParams.filter fun n => n ∈ dkeys joint` -> `args`",
  "count": 1
 },
 {
  "id": "d109",
  "file": "Build",
  "def": "validateResults",
  "old": "orphanParams (eqs ++ ssRel) joint",
  "new": "orphanParams eqs joint",
  "claim": "C41 steady-state relations are checked",
  "edit": "`orphanParams (eqs ++ ssRel) joint` -> `orphanParams eqs joint`",
  "count": 1
 },
 {
  "id": "d110",
  "file": "Build",
  "def": "validateResults",
  "old": "dupdate (dupdate param calib) determ",
  "new": "dupdate param calib",
  "claim": "C41 deterministic parameters are defined",
  "edit": "`dupdate (dupdate param calib) determ` -> `dupdate param calib`",
  "count": 1
 },
 {
  "id": "d111",
  "file": "Build",
  "def": "validateResults",
  "old": "| .warn => .ok extras",
  "new": "| .warn => .ok []",
  "claim": "C41 warning",
  "edit": "`| .warn => .ok extras` -> `| .warn => .ok []`",
  "count": 1
 },
 {
  "id": "d112",
  "file": "Build",
  "def": "resolveDeterministic",
  "old": "let used : Str → Bool := fun n => (eqs ++ ssRel).any",
  "new": "let used : Str → Bool := fun n => eqs.any",
  "claim": "C77 use in steady-state relations counts",
  "edit": "`let used : Str → Bool := fun n => (eqs ++ ssRel).any` -> `let used : Str → Bool := fun n => eqs.any`",
  "count": 1
 },
 {
  "id": "d113",
  "file": "Build",
  "def": "resolveDeterministic",
  "old": "(dget flat (.par p.1)).getD p.2",
  "new": "p.2",
  "claim": "C77 values are resolved",
  "edit": "`(dget flat (.par p.1)).getD p.2` -> `p.2`",
  "count": 1
 },
 {
  "id": "d114",
  "file": "Build",
  "def": "splitDistributions",
  "old": "p.1 ∉ shockNames ∧ p.1 ∉ hyperNames shockDists",
  "new": "p.1 ∉ shockNames",
  "claim": "C76 split",
  "edit": "`p.1 ∉ shockNames ∧ p.1 ∉ hyperNames shockDists` -> `p.1 ∉ shockNames`",
  "count": 1
 },
 {
  "id": "d115",
  "file": "Build",
  "def": "applySimplifications",
  "old": "some (r2.1, r2.2.1, r1.2.2.1, r2.2.2.1)",
  "new": "some (r2.1, r2.2.1, [], r2.2.2.1)",
  "claim": "C78 eliminated variables are reported",
  "edit": "`some (r2.1, r2.2.1, r1.2.2.1, r2.2.2.1)` -> `some (r2.1, r2.2.1, [], r2.2.2.1)`",
  "count": 1
 },
 {
  "id": "d116",
  "file": "Build",
  "def": "compileGcn",
  "old": "systemToSS o.simp o.order eqs i.shocks",
  "new": "systemToSS o.simp o.order i.equations i.shocks",
  "claim": "C78 steady state of the reduced model",
  "edit": "`systemToSS o.simp o.order eqs i.shocks` -> `systemToSS o.simp o.order i.equations i.shocks`",
  "count": 1
 },
 {
  "id": "d117",
  "file": "Build",
  "def": "compileGcn",
  "old": "if f.inferSS then propagateSS o.ss ss0 ssEqs vars else ss0",
  "new": "if f.inferSS then propagateSS o.ss [] ssEqs vars else ss0",
  "claim": "C78 user values kept",
  "edit": "`if f.inferSS then propagateSS o.ss ss0 ssEqs vars else ss0` -> `if f.inferSS then propagateSS o.ss [] ssEqs vars else ss0`",
  "count": 1
 },
 {
  "id": "d118",
  "file": "Build",
  "def": "compileGcn",
  "old": "vars := naturalSort vars",
  "new": "vars := naturalSort i.vars",
  "claim": "C78 eliminated variables are not variables",
  "edit": "`vars := naturalSort vars` -> `vars := naturalSort i.vars`",
  "count": 1
 },
 {
  "id": "d119",
  "file": "Build",
  "def": "compileGcn",
  "old": "match simplifyProvided i.ss vars with",
  "new": "match simplifyProvided i.ss i.vars with",
  "claim": "C78 steady-state entries of eliminated variables",
  "edit": "`match simplifyProvided i.ss vars with` -> `match simplifyProvided i.ss i.vars with`",
  "count": 1
 },
 {
  "id": "d120",
  "file": "Build",
  "def": "compileGcn",
  "old": "hyper := params.2",
  "new": "hyper := []",
  "claim": "C78 hyper-parameters",
  "edit": "`hyper := params.2` -> `hyper := []`",
  "count": 1
 }
]