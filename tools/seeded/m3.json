[
 {
  "id": "c001",
  "file": "Simplification",
  "def": "timeCombos",
  "old": "[TIdx.t (-1), .t 0, .t 1, .ss]",
  "new": "[TIdx.t (-1), .t 0, .t 1]",
  "claim": "C26 steady-state occurrences count",
  "edit": "`[TIdx.t (-1), .t 0, .t 1, .ss]` -> `[TIdx.t (-1), .t 0, .t 1]`",
  "count": 1
 },
 {
  "id": "c002",
  "file": "Simplification",
  "def": "timeCombos",
  "old": "[TIdx.t (-1), .t 0, .t 1, .ss]",
  "new": "[TIdx.t 0, .t 1, .ss]",
  "claim": "C26 lagged occurrences count",
  "edit": "`[TIdx.t (-1), .t 0, .t 1, .ss]` -> `[TIdx.t 0, .t 1, .ss]`",
  "count": 1
 },
 {
  "id": "c003",
  "file": "Simplification",
  "def": "reduceVariableList",
  "old": "filter fun x => x ∈ vars)",
  "new": "filter fun x => x ∉ vars)",
  "claim": "C26 the remaining variables are the ones still used",
  "edit": "`filter fun x => x ∈ vars)` -> `filter fun x => x ∉ vars)`",
  "count": 1
 },
 {
  "id": "c004",
  "file": "Simplification",
  "def": "reduceVariableList",
  "old": "sortByName (vars.filter fun x => x ∉ reduced))",
  "new": "sortByName (vars.filter fun x => x ∈ reduced))",
  "claim": "C26 eliminated variables are reported",
  "edit": "`sortByName (vars.filter fun x => x ∉ reduced))` -> `sortByName (vars.filter fun x => x ∈ reduced))`",
  "count": 1
 },
 {
  "id": "c005",
  "file": "Simplification",
  "def": "isolatedVars",
  "old": "(eqs.filter fun e => mentions e v).length = 1",
  "new": "(eqs.filter fun e => mentions e v).length ≤ 2",
  "claim": "C26 only variables of a single equation are dropped with it",
  "edit": "`(eqs.filter fun e => mentions e v).length = 1` -> `(eqs.filter fun e => mentions e v).length ≤ 2`",
  "count": 1
 },
 {
  "id": "c006",
  "file": "Simplification",
  "def": "tryreduceStep",
  "old": "(cand.filter fun e => e = .num 0).length = 1 ∧",
  "new": "1 ≤ (cand.filter fun e => e = .num 0).length ∧",
  "claim": "C26 exactly one equation disappears per variable",
  "edit": "`(cand.filter fun e => e = .num 0).length = 1 ∧` -> `1 ≤ (cand.filter fun e => e = .num 0).length ∧`",
  "count": 1
 },
 {
  "id": "c007",
  "file": "Simplification",
  "def": "tryreduceStep",
  "old": " ∧ ¬ cand.any fun e => mentions e x then",
  "new": "  then",
  "claim": "C26 the variable is gone from the system",
  "edit": "` ∧ ¬ cand.any fun e => mentions e x then` -> `  then`",
  "count": 1
 },
 {
  "id": "c008",
  "file": "Simplification",
  "def": "tryreduceStep",
  "old": "| none => eqs\n",
  "new": "| none => eqs.drop 1\n",
  "claim": "C26 a variable without definition changes nothing",
  "edit": "`| none => eqs\n` -> `| none => eqs.drop 1\n`",
  "count": 1
 },
 {
  "id": "c009",
  "file": "Simplification",
  "def": "dropIsolated",
  "old": "filter fun v => v ∈ tr)",
  "new": "filter fun _ => true)",
  "claim": "C26 only requested variables are eliminated",
  "edit": "`filter fun v => v ∈ tr)` -> `filter fun _ => true)`",
  "count": 1
 },
 {
  "id": "c010",
  "file": "Simplification",
  "def": "simplifyTryreduce",
  "old": "if eqs.length ≠ vars.length then (eqs, vars, [], true)",
  "new": "if eqs.length < vars.length then (eqs, vars, [], true)",
  "claim": "C26 non-square systems are left alone with a warning",
  "edit": "`if eqs.length ≠ vars.length then (eqs, vars, [], true)` -> `if eqs.length < vars.length then (eqs, vars, [], true)`",
  "count": 1
 },
 {
  "id": "c011",
  "file": "Simplification",
  "def": "simplifyTryreduce",
  "old": "(reduced, vs.1, vs.2, false)",
  "new": "(reduced, vars, vs.2, false)",
  "claim": "C26 the variable list is reduced",
  "edit": "`(reduced, vs.1, vs.2, false)` -> `(reduced, vars, vs.2, false)`",
  "count": 2,
  "nth": 0
 },
 {
  "id": "c012",
  "file": "Simplification",
  "def": "constantEntry",
  "old": "e.atoms.eraseDups.length ≤ 3",
  "new": "e.atoms.eraseDups.length ≤ 4",
  "claim": "C27 the size limit",
  "edit": "`e.atoms.eraseDups.length ≤ 3` -> `e.atoms.eraseDups.length ≤ 4`",
  "count": 1
 },
 {
  "id": "c013",
  "file": "Simplification",
  "def": "constantEntry",
  "old": "| [x] =>\n",
  "new": "| x :: _ =>\n",
  "claim": "C27 only equations with one dated variable pin a constant",
  "edit": "`| [x] =>\n` -> `| x :: _ =>\n`",
  "count": 1
 },
 {
  "id": "c014",
  "file": "Simplification",
  "def": "constantDict",
  "old": "| some none => constantDict solve es d",
  "new": "| some none => constantDict solve es []",
  "claim": "C27 constants already found are kept",
  "edit": "`| some none => constantDict solve es d` -> `| some none => constantDict solve es []`",
  "count": 1
 },
 {
  "id": "c015",
  "file": "Simplification",
  "def": "simplifyConstants",
  "old": "filter fun e => e ≠ .num 0",
  "new": "filter fun e => e = e",
  "claim": "C27 satisfied equations are removed",
  "edit": "`filter fun e => e ≠ .num 0` -> `filter fun e => e = e`",
  "count": 2,
  "nth": 1
 },
 {
  "id": "c016",
  "file": "Simplification",
  "def": "simplifyConstants",
  "old": "if eqs.length ≠ vars.length then some (eqs, vars, [], true)",
  "new": "if eqs.length < vars.length then some (eqs, vars, [], true)",
  "claim": "C27 non-square systems are left alone",
  "edit": "`if eqs.length ≠ vars.length then some (eqs, vars, [], true)` -> `if eqs.length < vars.length then some (eqs, vars, [], true)`",
  "count": 1
 },
 {
  "id": "c017",
  "file": "Simplification",
  "def": "splitDigits",
  "old": ".txt [] :: .dig (c :: ds) :: k",
  "new": ".txt [] :: .dig (ds ++ [c]) :: k",
  "claim": "C28 natural order of names",
  "edit": "`.txt [] :: .dig (c :: ds) :: k` -> `.txt [] :: .dig (ds ++ [c]) :: k`",
  "count": 1
 },
 {
  "id": "c018",
  "file": "Simplification",
  "def": "digitsVal",
  "old": "10 * n + (c.toNat",
  "new": "n + (c.toNat",
  "claim": "C28 natural order of names",
  "edit": "`10 * n + (c.toNat` -> `n + (c.toNat`",
  "count": 1
 },
 {
  "id": "c019",
  "file": "Simplification",
  "def": "partsLt",
  "old": "decide (digitsVal a < digitsVal b)",
  "new": "decide (digitsVal b < digitsVal a)",
  "claim": "C28 natural order of names",
  "edit": "`decide (digitsVal a < digitsVal b)` -> `decide (digitsVal b < digitsVal a)`",
  "count": 1
 },
 {
  "id": "c020",
  "file": "Simplification",
  "def": "partsLt",
  "old": "| [], _ :: _ => some true",
  "new": "| [], _ :: _ => some false",
  "claim": "C28 natural order of names",
  "edit": "`| [], _ :: _ => some true` -> `| [], _ :: _ => some false`",
  "count": 1
 },
 {
  "id": "c021",
  "file": "Simplification",
  "def": "naturalSort",
  "old": "naturalLt b.base a.base ≠ some true",
  "new": "naturalLt a.base b.base ≠ some true",
  "claim": "C28 lists are sorted by natural order",
  "edit": "`naturalLt b.base a.base ≠ some true` -> `naturalLt a.base b.base ≠ some true`",
  "count": 1
 },
 {
  "id": "c022",
  "file": "Simplification",
  "def": "validTime",
  "old": "x.idx = .t (-1) ∨ x.idx = .t 0 ∨ x.idx = .t 1",
  "new": "x.idx = .t (-1) ∨ x.idx = .t 0 ∨ x.idx = .t 1 ∨ x.idx = .t 2",
  "claim": "C28 dates beyond one lead are rejected",
  "edit": "`x.idx = .t (-1) ∨ x.idx = .t 0 ∨ x.idx = .t 1` -> `x.idx = .t (-1) ∨ x.idx = .t 0 ∨ x.idx = .t 1 ∨ x.idx = .t 2`",
  "count": 1
 },
 {
  "id": "c023",
  "file": "Simplification",
  "def": "validTime",
  "old": "x.idx = .t (-1) ∨ x.idx = .t 0 ∨ x.idx = .t 1",
  "new": "x.idx = .t 0 ∨ x.idx = .t 1",
  "claim": "C28 lags are accepted",
  "edit": "`x.idx = .t (-1) ∨ x.idx = .t 0 ∨ x.idx = .t 1` -> `x.idx = .t 0 ∨ x.idx = .t 1`",
  "count": 1
 },
 {
  "id": "c024",
  "file": "Simplification",
  "def": "varsAtTime",
  "old": "filter fun x => x.base ∉ shockNames",
  "new": "filter fun x => x.base ∉ shockNames ∨ t = 0",
  "claim": "C28 shocks are not variables",
  "edit": "`filter fun x => x.base ∉ shockNames` -> `filter fun x => x.base ∉ shockNames ∨ t = 0`",
  "count": 1
 },
 {
  "id": "c025",
  "file": "Simplification",
  "def": "classifyTiming",
  "old": "lags := varsAtTime atoms shockNames (-1)",
  "new": "lags := varsAtTime atoms shockNames 1",
  "claim": "C28 lags are the variables dated -1",
  "edit": "`lags := varsAtTime atoms shockNames (-1)` -> `lags := varsAtTime atoms shockNames 1`",
  "count": 1
 },
 {
  "id": "c026",
  "file": "Simplification",
  "def": "classifyTiming",
  "old": "shocks := naturalSort (atoms.filter fun x => x.base ∈ shockNames)",
  "new": "shocks := naturalSort (atoms.filter fun x => x.base ∈ shockNames ∧ x.idx = .t 0)",
  "claim": "C28 shocks at any date are classified",
  "edit": "`shocks := naturalSort (atoms.filter fun x => x.base ∈ shockNames)` -> `shocks := naturalSort (atoms.filter fun x => x.base ∈ shockNames ∧ x.idx = .t 0)`",
  "count": 1
 },
 {
  "id": "c027",
  "file": "Simplification",
  "def": "classifyTiming",
  "old": "if invalid ≠ [] then .error (naturalSort invalid)",
  "new": "if invalid ≠ [] then .error (naturalSort atoms)",
  "claim": "C28 the message names the invalid symbols",
  "edit": "`if invalid ≠ [] then .error (naturalSort invalid)` -> `if invalid ≠ [] then .error (naturalSort atoms)`",
  "count": 1
 },
 {
  "id": "c028",
  "file": "Simplification",
  "def": "allTimeCombinations",
  "old": "(now.map fun x => { x with idx := .t (-1) }, now, now.map fun x => { x with idx := .t 1 })",
  "new": "(now.map fun x => { x with idx := .t 1 }, now, now.map fun x => { x with idx := .t (-1) })",
  "claim": "C28 order lags, now, leads",
  "edit": "`(now.map fun x => { x with idx := .t (-1) }, now, now.map fun x => { x with idx := .t 1 })` -> `(now.map fun x => { x with idx := .t 1 }, now, now.map fun x => { x with idx := .t (-1) })`",
  "count": 1
 },
 {
  "id": "c029",
  "file": "LinearSolve",
  "def": "solveBackwardPolicy",
  "old": "linSolve (-B) A",
  "new": "linSolve B A",
  "claim": "C36 backward policy",
  "edit": "`linSolve (-B) A` -> `linSolve B A`",
  "count": 1
 },
 {
  "id": "c030",
  "file": "LinearSolve",
  "def": "solveBackwardShockMatrix",
  "old": "(linSolve B D).map fun X => -X",
  "new": "(linSolve B D)",
  "claim": "C36 backward impact matrix",
  "edit": "`(linSolve B D).map fun X => -X` -> `(linSolve B D)`",
  "count": 1
 },
 {
  "id": "c031",
  "file": "LinearSolve",
  "def": "selectionMatrix",
  "old": "(linSolve (C * T + B) D).map",
  "new": "(linSolve (T * C + B) D).map",
  "claim": "C36 impact matrix",
  "edit": "`(linSolve (C * T + B) D).map` -> `(linSolve (T * C + B) D).map`",
  "count": 1
 },
 {
  "id": "c032",
  "file": "LinearSolve",
  "def": "selectionMatrix",
  "old": "(linSolve (C * T + B) D).map fun X => -X",
  "new": "(linSolve (C * T + B) D).map fun X => X",
  "claim": "C36 impact matrix sign",
  "edit": "`(linSolve (C * T + B) D).map fun X => -X` -> `(linSolve (C * T + B) D).map fun X => X`",
  "count": 1
 },
 {
  "id": "c033",
  "file": "LinearSolve",
  "def": "adjointMatrix",
  "old": "T Cᵀ +",
  "new": "Tᵀ Cᵀ +",
  "claim": "C62 adjoint system",
  "edit": "`T Cᵀ +` -> `Tᵀ Cᵀ +`",
  "count": 1
 },
 {
  "id": "c034",
  "file": "LinearSolve",
  "def": "adjointMatrix",
  "old": "(Tᵀ * Cᵀ)",
  "new": "(Cᵀ * Tᵀ)",
  "claim": "C62 adjoint system",
  "edit": "`(Tᵀ * Cᵀ)` -> `(Cᵀ * Tᵀ)`",
  "count": 1
 },
 {
  "id": "c035",
  "file": "LinearSolve",
  "def": "policyAdjoints",
  "old": "(-(vec Tbar))",
  "new": "(vec Tbar)",
  "claim": "C62 sign of the adjoint",
  "edit": "`(-(vec Tbar))` -> `(vec Tbar)`",
  "count": 1
 },
 {
  "id": "c036",
  "file": "LinearSolve",
  "def": "policyAdjoints",
  "old": "some (S, S * Tᵀ, S * Tᵀ * Tᵀ)",
  "new": "some (S, S * T, S * T * T)",
  "claim": "C62 adjoints of B and C",
  "edit": "`some (S, S * Tᵀ, S * Tᵀ * Tᵀ)` -> `some (S, S * T, S * T * T)`",
  "count": 1
 },
 {
  "id": "c037",
  "file": "LinearSolve",
  "def": "policyAdjoints",
  "old": "fun k i => vecS (i, k)",
  "new": "fun k i => vecS (k, i)",
  "claim": "C62 vec ordering",
  "edit": "`fun k i => vecS (i, k)` -> `fun k i => vecS (k, i)`",
  "count": 1
 },
 {
  "id": "c038",
  "file": "LinearSolve",
  "def": "crStep",
  "old": "A1 := s.A1 - tmp.toBlocks₁₂ - tmp.toBlocks₂₁",
  "new": "A1 := s.A1 - tmp.toBlocks₁₂",
  "claim": "C61 cycle reduction step",
  "edit": "`A1 := s.A1 - tmp.toBlocks₁₂ - tmp.toBlocks₂₁` -> `A1 := s.A1 - tmp.toBlocks₁₂`",
  "count": 1
 },
 {
  "id": "c039",
  "file": "LinearSolve",
  "def": "crStep",
  "old": "A0 := -tmp.toBlocks₁₁",
  "new": "A0 := tmp.toBlocks₁₁",
  "claim": "C61 cycle reduction step",
  "edit": "`A0 := -tmp.toBlocks₁₁` -> `A0 := tmp.toBlocks₁₁`",
  "count": 1
 },
 {
  "id": "c040",
  "file": "LinearSolve",
  "def": "crStep",
  "old": "A2 := -tmp.toBlocks₂₂",
  "new": "A2 := -tmp.toBlocks₁₁",
  "claim": "C61 cycle reduction step",
  "edit": "`A2 := -tmp.toBlocks₂₂` -> `A2 := -tmp.toBlocks₁₁`",
  "count": 1
 },
 {
  "id": "c041",
  "file": "LinearSolve",
  "def": "crStep",
  "old": "A1hat := s.A1hat - tmp.toBlocks₂₁",
  "new": "A1hat := s.A1hat - tmp.toBlocks₁₂",
  "claim": "C61 cycle reduction step",
  "edit": "`A1hat := s.A1hat - tmp.toBlocks₂₁` -> `A1hat := s.A1hat - tmp.toBlocks₁₂`",
  "count": 1
 },
 {
  "id": "c042",
  "file": "LinearSolve",
  "def": "crLoop",
  "old": "if norm1 s'.A2 < tol then some (.done s') else crLoop tol left s'",
  "new": "some (.done s')",
  "claim": "C61 both norms must pass",
  "edit": "`if norm1 s'.A2 < tol then some (.done s') else crLoop tol left s'` -> `some (.done s')`",
  "count": 1
 },
 {
  "id": "c043",
  "file": "LinearSolve",
  "def": "crLoop",
  "old": "else some (.early .failed (Real.log (norm1 s'.A1)))",
  "new": "else some (.done s')",
  "claim": "C61 failure is reported",
  "edit": "`else some (.early .failed (Real.log (norm1 s'.A1)))` -> `else some (.done s')`",
  "count": 1
 },
 {
  "id": "c044",
  "file": "LinearSolve",
  "def": "cycleReduction",
  "old": "some ⟨some (-Y), some (A + B * (-Y) + C * (-Y) * (-Y)), .success, 0⟩",
  "new": "some ⟨some Y, some (A + B * (-Y) + C * (-Y) * (-Y)), .success, 0⟩",
  "claim": "C61 sign of the solution",
  "edit": "`some ⟨some (-Y), some (A + B * (-Y) + C * (-Y) * (-Y)), .success, 0⟩` -> `some ⟨some Y, some (A + B * (-Y) + C * (-Y) * (-Y)), .success, 0⟩`",
  "count": 1
 },
 {
  "id": "c045",
  "file": "LinearSolve",
  "def": "cycleReduction",
  "old": "some (A + B * (-Y) + C * (-Y) * (-Y))",
  "new": "some (A + B * (-Y) + C * (-Y))",
  "claim": "C61 the returned residual",
  "edit": "`some (A + B * (-Y) + C * (-Y) * (-Y))` -> `some (A + B * (-Y) + C * (-Y))`",
  "count": 1
 },
 {
  "id": "c046",
  "file": "LinearSolve",
  "def": "cycleReductionCore",
  "old": "| some (_, false) => some (0, false)",
  "new": "| some (s, false) => (linSolve s.A1hat A).map fun Y => (-Y, true)",
  "claim": "C61 flag of the compiled kernel",
  "edit": "`| some (_, false) => some (0, false)` -> `| some (s, false) => (linSolve s.A1hat A).map fun Y => (-Y, true)`",
  "count": 1
 },
 {
  "id": "c047",
  "file": "LinearSolve",
  "def": "crCoreLoop",
  "old": "if norm1 s'.A2 < tol then some (s', true) else crCoreLoop tol left s'",
  "new": "some (s', true)",
  "claim": "C61 compiled kernel: both norms",
  "edit": "`if norm1 s'.A2 < tol then some (s', true) else crCoreLoop tol left s'` -> `some (s', true)`",
  "count": 1
 },
 {
  "id": "c048",
  "file": "LinearSolve",
  "def": "scanLoop",
  "old": "if norm < tol then scanLoop",
  "new": "if tol < norm then scanLoop",
  "claim": "C61 scan stops once converged",
  "edit": "`if norm < tol then scanLoop` -> `if tol < norm then scanLoop`",
  "count": 1
 },
 {
  "id": "c049",
  "file": "LinearSolve",
  "def": "solvePolicyCR",
  "old": "| some R => .ok ⟨T, R, msg, l⟩",
  "new": "| some R => .ok ⟨T, -R, msg, l⟩",
  "claim": "C61 R belongs to T",
  "edit": "`| some R => .ok ⟨T, R, msg, l⟩` -> `| some R => .ok ⟨T, -R, msg, l⟩`",
  "count": 1
 },
 {
  "id": "c050",
  "file": "Simulate",
  "def": "validateIrfShockArguments",
  "old": "if 1 < provided.length then",
  "new": "if 2 < provided.length then",
  "claim": "C38 more than one specification is rejected",
  "edit": "`if 1 < provided.length then` -> `if 2 < provided.length then`",
  "count": 1
 },
 {
  "id": "c051",
  "file": "Simulate",
  "def": "validateIrfShockArguments",
  "old": "if provided = [] then .error .notEnoughValues\n  else if",
  "new": "if",
  "claim": "C38 no specification is rejected",
  "edit": "`if provided = [] then .error .notEnoughValues\n  else if` -> `if`",
  "count": 1
 },
 {
  "id": "c052",
  "file": "Simulate",
  "def": "shockMode",
  "old": "match a.traj with\n  | some tr => .trajectory tr\n  | none =>\n",
  "new": "match a.traj with\n  | some _ => .size none\n  | none =>\n",
  "claim": "C38 a trajectory is used",
  "edit": "`match a.traj with\n  | some tr => .trajectory tr\n  | none =>\n` -> `match a.traj with\n  | some _ => .size none\n  | none =>\n`",
  "count": 1
 },
 {
  "id": "c053",
  "file": "Simulate",
  "def": "selectedShocks",
  "old": "if (dkeys d).any fun x => x ∉ names then",
  "new": "if (dkeys d).all fun x => x ∉ names then",
  "claim": "C38 unknown shock names rejected",
  "edit": "`if (dkeys d).any fun x => x ∉ names then` -> `if (dkeys d).all fun x => x ∉ names then`",
  "count": 1
 },
 {
  "id": "c054",
  "file": "Simulate",
  "def": "selectedShocks",
  "old": ".ok (names.filter fun x => x ∈ dkeys d)",
  "new": ".ok names",
  "claim": "C38 only named shocks are selected",
  "edit": "`.ok (names.filter fun x => x ∈ dkeys d)` -> `.ok names`",
  "count": 1
 },
 {
  "id": "c055",
  "file": "Simulate",
  "def": "inferIndividual",
  "old": "| .trajectory _ => false",
  "new": "| .trajectory _ => true",
  "claim": "C38 trajectories are joint by default",
  "edit": "`| .trajectory _ => false` -> `| .trajectory _ => true`",
  "count": 1
 },
 {
  "id": "c056",
  "file": "Simulate",
  "def": "inferIndividual",
  "old": "| some b => b\n",
  "new": "| some b => !b\n",
  "claim": "C38 requested mode wins",
  "edit": "`| some b => b\n` -> `| some b => !b\n`",
  "count": 1
 },
 {
  "id": "c057",
  "file": "Simulate",
  "def": "shockVector",
  "old": "| some (.dict d) => .ok (names.map fun x => (dget d x).getD 0)",
  "new": "| some (.dict d) => .ok (names.map fun x => (dget d x).getD 1)",
  "claim": "C37 shocks not named are zero",
  "edit": "`| some (.dict d) => .ok (names.map fun x => (dget d x).getD 0)` -> `| some (.dict d) => .ok (names.map fun x => (dget d x).getD 1)`",
  "count": 1
 },
 {
  "id": "c058",
  "file": "Simulate",
  "def": "shockVector",
  "old": "| none => .ok (names.map fun _ => 1)",
  "new": "| none => .ok (names.map fun _ => 0)",
  "claim": "C38 default size is one",
  "edit": "`| none => .ok (names.map fun _ => 1)` -> `| none => .ok (names.map fun _ => 0)`",
  "count": 1
 },
 {
  "id": "c059",
  "file": "Simulate",
  "def": "impulse",
  "old": ".ok (v :: List.replicate l 0)",
  "new": ".ok (v :: List.replicate l v)",
  "claim": "C37 an impulse hits in the first period only",
  "edit": "`.ok (v :: List.replicate l 0)` -> `.ok (v :: List.replicate l v)`",
  "count": 1
 },
 {
  "id": "c060",
  "file": "Simulate",
  "def": "impulse",
  "old": ".ok (v :: List.replicate l 0)",
  "new": ".ok (v :: List.replicate (l + 1) 0)",
  "claim": "C37 number of periods",
  "edit": "`.ok (v :: List.replicate l 0)` -> `.ok (v :: List.replicate (l + 1) 0)`",
  "count": 1
 },
 {
  "id": "c061",
  "file": "Simulate",
  "def": "buildTrajectory",
  "old": "| some L => impulse len (L *ᵥ z)",
  "new": "| some L => impulse len (Lᵀ *ᵥ z)",
  "claim": "C38 draws have the covariance given",
  "edit": "`| some L => impulse len (L *ᵥ z)` -> `| some L => impulse len (Lᵀ *ᵥ z)`",
  "count": 1
 },
 {
  "id": "c062",
  "file": "Simulate",
  "def": "simGo",
  "old": "(T *ᵥ x + R *ᵥ e) :: simGo T R (T *ᵥ x + R *ᵥ e) es",
  "new": "(T *ᵥ x + R *ᵥ e) :: simGo T R x es",
  "claim": "C37 recursion",
  "edit": "`(T *ᵥ x + R *ᵥ e) :: simGo T R (T *ᵥ x + R *ᵥ e) es` -> `(T *ᵥ x + R *ᵥ e) :: simGo T R x es`",
  "count": 1
 },
 {
  "id": "c063",
  "file": "Simulate",
  "def": "simulateLinear",
  "old": ".ok ((R *ᵥ e) :: simGo T R (R *ᵥ e) es)",
  "new": ".ok ((R *ᵥ e) :: simGo T R 0 es)",
  "claim": "C37 the first state enters the second period",
  "edit": "`.ok ((R *ᵥ e) :: simGo T R (R *ᵥ e) es)` -> `.ok ((R *ᵥ e) :: simGo T R 0 es)`",
  "count": 1
 },
 {
  "id": "c064",
  "file": "Simulate",
  "def": "keepShock",
  "old": "Pi.single idx (r idx)",
  "new": "Pi.single idx 1",
  "claim": "C37 sizes of individual shocks",
  "edit": "`Pi.single idx (r idx)` -> `Pi.single idx 1`",
  "count": 1
 },
 {
  "id": "c065",
  "file": "Simulate",
  "def": "irfLength",
  "old": "| .trajectory tr => tr.rows.length",
  "new": "| .trajectory _ => len",
  "claim": "C38 length of a given trajectory",
  "edit": "`| .trajectory tr => tr.rows.length` -> `| .trajectory _ => len`",
  "count": 1
 },
 {
  "id": "c066",
  "file": "Simulate",
  "def": "impulseResponse",
  "old": "buildTrajectory chol orthogonalize z md len all with",
  "new": "buildTrajectory chol orthogonalize z md len sel with",
  "claim": "C37 individual responses start from the full vector",
  "edit": "`buildTrajectory chol orthogonalize z md len all with` -> `buildTrajectory chol orthogonalize z md len sel with`",
  "count": 1
 },
 {
  "id": "c067",
  "file": "Simulate",
  "def": "impulseResponse",
  "old": "filter fun i => names i ∈ sel",
  "new": "filter fun _ => true",
  "claim": "C38 one response per selected shock",
  "edit": "`filter fun i => names i ∈ sel` -> `filter fun _ => true`",
  "count": 1
 },
 {
  "id": "c068",
  "file": "Simulate",
  "def": "simulateOne",
  "old": "es.scanl (fun x e => T *ᵥ x + R *ᵥ e) (R *ᵥ e)",
  "new": "es.scanl (fun x e => T *ᵥ x + R *ᵥ e) 0",
  "claim": "C37 simulation starts with the first shock",
  "edit": "`es.scanl (fun x e => T *ᵥ x + R *ᵥ e) (R *ᵥ e)` -> `es.scanl (fun x e => T *ᵥ x + R *ᵥ e) 0`",
  "count": 1
 }
]