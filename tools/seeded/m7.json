[
 {
  "id": "g001",
  "file": "Diagnostics",
  "def": "gEconRep",
  "old": "R' := PP.submatrix id Subtype.val",
  "new": "R' := T.submatrix id Subtype.val",
  "claim": "C88 truncated solution used",
  "edit": "`R' := PP.submatrix id Subtype.val` -> `R' := T.submatrix id Subtype.val`",
  "count": 1
 },
 {
  "id": "g002",
  "file": "Diagnostics",
  "def": "gEconRep",
  "old": "S' := QQ }",
  "new": "S' := R }",
  "claim": "C88 truncated impact used",
  "edit": "`S' := QQ }` -> `S' := R }`",
  "count": 1
 },
 {
  "id": "g003",
  "file": "Diagnostics",
  "def": "gEconRep",
  "old": "Q := QQ.submatrix Subtype.val id\n    R",
  "new": "Q := 2 • QQ.submatrix Subtype.val id\n    R",
  "claim": "C88 representation of state impact",
  "edit": "`Q := QQ.submatrix Subtype.val id\n    R` -> `Q := 2 • QQ.submatrix Subtype.val id\n    R`",
  "count": 1
 },
 {
  "id": "g004",
  "file": "Diagnostics",
  "def": "gEconRep",
  "old": "R := PP.submatrix Subtype.val Subtype.val\n    S",
  "new": "R := 0\n    S",
  "claim": "C88 representation of jumpers",
  "edit": "`R := PP.submatrix Subtype.val Subtype.val\n    S` -> `R := 0\n    S`",
  "count": 1
 },
 {
  "id": "g005",
  "file": "Diagnostics",
  "def": "gEconRep",
  "old": "S := QQ.submatrix Subtype.val id\n    A'",
  "new": "S := 0\n    A'",
  "claim": "C88 representation of jumper impact",
  "edit": "`S := QQ.submatrix Subtype.val id\n    A'` -> `S := 0\n    A'`",
  "count": 1
 },
 {
  "id": "g006",
  "file": "Diagnostics",
  "def": "gEconRep",
  "old": "A' := A.submatrix id Subtype.val",
  "new": "A' := -A.submatrix id Subtype.val",
  "claim": "C88 norm formula",
  "edit": "`A' := A.submatrix id Subtype.val` -> `A' := -A.submatrix id Subtype.val`",
  "count": 1
 },
 {
  "id": "g007",
  "file": "Diagnostics",
  "def": "frob",
  "old": "M i j ^ 2)",
  "new": "M i j)",
  "claim": "C88 Frobenius norm",
  "edit": "`M i j ^ 2)` -> `M i j)`",
  "count": 1
 },
 {
  "id": "g008",
  "file": "Diagnostics",
  "def": "residualNorms",
  "old": "C * g.R' * g.P)",
  "new": "g.R' * g.P)",
  "claim": "C88 quadratic term",
  "edit": "`C * g.R' * g.P)` -> `g.R' * g.P)`",
  "count": 1
 },
 {
  "id": "g009",
  "file": "Diagnostics",
  "def": "residualNorms",
  "old": "C * g.R' * g.Q + D",
  "new": "C * g.R' * g.Q - D",
  "claim": "C88 stochastic norm",
  "edit": "`C * g.R' * g.Q + D` -> `C * g.R' * g.Q - D`",
  "count": 1
 },
 {
  "id": "g010",
  "file": "Diagnostics",
  "def": "solveLinear",
  "old": "let solver := if backward then \"backward_direct\".toList else solver\n  if solver = \"gensys\"",
  "new": "let solver := solver\n  if solver = \"gensys\"",
  "claim": "C89 backward-looking override",
  "edit": "`let solver := if backward then \"backward_direct\".toList else solver\n  if solver = \"gensys\"` -> `let solver := solver\n  if solver = \"gensys\"`",
  "count": 1
 },
 {
  "id": "g011",
  "file": "Diagnostics",
  "def": "solveLinear",
  "old": "modelSolveGensys m.D o onFailureError",
  "new": "modelSolveGensys m.D o false",
  "claim": "C89 error mode never returns None",
  "edit": "`modelSolveGensys m.D o onFailureError` -> `modelSolveGensys m.D o false`",
  "count": 1
 },
 {
  "id": "g012",
  "file": "Diagnostics",
  "def": "solveLinear",
  "old": "modelSolveGensys m.D o onFailureError",
  "new": "modelSolveGensys m.D o true",
  "claim": "C89 ignore mode returns None",
  "edit": "`modelSolveGensys m.D o onFailureError` -> `modelSolveGensys m.D o true`",
  "count": 1
 },
 {
  "id": "g013",
  "file": "Diagnostics",
  "def": "solveLinear",
  "old": "| .nothing => .ok none",
  "new": "| .nothing => .error .gensysFailed",
  "claim": "C89 ignore mode returns None",
  "edit": "`| .nothing => .ok none` -> `| .nothing => .error .gensysFailed`",
  "count": 1
 },
 {
  "id": "g014",
  "file": "Diagnostics",
  "def": "solveLinear",
  "old": "solveWithCR m.A m.B m.C m.D maxIter tol",
  "new": "solveWithCR m.C m.B m.A m.D maxIter tol",
  "claim": "C89 argument order",
  "edit": "`solveWithCR m.A m.B m.C m.D maxIter tol` -> `solveWithCR m.C m.B m.A m.D maxIter tol`",
  "count": 1
 },
 {
  "id": "g015",
  "file": "Diagnostics",
  "def": "solveLinear",
  "old": "    if backward then\n      match solveBackwardDirect m.A m.B m.C m.D with",
  "new": "    if true then\n      match solveBackwardDirect m.A m.B m.C m.D with",
  "claim": "C89 backward solver refused for models with leads",
  "edit": "`    if backward then\n      match solveBackwardDirect m.A m.B m.C m.D with` -> `    if true then\n      match solveBackwardDirect m.A m.B m.C m.D with`",
  "count": 1
 },
 {
  "id": "g016",
  "file": "Diagnostics",
  "def": "solveLinear",
  "old": "match solveBackwardDirect m.A m.B m.C m.D with\n      | none => .error (.numpy .singular)",
  "new": "match solveBackwardDirect m.A m.C m.B m.D with\n      | none => .error (.numpy .singular)",
  "claim": "C89 argument order",
  "edit": "`match solveBackwardDirect m.A m.B m.C m.D with\n      | none => .error (.numpy .singular)` -> `match solveBackwardDirect m.A m.C m.B m.D with\n      | none => .error (.numpy .singular)`",
  "count": 1
 },
 {
  "id": "g017",
  "file": "Diagnostics",
  "def": "solveLinear",
  "old": "else .error .unknownSolver",
  "new": "else .ok none",
  "claim": "C89 unknown solver refused",
  "edit": "`else .error .unknownSolver` -> `else .ok none`",
  "count": 1
 },
 {
  "id": "g018",
  "file": "Diagnostics",
  "def": "solveModel",
  "old": "if onFailure ≠ \"error\".toList ∧ onFailure ≠ \"ignore\".toList then",
  "new": "if onFailure ≠ \"error\".toList ∨ onFailure ≠ \"ignore\".toList then",
  "claim": "C89 on_failure validated",
  "edit": "`if onFailure ≠ \"error\".toList ∧ onFailure ≠ \"ignore\".toList then` -> `if onFailure ≠ \"error\".toList ∨ onFailure ≠ \"ignore\".toList then`",
  "count": 1
 },
 {
  "id": "g019",
  "file": "Diagnostics",
  "def": "solveModel",
  "old": "if onFailure ≠ \"error\".toList ∧ onFailure ≠ \"ignore\".toList then .error .badOnFailure",
  "new": "if False then .error .badOnFailure",
  "claim": "C89 on_failure validated",
  "edit": "`if onFailure ≠ \"error\".toList ∧ onFailure ≠ \"ignore\".toList then .error .badOnFailure` -> `if False then .error .badOnFailure`",
  "count": 1
 },
 {
  "id": "g020",
  "file": "Diagnostics",
  "def": "solveModel",
  "old": "(decide (onFailure = \"error\".toList))",
  "new": "(decide (onFailure = \"ignore\".toList))",
  "claim": "C89 failure mode",
  "edit": "`(decide (onFailure = \"error\".toList))` -> `(decide (onFailure = \"ignore\".toList))`",
  "count": 1
 },
 {
  "id": "g021",
  "file": "Diagnostics",
  "def": "solveModel",
  "old": "| some (ss, _) =>\n      match",
  "new": "| some (ss, false) => .error .steadyState\n    | some (ss, true) =>\n      match",
  "claim": "C89 finding: success flag ignored",
  "edit": "`| some (ss, _) =>\n      match` -> `| some (ss, false) => .error .steadyState\n    | some (ss, true) =>\n      match`",
  "count": 1
 },
 {
  "id": "g022",
  "file": "Diagnostics",
  "def": "Fl.gt",
  "old": "| none => false\n  | some v => decide (tol < v)",
  "new": "| none => true\n  | some v => decide (tol < v)",
  "claim": "C86 NaN norms (finding)",
  "edit": "`| none => false\n  | some v => decide (tol < v)` -> `| none => true\n  | some v => decide (tol < v)`",
  "count": 1
 },
 {
  "id": "g023",
  "file": "Diagnostics",
  "def": "Fl.gt",
  "old": "decide (tol < v)",
  "new": "decide (tol ≤ v)",
  "claim": "C86 norm boundary",
  "edit": "`decide (tol < v)` -> `decide (tol ≤ v)`",
  "count": 1
 },
 {
  "id": "g024",
  "file": "Diagnostics",
  "def": "normStep",
  "old": "if d.gt normTol then some .deterministicNorm else if s.gt normTol then some .stochasticNorm",
  "new": "if s.gt normTol then some .stochasticNorm else if d.gt normTol then some .deterministicNorm",
  "claim": "C86 first failing stage",
  "edit": "`if d.gt normTol then some .deterministicNorm else if s.gt normTol then some .stochasticNorm` -> `if s.gt normTol then some .stochasticNorm else if d.gt normTol then some .deterministicNorm`",
  "count": 1
 },
 {
  "id": "g025",
  "file": "Diagnostics",
  "def": "normStep",
  "old": "else if s.gt normTol then some .stochasticNorm else none",
  "new": "else none",
  "claim": "C86 stochastic norm checked",
  "edit": "`else if s.gt normTol then some .stochasticNorm else none` -> `else none`",
  "count": 1
 },
 {
  "id": "g026",
  "file": "Diagnostics",
  "def": "checkOneDraw",
  "old": "| .numeric => some ⟨some .steadyState, none, none⟩",
  "new": "| .numeric => none",
  "claim": "C86 numeric steady-state failures are labelled",
  "edit": "`| .numeric => some ⟨some .steadyState, none, none⟩` -> `| .numeric => none`",
  "count": 1
 },
 {
  "id": "g027",
  "file": "Diagnostics",
  "def": "checkOneDraw",
  "old": "| .ret (_, false) => some ⟨some .steadyState, none, none⟩",
  "new": "| .ret (_, false) => some ⟨some .perturbation, none, none⟩",
  "claim": "C86 label of a failed steady state",
  "edit": "`| .ret (_, false) => some ⟨some .steadyState, none, none⟩` -> `| .ret (_, false) => some ⟨some .perturbation, none, none⟩`",
  "count": 1
 },
 {
  "id": "g028",
  "file": "Diagnostics",
  "def": "checkOneDraw",
  "old": "| .ret none => some ⟨some .perturbation, none, none⟩",
  "new": "| .ret none => some ⟨none, none, none⟩",
  "claim": "C86 missing solution labelled",
  "edit": "`| .ret none => some ⟨some .perturbation, none, none⟩` -> `| .ret none => some ⟨none, none, none⟩`",
  "count": 1
 },
 {
  "id": "g029",
  "file": "Diagnostics",
  "def": "checkOneDraw",
  "old": "    | .numeric => some ⟨some .perturbation, none, none⟩\n    | .ret l",
  "new": "    | .numeric => some ⟨some .steadyState, none, none⟩\n    | .ret l",
  "claim": "C86 label of failed linearisation",
  "edit": "`    | .numeric => some ⟨some .perturbation, none, none⟩\n    | .ret l` -> `    | .numeric => some ⟨some .steadyState, none, none⟩\n    | .ret l`",
  "count": 1
 },
 {
  "id": "g030",
  "file": "Diagnostics",
  "def": "checkOneDraw",
  "old": "| .ret false => some ⟨some .blanchardKahn, none, none⟩",
  "new": "| .ret false => some ⟨none, none, none⟩",
  "claim": "C86 BK failure labelled",
  "edit": "`| .ret false => some ⟨some .blanchardKahn, none, none⟩` -> `| .ret false => some ⟨none, none, none⟩`",
  "count": 1
 },
 {
  "id": "g031",
  "file": "Diagnostics",
  "def": "checkOneDraw",
  "old": "| .numeric => none\n        | .other => none",
  "new": "| .numeric => some ⟨some .blanchardKahn, none, none⟩\n        | .other => none",
  "claim": "C86 finding: BK exceptions escape",
  "edit": "`| .numeric => none\n        | .other => none` -> `| .numeric => some ⟨some .blanchardKahn, none, none⟩\n        | .other => none`",
  "count": 1
 },
 {
  "id": "g032",
  "file": "Diagnostics",
  "def": "checkOneDraw",
  "old": "| .ret (d, s) => some ⟨normStep normTol d s, d, s⟩",
  "new": "| .ret (d, s) => some ⟨normStep normTol d s, s, d⟩",
  "claim": "C86 norms reported in their columns",
  "edit": "`| .ret (d, s) => some ⟨normStep normTol d s, d, s⟩` -> `| .ret (d, s) => some ⟨normStep normTol d s, s, d⟩`",
  "count": 1
 },
 {
  "id": "g033",
  "file": "Diagnostics",
  "def": "checkOneDraw",
  "old": "| .ret (d, s) => some ⟨normStep normTol d s, d, s⟩",
  "new": "| .ret (d, s) => some ⟨normStep normTol s d, d, s⟩",
  "claim": "C86 first failing stage",
  "edit": "`| .ret (d, s) => some ⟨normStep normTol d s, d, s⟩` -> `| .ret (d, s) => some ⟨normStep normTol s d, d, s⟩`",
  "count": 1
 },
 {
  "id": "g034",
  "file": "Diagnostics",
  "def": "checkOneDraw",
  "old": "| .numeric => some ⟨some .deterministicNorm, none, none⟩",
  "new": "| .numeric => some ⟨none, none, none⟩",
  "claim": "C86 norm failure labelled",
  "edit": "`| .numeric => some ⟨some .deterministicNorm, none, none⟩` -> `| .numeric => some ⟨none, none, none⟩`",
  "count": 1
 },
 {
  "id": "g035",
  "file": "Diagnostics",
  "def": "npCall",
  "old": "if n = 1 then .other else .numeric",
  "new": "if n = 1 then .numeric else .other",
  "claim": "C86 class of numpy errors",
  "edit": "`if n = 1 then .other else .numeric` -> `if n = 1 then .numeric else .other`",
  "count": 1
 },
 {
  "id": "g036",
  "file": "Diagnostics",
  "def": "npCall",
  "old": "| .singular => .numeric",
  "new": "| .singular => .other",
  "claim": "C86 class of numpy errors",
  "edit": "`| .singular => .numeric` -> `| .singular => .other`",
  "count": 1
 },
 {
  "id": "g037",
  "file": "Diagnostics",
  "def": "solvePerturbation",
  "old": "let effective := if backward then \"backward_direct\".toList else solver",
  "new": "let effective := solver",
  "claim": "C86 backward-looking override",
  "edit": "`let effective := if backward then \"backward_direct\".toList else solver` -> `let effective := solver`",
  "count": 1
 },
 {
  "id": "g038",
  "file": "Diagnostics",
  "def": "solvePerturbation",
  "old": "solvePolicyCR m.A m.B m.C m.D maxIter tol",
  "new": "solvePolicyCR m.C m.B m.A m.D maxIter tol",
  "claim": "C86/C89 same solver",
  "edit": "`solvePolicyCR m.A m.B m.C m.D maxIter tol` -> `solvePolicyCR m.C m.B m.A m.D maxIter tol`",
  "count": 1
 },
 {
  "id": "g039",
  "file": "Diagnostics",
  "def": "solvePerturbation",
  "old": "if eu.1 = 1 ∧ eu.2.1 = 1 then .ret (some",
  "new": "if eu.1 = 1 then .ret (some",
  "claim": "C86 uniqueness required",
  "edit": "`if eu.1 = 1 ∧ eu.2.1 = 1 then .ret (some` -> `if eu.1 = 1 then .ret (some`",
  "count": 1
 },
 {
  "id": "g040",
  "file": "Diagnostics",
  "def": "solvePerturbation",
  "old": "if eu.1 = 1 ∧ eu.2.1 = 1 then .ret (some",
  "new": "if eu.1 = 1 ∨ eu.2.1 = 1 then .ret (some",
  "claim": "C86 both codes required",
  "edit": "`if eu.1 = 1 ∧ eu.2.1 = 1 then .ret (some` -> `if eu.1 = 1 ∨ eu.2.1 = 1 then .ret (some`",
  "count": 1
 },
 {
  "id": "g041",
  "file": "Diagnostics",
  "def": "solvePerturbation",
  "old": "  else .numeric\n\n/-- the tolerance",
  "new": "  else .ret none\n\n/-- the tolerance",
  "claim": "C86 unknown solver (same label)",
  "edit": "`  else .numeric\n\n/-- the tolerance` -> `  else .ret none\n\n/-- the tolerance`",
  "count": 1
 },
 {
  "id": "g042",
  "file": "Diagnostics",
  "def": "solvePerturbation",
  "old": "| (none, _) => .ret none",
  "new": "| (none, _) => .other",
  "claim": "C86 gensys without solution",
  "edit": "`| (none, _) => .ret none` -> `| (none, _) => .other`",
  "count": 1
 },
 {
  "id": "g043",
  "file": "Diagnostics",
  "def": "bkCall",
  "old": "(bkForward m.C bkTol)",
  "new": "(bkForward m.A bkTol)",
  "claim": "C86 BK counts leads",
  "edit": "`(bkForward m.C bkTol)` -> `(bkForward m.A bkTol)`",
  "count": 1
 },
 {
  "id": "g044",
  "file": "Diagnostics",
  "def": "bkCall",
  "old": "| .ok (.flag b) _ _ _ => .ret b",
  "new": "| .ok (.flag b) _ _ _ => .ret (!b)",
  "claim": "C86 BK verdict",
  "edit": "`| .ok (.flag b) _ _ _ => .ret b` -> `| .ok (.flag b) _ _ _ => .ret (!b)`",
  "count": 1
 },
 {
  "id": "g045",
  "file": "Diagnostics",
  "def": "checkDraw",
  "old": ".ret (some r.1, some r.2)) normTol u",
  "new": ".ret (some r.2, some r.1)) normTol u",
  "claim": "C86 norms swapped",
  "edit": "`.ret (some r.1, some r.2)) normTol u` -> `.ret (some r.2, some r.1)) normTol u`",
  "count": 1
 },
 {
  "id": "g046",
  "file": "Diagnostics",
  "def": "checkDraw",
  "old": "residualNorms m.A m.B m.C m.D p.1 p.2 tol",
  "new": "residualNorms m.C m.B m.A m.D p.1 p.2 tol",
  "claim": "C86 norms of the model",
  "edit": "`residualNorms m.A m.B m.C m.D p.1 p.2 tol` -> `residualNorms m.C m.B m.A m.D p.1 p.2 tol`",
  "count": 1
 },
 {
  "id": "g047",
  "file": "Diagnostics",
  "def": "isIdentifier",
  "old": "(c.isAlpha || c == '_')",
  "new": "(c.isAlphanum || c == '_')",
  "claim": "C86 parameters",
  "edit": "`(c.isAlpha || c == '_')` -> `(c.isAlphanum || c == '_')`",
  "count": 1
 },
 {
  "id": "g048",
  "file": "Diagnostics",
  "def": "badField",
  "old": "|| decide (name ∈ pyKeywords)",
  "new": "",
  "claim": "C86 finding: keywords",
  "edit": "`|| decide (name ∈ pyKeywords)` -> ``",
  "count": 1
 },
 {
  "id": "g049",
  "file": "Diagnostics",
  "def": "badField",
  "old": "|| decide (name ∈ seen)",
  "new": "",
  "claim": "C86 duplicates renamed",
  "edit": "`|| decide (name ∈ seen)` -> ``",
  "count": 1
 },
 {
  "id": "g050",
  "file": "Diagnostics",
  "def": "renameFields",
  "old": "renameFields (i + 1) (name :: seen) rest",
  "new": "renameFields (i + 2) (name :: seen) rest",
  "claim": "C86 renamed positions",
  "edit": "`renameFields (i + 1) (name :: seen) rest` -> `renameFields (i + 2) (name :: seen) rest`",
  "count": 1
 },
 {
  "id": "g051",
  "file": "Diagnostics",
  "def": "paramDict",
  "old": ".filter fun p => decide (p.1 ≠ indexName)",
  "new": "",
  "claim": "C86 the row label is no parameter",
  "edit": "`.filter fun p => decide (p.1 ≠ indexName)` -> ``",
  "count": 1
 },
 {
  "id": "g052",
  "file": "Diagnostics",
  "def": "paramDict",
  "old": "(row.1 :: row.2)",
  "new": "row.2",
  "claim": "C86 values aligned with names",
  "edit": "`(row.1 :: row.2)` -> `row.2`",
  "count": 1
 },
 {
  "id": "g053",
  "file": "Diagnostics",
  "def": "runParallel",
  "old": "(finished.filterMap fun i => us[i]?).mapM check",
  "new": "us.mapM check",
  "claim": "C86 finding: order of completion",
  "edit": "`(finished.filterMap fun i => us[i]?).mapM check` -> `us.mapM check`",
  "count": 1
 },
 {
  "id": "g054",
  "file": "Diagnostics",
  "def": "solvabilityCheck",
  "old": "if cores = 1 then .ok (runSerial check dicts)\n    else if cores < 1",
  "new": "if cores ≤ 1 then .ok (runSerial check dicts)\n    else if cores < 1",
  "claim": "C86 cores validated",
  "edit": "`if cores = 1 then .ok (runSerial check dicts)\n    else if cores < 1` -> `if cores ≤ 1 then .ok (runSerial check dicts)\n    else if cores < 1`",
  "count": 1
 },
 {
  "id": "g055",
  "file": "Diagnostics",
  "def": "solvabilityCheck",
  "old": "| .ok (some []) => .error .noSamples\n",
  "new": "",
  "claim": "C86 empty samples",
  "edit": "`| .ok (some []) => .error .noSamples\n` -> ``",
  "count": 1
 },
 {
  "id": "g056",
  "file": "Diagnostics",
  "def": "solvabilityCheck",
  "old": ".ok (f.rows.zip results)",
  "new": ".ok (f.rows.zip results.reverse)",
  "claim": "C86 rows aligned",
  "edit": "`.ok (f.rows.zip results)` -> `.ok (f.rows.zip results.reverse)`",
  "count": 1
 },
 {
  "id": "g057",
  "file": "Diagnostics",
  "def": "collectPriors",
  "old": "decide (x ∉ dkeys priors)",
  "new": "decide (x ∈ dkeys priors)",
  "claim": "C86 unknown names refused",
  "edit": "`decide (x ∉ dkeys priors)` -> `decide (x ∈ dkeys priors)`",
  "count": 1
 },
 {
  "id": "g058",
  "file": "Diagnostics",
  "def": "collectPriors",
  "old": "priors.filter fun p => decide (p.1 ∈ ns)",
  "new": "priors.filter fun p => decide (p.1 ∉ ns)",
  "claim": "C86 subset",
  "edit": "`priors.filter fun p => decide (p.1 ∈ ns)` -> `priors.filter fun p => decide (p.1 ∉ ns)`",
  "count": 1
 },
 {
  "id": "g059",
  "file": "Diagnostics",
  "def": "collectPriors",
  "old": "if unknown.isEmpty then .ok (priors.filter fun p => decide (p.1 ∈ ns)) else .error (.unknown unknown)",
  "new": ".ok (priors.filter fun p => decide (p.1 ∈ ns))",
  "claim": "C86 unknown names refused",
  "edit": "`if unknown.isEmpty then .ok (priors.filter fun p => decide (p.1 ∈ ns)) else .error (.unknown unknown)` -> `.ok (priors.filter fun p => decide (p.1 ∈ ns))`",
  "count": 1
 },
 {
  "id": "g060",
  "file": "Diagnostics",
  "def": "collectPriors",
  "old": "if priors.isEmpty then .error .noPriors\n  else",
  "new": "if false then .error .noPriors\n  else",
  "claim": "C86 no priors refused",
  "edit": "`if priors.isEmpty then .error .noPriors\n  else` -> `if false then .error .noPriors\n  else`",
  "count": 1
 },
 {
  "id": "g061",
  "file": "Diagnostics",
  "def": "SeedArg.forQmc",
  "old": "| .int k => Option.some k",
  "new": "| .int k => Option.some (k + 1)",
  "claim": "C87 seed used (values not observable: equivalent up to relabelling)",
  "edit": "`| .int k => Option.some k` -> `| .int k => Option.some (k + 1)`",
  "count": 1
 },
 {
  "id": "g062",
  "file": "Diagnostics",
  "def": "SeedArg.forQmc",
  "old": "| .int k => Option.some k",
  "new": "| .int _ => Option.none",
  "claim": "C87 reproducibility",
  "edit": "`| .int k => Option.some k` -> `| .int _ => Option.none`",
  "count": 1
 },
 {
  "id": "g063",
  "file": "Diagnostics",
  "def": "sobolRefuses",
  "old": "n &&& (n - 1) ≠ 0",
  "new": "n &&& (n + 1) ≠ 0",
  "claim": "C87 powers of two",
  "edit": "`n &&& (n - 1) ≠ 0` -> `n &&& (n + 1) ≠ 0`",
  "count": 1
 },
 {
  "id": "g064",
  "file": "Diagnostics",
  "def": "sobolRefuses",
  "old": "n &&& (n - 1) ≠ 0",
  "new": "n % 2 ≠ 0",
  "claim": "C87 powers of two",
  "edit": "`n &&& (n - 1) ≠ 0` -> `n % 2 ≠ 0`",
  "count": 1
 },
 {
  "id": "g065",
  "file": "Diagnostics",
  "def": "engineOf",
  "old": "if method = \"lhs\".toList then some .lhs\n  else if method = \"sobol\"",
  "new": "if method = \"lhs\".toList then some .sobol\n  else if method = \"sobol\"",
  "claim": "C87 engine",
  "edit": "`if method = \"lhs\".toList then some .lhs\n  else if method = \"sobol\"` -> `if method = \"lhs\".toList then some .sobol\n  else if method = \"sobol\"`",
  "count": 1
 },
 {
  "id": "g066",
  "file": "Diagnostics",
  "def": "engineOf",
  "old": "else if method = \"halton\".toList then some .halton\n  else if method = \"poisson_disk\"",
  "new": "else if method = \"poisson_disk\"",
  "claim": "C87 methods",
  "edit": "`else if method = \"halton\".toList then some .halton\n  else if method = \"poisson_disk\"` -> `else if method = \"poisson_disk\"`",
  "count": 1
 },
 {
  "id": "g067",
  "file": "Diagnostics",
  "def": "qmcScale",
  "old": "p.1 < p.2 then",
  "new": "p.1 ≤ p.2 then",
  "claim": "C87 bounds ordered",
  "edit": "`p.1 < p.2 then` -> `p.1 ≤ p.2 then`",
  "count": 1
 },
 {
  "id": "g068",
  "file": "Diagnostics",
  "def": "qmcScale",
  "old": "x * (p.2 - p.1) + p.1",
  "new": "x * p.2 + p.1",
  "claim": "C87 within bounds",
  "edit": "`x * (p.2 - p.1) + p.1` -> `x * p.2 + p.1`",
  "count": 1
 },
 {
  "id": "g069",
  "file": "Diagnostics",
  "def": "qmcScale",
  "old": "x * (p.2 - p.1) + p.1",
  "new": "x * (p.1 - p.2) + p.1",
  "claim": "C87 within bounds",
  "edit": "`x * (p.2 - p.1) + p.1` -> `x * (p.1 - p.2) + p.1`",
  "count": 1
 },
 {
  "id": "g070",
  "file": "Diagnostics",
  "def": "qmcScale",
  "old": "0 ≤ x ∧ x ≤ 1 then",
  "new": "0 ≤ x then",
  "claim": "C87 within bounds",
  "edit": "`0 ≤ x ∧ x ≤ 1 then` -> `0 ≤ x then`",
  "count": 1
 },
 {
  "id": "g071",
  "file": "Diagnostics",
  "def": "sampleUniform",
  "old": "if method = \"sobol\".toList ∧ sobolRefuses n then .error .notPowerOfTwo\n  else\n    let unit",
  "new": "if False then .error .notPowerOfTwo\n  else\n    let unit",
  "claim": "C87 Sobol sizes",
  "edit": "`if method = \"sobol\".toList ∧ sobolRefuses n then .error .notPowerOfTwo\n  else\n    let unit` -> `if False then .error .notPowerOfTwo\n  else\n    let unit`",
  "count": 1
 },
 {
  "id": "g072",
  "file": "Diagnostics",
  "def": "sampleUniform",
  "old": "src.uniform d n seed ω",
  "new": "src.uniform n d seed ω",
  "claim": "C87 shape",
  "edit": "`src.uniform d n seed ω` -> `src.uniform n d seed ω`",
  "count": 1
 },
 {
  "id": "g073",
  "file": "Diagnostics",
  "def": "sampleUniform",
  "old": "src.unit e d n seed.forQmc ω\n    match",
  "new": "src.unit e d n none ω\n    match",
  "claim": "C87 reproducibility",
  "edit": "`src.unit e d n seed.forQmc ω\n    match` -> `src.unit e d n none ω\n    match`",
  "count": 1
 },
 {
  "id": "g074",
  "file": "Diagnostics",
  "def": "sampleUniform",
  "old": "qmcScale pts l u",
  "new": "qmcScale pts u l",
  "claim": "C87 bounds",
  "edit": "`qmcScale pts l u` -> `qmcScale pts u l`",
  "count": 1
 },
 {
  "id": "g075",
  "file": "Diagnostics",
  "def": "sampleUniform",
  "old": "let l := bounds.map fun b => b.2.1",
  "new": "let l := (bounds.map fun b => b.2.1).reverse",
  "claim": "C87 own bounds",
  "edit": "`let l := bounds.map fun b => b.2.1` -> `let l := (bounds.map fun b => b.2.1).reverse`",
  "count": 1
 },
 {
  "id": "g076",
  "file": "Diagnostics",
  "def": "boundsFromPriors",
  "old": "(x.2.ppf (1 - p), x.2.ppf p)",
  "new": "(x.2.ppf ((1 - p) / 2), x.2.ppf ((1 + p) / 2))",
  "claim": "C87 finding: fallback",
  "edit": "`(x.2.ppf (1 - p), x.2.ppf p)` -> `(x.2.ppf ((1 - p) / 2), x.2.ppf ((1 + p) / 2))`",
  "count": 1
 },
 {
  "id": "g077",
  "file": "Diagnostics",
  "def": "boundsFromPriors",
  "old": "(x.2.hdi p)",
  "new": "(x.2.hdi (1 - p))",
  "claim": "C87 hdi probability",
  "edit": "`(x.2.hdi p)` -> `(x.2.hdi (1 - p))`",
  "count": 1
 },
 {
  "id": "g078",
  "file": "Diagnostics",
  "def": "ppfEngineOf",
  "old": "if method = \"sobol\".toList then some .sobol\n  else if method = \"halton\".toList then some .halton\n  else if method = \"lhs\"",
  "new": "if method = \"sobol\".toList then some .lhs\n  else if method = \"halton\".toList then some .halton\n  else if method = \"lhs\"",
  "claim": "C87 engine",
  "edit": "`if method = \"sobol\".toList then some .sobol\n  else if method = \"halton\".toList then some .halton\n  else if method = \"lhs\"` -> `if method = \"sobol\".toList then some .lhs\n  else if method = \"halton\".toList then some .halton\n  else if method = \"lhs\"`",
  "count": 1
 },
 {
  "id": "g079",
  "file": "Diagnostics",
  "def": "clip",
  "old": "min (max x eps) (1 - eps)",
  "new": "max (min x eps) (1 - eps)",
  "claim": "C87 clip",
  "edit": "`min (max x eps) (1 - eps)` -> `max (min x eps) (1 - eps)`",
  "count": 1
 },
 {
  "id": "g080",
  "file": "Diagnostics",
  "def": "clip",
  "old": "min (max x eps) (1 - eps)",
  "new": "max x eps",
  "claim": "C87 clip",
  "edit": "`min (max x eps) (1 - eps)` -> `max x eps`",
  "count": 1
 },
 {
  "id": "g081",
  "file": "Diagnostics",
  "def": "sampleFromPriorsQmc",
  "old": "q.2.ppf (clip eps x)",
  "new": "q.2.ppf x",
  "claim": "C87 clip",
  "edit": "`q.2.ppf (clip eps x)` -> `q.2.ppf x`",
  "count": 1
 },
 {
  "id": "g082",
  "file": "Diagnostics",
  "def": "sampleFromPriorsQmc",
  "old": "if method = \"sobol\".toList ∧ sobolRefuses n then .error .notPowerOfTwo\n  else\n    match",
  "new": "if False then .error .notPowerOfTwo\n  else\n    match",
  "claim": "C87 Sobol sizes (ppf)",
  "edit": "`if method = \"sobol\".toList ∧ sobolRefuses n then .error .notPowerOfTwo\n  else\n    match` -> `if False then .error .notPowerOfTwo\n  else\n    match`",
  "count": 1
 },
 {
  "id": "g083",
  "file": "Diagnostics",
  "def": "sampleFromPriorsQmc",
  "old": "let pts := src.unit e d n seed.forQmc ω",
  "new": "let pts := src.unit e d n none ω",
  "claim": "C87 reproducibility (ppf)",
  "edit": "`let pts := src.unit e d n seed.forQmc ω` -> `let pts := src.unit e d n none ω`",
  "count": 1
 },
 {
  "id": "g084",
  "file": "Diagnostics",
  "def": "sampleFromPriorsQmc",
  "old": "| none => .error .unknownMethod\n    | some e =>\n      let pts",
  "new": "| none => .ok ⟨dkeys priors, []⟩\n    | some e =>\n      let pts",
  "claim": "C87 unknown method refused (ppf)",
  "edit": "`| none => .error .unknownMethod\n    | some e =>\n      let pts` -> `| none => .ok ⟨dkeys priors, []⟩\n    | some e =>\n      let pts`",
  "count": 1
 },
 {
  "id": "g085",
  "file": "Diagnostics",
  "def": "samplerOf",
  "old": "method.length - 4",
  "new": "method.length - 3",
  "claim": "C86 dispatch",
  "edit": "`method.length - 4` -> `method.length - 3`",
  "count": 1
 },
 {
  "id": "g086",
  "file": "Diagnostics",
  "def": "samplerOf",
  "old": "if method = \"random\".toList then .rvs\n  else if",
  "new": "if",
  "claim": "C86 dispatch",
  "edit": "`if method = \"random\".toList then .rvs\n  else if` -> `if`",
  "count": 1
 },
 {
  "id": "g087",
  "file": "Cache",
  "def": "Lru.call",
  "old": "(k, v) :: s.entries.filter fun e => decide (e.1 ≠ k), hits",
  "new": "s.entries, hits",
  "claim": "C90 recency on hit",
  "edit": "`(k, v) :: s.entries.filter fun e => decide (e.1 ≠ k), hits` -> `s.entries, hits`",
  "count": 1
 },
 {
  "id": "g088",
  "file": "Cache",
  "def": "Lru.call",
  "old": "((k, v) :: s.entries).take cap",
  "new": "(s.entries ++ [(k, v)]).take cap",
  "claim": "C90 eviction order",
  "edit": "`((k, v) :: s.entries).take cap` -> `(s.entries ++ [(k, v)]).take cap`",
  "count": 1
 },
 {
  "id": "g089",
  "file": "Cache",
  "def": "Lru.call",
  "old": "((k, v) :: s.entries).take cap",
  "new": "((k, v) :: s.entries)",
  "claim": "C90 size",
  "edit": "`((k, v) :: s.entries).take cap` -> `((k, v) :: s.entries)`",
  "count": 1
 },
 {
  "id": "g090",
  "file": "Cache",
  "def": "Lru.call",
  "old": "misses := s.misses + 1",
  "new": "misses := s.misses",
  "claim": "C90 counters",
  "edit": "`misses := s.misses + 1` -> `misses := s.misses`",
  "count": 1
 },
 {
  "id": "g091",
  "file": "Cache",
  "def": "Lru.call",
  "old": "| some v => (v, {",
  "new": "| some _ => (compute k, {",
  "claim": "equivalent (returns the same value)",
  "edit": "`| some v => (v, {` -> `| some _ => (compute k, {`",
  "count": 1
 },
 {
  "id": "g092",
  "file": "Cache",
  "def": "Lru.run",
  "old": "| _, .clear :: ops => Lru.run cap compute Lru.empty ops",
  "new": "| s, .clear :: ops => Lru.run cap compute s ops",
  "claim": "C90 clear empties the cache",
  "edit": "`| _, .clear :: ops => Lru.run cap compute Lru.empty ops` -> `| s, .clear :: ops => Lru.run cap compute s ops`",
  "count": 1
 },
 {
  "id": "g093",
  "file": "Cache",
  "def": "nodeOf",
  "old": "next := s.next + 1 })\n\n/-- the loop",
  "new": "next := s.next })\n\n/-- the loop",
  "claim": "C90 distinct nodes",
  "edit": "`next := s.next + 1 })\n\n/-- the loop` -> `next := s.next })\n\n/-- the loop`",
  "count": 1
 },
 {
  "id": "g094",
  "file": "Cache",
  "def": "nodeOf",
  "old": "| some i => (i, s)",
  "new": "| some _ => (s.next, { s with next := s.next + 1 })",
  "claim": "C90 same node",
  "edit": "`| some i => (i, s)` -> `| some _ => (s.next, { s with next := s.next + 1 })`",
  "count": 1
 },
 {
  "id": "g095",
  "file": "Cache",
  "def": "nodeOf",
  "old": "nodes := s.nodes ++ [(key, s.next)], next",
  "new": "nodes := s.nodes, next",
  "claim": "C90 same node",
  "edit": "`nodes := s.nodes ++ [(key, s.next)], next` -> `nodes := s.nodes, next`",
  "count": 1
 },
 {
  "id": "g096",
  "file": "Cache",
  "def": "nodesOf",
  "old": "let rest := nodesOf r.2 ks",
  "new": "let rest := nodesOf s ks",
  "claim": "C90 nodes kept",
  "edit": "`let rest := nodesOf r.2 ks` -> `let rest := nodesOf s ks`",
  "count": 1
 },
 {
  "id": "g097",
  "file": "Cache",
  "def": "equationTensors",
  "old": "{ s with eqs := some (build true) }",
  "new": "{ s with fullEqs := some (build true) }",
  "claim": "C90 the two lists are separate",
  "edit": "`{ s with eqs := some (build true) }` -> `{ s with fullEqs := some (build true) }`",
  "count": 1
 },
 {
  "id": "g098",
  "file": "Cache",
  "def": "equationTensors",
  "old": "| none => (build false, { s with fullEqs := some (build false) })",
  "new": "| none => (build true, { s with fullEqs := some (build true) })",
  "claim": "C90 unfiltered equations",
  "edit": "`| none => (build false, { s with fullEqs := some (build false) })` -> `| none => (build true, { s with fullEqs := some (build true) })`",
  "count": 1
 },
 {
  "id": "g099",
  "file": "Cache",
  "def": "loglinSelected",
  "old": "!p.2",
  "new": "p.2",
  "claim": "C90 selection",
  "edit": "`!p.2` -> `p.2`",
  "count": 1
 },
 {
  "id": "g100",
  "file": "Cache",
  "def": "symbolicLinearization",
  "old": "let key := names.toFinset",
  "new": "let key := vars.toFinset",
  "claim": "C90 cache key distinguishes choices",
  "edit": "`let key := names.toFinset` -> `let key := vars.toFinset`",
  "count": 1
 },
 {
  "id": "g101",
  "file": "Cache",
  "def": "symbolicLinearization",
  "old": "next := s.next + 1 })\n\n/-- the compiled",
  "new": "next := s.next })\n\n/-- the compiled",
  "claim": "C90 identities of graphs",
  "edit": "`next := s.next + 1 })\n\n/-- the compiled` -> `next := s.next })\n\n/-- the compiled`",
  "count": 1
 },
 {
  "id": "g102",
  "file": "Cache",
  "def": "linearizeFunction",
  "old": "| some f => (f, g.2)\n",
  "new": "| some f => (f, s)\n",
  "claim": "C90 (state)",
  "edit": "`| some f => (f, g.2)\n` -> `| some f => (f, s)\n`",
  "count": 1
 },
 {
  "id": "g103",
  "file": "Cache",
  "def": "linearizeFunction",
  "old": "g.2.lin ++ [(g.1.1, compile g.1.2)]",
  "new": "g.2.lin ++ [(0, compile g.1.2)]",
  "claim": "C90 compiled function keyed by its graph",
  "edit": "`g.2.lin ++ [(g.1.1, compile g.1.2)]` -> `g.2.lin ++ [(0, compile g.1.2)]`",
  "count": 1
 }
]