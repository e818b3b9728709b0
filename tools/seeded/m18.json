[
 {
  "id": "w000",
  "file": "PFSolve",
  "old": "  | Option.none => .error .steady\n\nopen",
  "new": "  | Option.none => .ok []\n\nopen",
  "claim": "C132 a missing steady state stops the run",
  "edit": "`  | Option.none => .error .steady\n\nopen` -> `  | Option.none => .ok []\n\nopen`",
  "count": 1,
  "def": "computeSS"
 },
 {
  "id": "w001",
  "file": "PFSolve",
  "old": "| .steady d => .ok (d, d)",
  "new": "| .steady d => .ok (d, [])",
  "claim": "C132 the given steady state at both ends",
  "edit": "`| .steady d => .ok (d, d)` -> `| .steady d => .ok (d, [])`",
  "count": 1,
  "def": "steadyDicts"
 },
 {
  "id": "w002",
  "file": "PFSolve",
  "old": "(if last \u2260 first then computeSS steady last else .ok i)",
  "new": "(if last = first then computeSS steady last else .ok i)",
  "claim": "C132 final steady state for the final parameters",
  "edit": "`(if last \u2260 first then computeSS steady last else .ok i)` -> `(if last = first then computeSS steady last else .ok i)`",
  "count": 1,
  "def": "steadyDicts"
 },
 {
  "id": "w003",
  "file": "PFSolve",
  "old": "      | .ok t => .ok (i, t)\n  | .frame",
  "new": "      | .ok t => .ok (t, i)\n  | .frame",
  "claim": "C132 swapped steady states",
  "edit": "`      | .ok t => .ok (i, t)\n  | .frame` -> `      | .ok t => .ok (t, i)\n  | .frame`",
  "count": 1,
  "def": "steadyDicts"
 },
 {
  "id": "w004",
  "file": "PFSolve",
  "old": "(if needsInitial then computeSS steady first else .ok [])",
  "new": "(if needsTerminal then computeSS steady first else .ok [])",
  "claim": "C132 initial dictionary with a table",
  "edit": "`(if needsInitial then computeSS steady first else .ok [])` -> `(if needsTerminal then computeSS steady first else .ok [])`",
  "count": 1,
  "def": "steadyDicts"
 },
 {
  "id": "w005",
  "file": "PFSolve",
  "old": "(if needsInitial \u2227 last = first then .ok i else computeSS steady last)",
  "new": "(if last = first then .ok i else computeSS steady last)",
  "claim": "C132 reuse only if computed",
  "edit": "`(if needsInitial \u2227 last = first then .ok i else computeSS steady last)` -> `(if last = first then .ok i else computeSS steady last)`",
  "count": 1,
  "def": "steadyDicts"
 },
 {
  "id": "w006",
  "file": "PFSolve",
  "old": "else computeSS steady last) else .ok [])",
  "new": "else computeSS steady first) else .ok [])",
  "claim": "C132 final parameters",
  "edit": "`else computeSS steady last) else .ok [])` -> `else computeSS steady first) else .ok [])`",
  "count": 1,
  "def": "steadyDicts"
 },
 {
  "id": "w007",
  "file": "PFSolve",
  "old": "((ssToArray init names)[i % names.length]?).getD 0",
  "new": "((ssToArray init names)[i]?).getD 0",
  "claim": "C132 the start is the steady state in every period",
  "edit": "`((ssToArray init names)[i % names.length]?).getD 0` -> `((ssToArray init names)[i]?).getD 0`",
  "count": 1,
  "def": "guessVector"
 },
 {
  "id": "w008",
  "file": "PFSolve",
  "old": "if rows \u2260 T \u2228 \u00ac cols.Nodup then",
  "new": "if rows \u2260 T then",
  "claim": "C132 columns twice",
  "edit": "`if rows \u2260 T \u2228 \u00ac cols.Nodup then` -> `if rows \u2260 T then`",
  "count": 1,
  "def": "guessVector"
 },
 {
  "id": "w009",
  "file": "PFSolve",
  "old": "if rows \u2260 T \u2228 \u00ac cols.Nodup then",
  "new": "if \u00ac cols.Nodup then",
  "claim": "C132 rows of the table",
  "edit": "`if rows \u2260 T \u2228 \u00ac cols.Nodup then` -> `if \u00ac cols.Nodup then`",
  "count": 1,
  "def": "guessVector"
 },
 {
  "id": "w010",
  "file": "PFSolve",
  "old": "v (i / names.length) (((names[i % names.length]?).map cols.idxOf).getD 0)",
  "new": "v (i / names.length) (i % names.length)",
  "claim": "C132 columns matched by name",
  "edit": "`v (i / names.length) (((names[i % names.length]?).map cols.idxOf).getD 0)` -> `v (i / names.length) (i % names.length)`",
  "count": 1,
  "def": "guessVector"
 },
 {
  "id": "w011",
  "file": "PFSolve",
  "old": "if rows \u2260 T \u2228 cols \u2260 names.length then .error",
  "new": "if rows \u2260 T then .error",
  "claim": "C132 array width",
  "edit": "`if rows \u2260 T \u2228 cols \u2260 names.length then .error` -> `if rows \u2260 T then .error`",
  "count": 1,
  "def": "guessVector"
 },
 {
  "id": "w012",
  "file": "PFSolve",
  "old": ".ok fun i => v (i / names.length) (i % names.length)\n",
  "new": ".ok fun i => v (i % names.length) (i / names.length)\n",
  "claim": "C132 array transposed",
  "edit": "`.ok fun i => v (i / names.length) (i % names.length)\n` -> `.ok fun i => v (i % names.length) (i / names.length)\n`",
  "count": 1,
  "def": "guessVector"
 },
 {
  "id": "w013",
  "file": "PFSolve",
  "old": "if h : i < N then x \u27e8i, h\u27e9 else 0",
  "new": "if h : i < N \u2227 i \u2260 0 then x \u27e8i, h.1\u27e9 else 0",
  "claim": "C132 vector read",
  "edit": "`if h : i < N then x \u27e8i, h\u27e9 else 0` -> `if h : i < N \u2227 i \u2260 0 then x \u27e8i, h.1\u27e9 else 0`",
  "count": 1,
  "def": "flat"
 },
 {
  "id": "w014",
  "file": "PFSolve",
  "old": "(flat y) yInit yTerm x params n n T\n  (fun i",
  "new": "(flat y) yTerm yInit x params n n T\n  (fun i",
  "claim": "C132 boundaries swapped in the system",
  "edit": "`(flat y) yInit yTerm x params n n T\n  (fun i` -> `(flat y) yTerm yInit x params n n T\n  (fun i`",
  "count": 1,
  "def": "pfSystem"
 },
 {
  "id": "w015",
  "file": "PFSolve",
  "old": "cooAt s.2 i j",
  "new": "cooAt s.2 j i",
  "claim": "C132 jacobian transposed",
  "edit": "`cooAt s.2 i j` -> `cooAt s.2 j i`",
  "count": 1,
  "def": "pfSystem"
 },
 {
  "id": "w016",
  "file": "PFSolve",
  "old": "stackedResiduals f.residual (flat y) yInit yTerm x",
  "new": "stackedResiduals f.residual (flat y) yInit yInit x",
  "claim": "C132 merit of the same system",
  "edit": "`stackedResiduals f.residual (flat y) yInit yTerm x` -> `stackedResiduals f.residual (flat y) yInit yInit x`",
  "count": 1,
  "def": "pfMerit"
 },
 {
  "id": "w017",
  "file": "PFSolve",
  "old": "c1 := 1e-4, beta := 0.5, maxIter := 50, meritFun := some g",
  "new": "c1 := 1e-4, beta := 0.5, maxIter := 50, meritFun := none",
  "claim": "C132 default merit",
  "edit": "`c1 := 1e-4, beta := 0.5, maxIter := 50, meritFun := some g` -> `c1 := 1e-4, beta := 0.5, maxIter := 50, meritFun := none`",
  "count": 1,
  "def": "defaultSolver"
 },
 {
  "id": "w018",
  "file": "PFSolve",
  "old": "c1 := 1e-4, beta := 0.5",
  "new": "c1 := -1e-4, beta := 0.5",
  "claim": "C132 default never increases",
  "edit": "`c1 := 1e-4, beta := 0.5` -> `c1 := -1e-4, beta := 0.5`",
  "count": 1,
  "def": "defaultSolver"
 },
 {
  "id": "w019",
  "file": "PFSolve",
  "old": "1e-10 1e-10 1000",
  "new": "1e-2 1e-10 1000",
  "claim": "C132 tolerance",
  "edit": "`1e-10 1e-10 1000` -> `1e-2 1e-10 1000`",
  "count": 1,
  "def": "runSolver"
 },
 {
  "id": "w020",
  "file": "PFSolve",
  "old": "1e-10 1e-10 1000",
  "new": "1e-10 1e-10 1",
  "claim": "C132 iterations",
  "edit": "`1e-10 1e-10 1000` -> `1e-10 1e-10 1`",
  "count": 1,
  "def": "runSolver"
 },
 {
  "id": "w021",
  "file": "PFSolve",
  "old": "flat r.final.x (t * n + k)",
  "new": "flat r.final.x (k * T + t)",
  "claim": "C132 reshape",
  "edit": "`flat r.final.x (t * n + k)` -> `flat r.final.x (k * T + t)`",
  "count": 1,
  "def": "runSolver"
 },
 {
  "id": "w022",
  "file": "PFSolve",
  "old": "let yt := fun i => (yTerm[i]?).getD 0",
  "new": "let yt := fun i => (yInit[i]?).getD 0",
  "claim": "C132 terminal values",
  "edit": "`let yt := fun i => (yTerm[i]?).getD 0` -> `let yt := fun i => (yInit[i]?).getD 0`",
  "count": 1,
  "def": "runSolver"
 },
 {
  "id": "w023",
  "file": "PFSolve",
  "old": "columns := c.varNames",
  "new": "columns := c.varNames.reverse",
  "claim": "C132 columns",
  "edit": "`columns := c.varNames` -> `columns := c.varNames.reverse`",
  "count": 1,
  "def": "runSolver"
 },
 {
  "id": "w024",
  "file": "PFSolve",
  "old": "if 0 \u2264 x then \u230ax\u230b else \u2308x\u2309",
  "new": "if 0 \u2264 x then \u2308x\u2309 else \u230ax\u230b",
  "claim": "C132 truncation",
  "edit": "`if 0 \u2264 x then \u230ax\u230b else \u2308x\u2309` -> `if 0 \u2264 x then \u2308x\u2309 else \u230ax\u230b`",
  "count": 1,
  "def": "PyNumber.truncate"
 },
 {
  "id": "w025",
  "file": "PFSolve",
  "old": "| .int _ => true | .float _ => false",
  "new": "| .int _ => true | .float _ => true",
  "claim": "C132 integer arrays",
  "edit": "`| .int _ => true | .float _ => false` -> `| .int _ => true | .float _ => true`",
  "count": 1,
  "def": "allInts"
 },
 {
  "id": "w026",
  "file": "PFSolve",
  "old": "if allInts start then p.2.truncate else p.2.val",
  "new": "p.2.val",
  "claim": "C132 integer arrays truncate",
  "edit": "`if allInts start then p.2.truncate else p.2.val` -> `p.2.val`",
  "count": 1,
  "def": "boundaryVectorPy"
 },
 {
  "id": "w027",
  "file": "PFSolve",
  "old": "let terminal := normalizeConditions a.terminal",
  "new": "let terminal := a.terminal",
  "claim": "C132 names with _ss",
  "edit": "`let terminal := normalizeConditions a.terminal` -> `let terminal := a.terminal`",
  "count": 1,
  "def": "solvePF"
 },
 {
  "id": "w028",
  "file": "PFSolve",
  "old": "match boundaryParams (a.paths.getD []) with",
  "new": "match boundaryParams [] with",
  "claim": "C132 boundary parameters",
  "edit": "`match boundaryParams (a.paths.getD []) with` -> `match boundaryParams [] with`",
  "count": 1,
  "def": "solvePF"
 },
 {
  "id": "w029",
  "file": "PFSolve",
  "old": "let needsTerminal := !(c.varNames.all fun n => n \u2208 dkeys terminal)",
  "new": "let needsTerminal := !(c.varNames.all fun n => n \u2208 dkeys initial)",
  "claim": "C132 terminal dictionary needed",
  "edit": "`let needsTerminal := !(c.varNames.all fun n => n \u2208 dkeys terminal)` -> `let needsTerminal := !(c.varNames.all fun n => n \u2208 dkeys initial)`",
  "count": 1,
  "def": "solvePF"
 },
 {
  "id": "w030",
  "file": "PFSolve",
  "old": "match guessVector a.guess ssInit",
  "new": "match guessVector a.guess ssTerm",
  "claim": "C132 start at the initial steady state",
  "edit": "`match guessVector a.guess ssInit` -> `match guessVector a.guess ssTerm`",
  "count": 1,
  "def": "solvePF"
 },
 {
  "id": "w031",
  "file": "PFSolve",
  "old": "  match validatePF initial terminal a.shocks a.paths c.varNames",
  "new": "  match validatePF initial initial a.shocks a.paths c.varNames",
  "claim": "C132 input checked",
  "edit": "`  match validatePF initial terminal a.shocks a.paths c.varNames` -> `  match validatePF initial initial a.shocks a.paths c.varNames`",
  "count": 1,
  "def": "solvePF"
 },
 {
  "id": "w032",
  "file": "PFSolve",
  "old": "match shockMatrix a.shocks",
  "new": "match shockMatrix none",
  "claim": "C132 shocks",
  "edit": "`match shockMatrix a.shocks` -> `match shockMatrix none`",
  "count": 1,
  "def": "solvePF"
 },
 {
  "id": "w033",
  "file": "PFSolve",
  "old": "match paramMatrix a.paths",
  "new": "match paramMatrix none",
  "claim": "C132 parameter paths",
  "edit": "`match paramMatrix a.paths` -> `match paramMatrix none`",
  "count": 1,
  "def": "solvePF"
 },
 {
  "id": "w034",
  "file": "PFSolve",
  "old": "boundaryVector terminal ssTerm c.varNames) X P",
  "new": "boundaryVector terminal ssInit c.varNames) X P",
  "claim": "C132 terminal steady state",
  "edit": "`boundaryVector terminal ssTerm c.varNames) X P` -> `boundaryVector terminal ssInit c.varNames) X P`",
  "count": 1,
  "def": "solvePF"
 },
 {
  "id": "w035",
  "file": "PFSolve",
  "old": "(boundaryVector initial ssInit c.varNames)",
  "new": "(boundaryVector terminal ssInit c.varNames)",
  "claim": "C132 initial conditions",
  "edit": "`(boundaryVector initial ssInit c.varNames)` -> `(boundaryVector terminal ssInit c.varNames)`",
  "count": 1,
  "def": "solvePF"
 },
 {
  "id": "w036",
  "file": "PFSolve",
  "old": "else if a.T = 0 then .error .noPeriods\n",
  "new": "",
  "claim": "C132 no periods",
  "edit": "`else if a.T = 0 then .error .noPeriods\n` -> ``",
  "count": 1,
  "def": "solvePF"
 },
 {
  "id": "w037",
  "file": "SolverReuse",
  "old": "    ({ o with mem := r.1 }, r.2)",
  "new": "    (o, r.2)",
  "claim": "C134 memory kept",
  "edit": "`    ({ o with mem := r.1 }, r.2)` -> `    (o, r.2)`",
  "count": 1,
  "def": "LSObj.solveWith"
 },
 {
  "id": "w038",
  "file": "SolverReuse",
  "old": "({ o with mem := r.1.1, history := r.1.2 }, r.2)",
  "new": "({ o with mem := r.1.1, history := [] }, r.2)",
  "claim": "C134 history kept",
  "edit": "`({ o with mem := r.1.1, history := r.1.2 }, r.2)` -> `({ o with mem := r.1.1, history := [] }, r.2)`",
  "count": 1,
  "def": "LSObj.solveWith"
 },
 {
  "id": "w039",
  "file": "SolverReuse",
  "old": "(o.mem, o.history) f x0 fTol",
  "new": "(o.mem, []) f x0 fTol",
  "claim": "C134 history used",
  "edit": "`(o.mem, o.history) f x0 fTol` -> `(o.mem, []) f x0 fTol`",
  "count": 1,
  "def": "LSObj.solveWith"
 },
 {
  "id": "w040",
  "file": "SolverReuse",
  "old": "beta := cls.beta, maxIter := cls.maxIter, meritFun := mf }",
  "new": "beta := cls.beta, maxIter := cls.maxIter }",
  "claim": "C134 merit stored is used",
  "edit": "`beta := cls.beta, maxIter := cls.maxIter, meritFun := mf }` -> `beta := cls.beta, maxIter := cls.maxIter }`",
  "count": 1,
  "def": "LSObj.solveWith"
 },
 {
  "id": "w041",
  "file": "SolverReuse",
  "old": "(some (h \u25b8 g)) f x0",
  "new": "none f x0",
  "claim": "C134 stored merit used",
  "edit": "`(some (h \u25b8 g)) f x0` -> `none f x0`",
  "count": 1,
  "def": "LSObj.sparseRoot"
 },
 {
  "id": "w042",
  "file": "SolverReuse",
  "old": "if maxAbs (f x0).1 < fTol \u2228 maxiter = 0 \u2228 cls.maxIter = 0 then",
  "new": "if maxiter = 0 \u2228 cls.maxIter = 0 then",
  "claim": "C134 solved at the start",
  "edit": "`if maxAbs (f x0).1 < fTol \u2228 maxiter = 0 \u2228 cls.maxIter = 0 then` -> `if maxiter = 0 \u2228 cls.maxIter = 0 then`",
  "count": 1,
  "def": "LSObj.sparseRoot"
 },
 {
  "id": "w043",
  "file": "SolverReuse",
  "old": "\u2228 cls.maxIter = 0 then\n",
  "new": "then\n",
  "claim": "C134 no trials",
  "edit": "`\u2228 cls.maxIter = 0 then\n` -> `then\n`",
  "count": 1,
  "def": "LSObj.sparseRoot"
 },
 {
  "id": "w044",
  "file": "SolverReuse",
  "old": "some M => pushHistory M o.history (startState f x0).phi }, none)",
  "new": "some _ => o.history }, none)",
  "claim": "C134 history after exception",
  "edit": "`some M => pushHistory M o.history (startState f x0).phi }, none)` -> `some _ => o.history }, none)`",
  "count": 1,
  "def": "LSObj.sparseRoot"
 },
 {
  "id": "w045",
  "file": "SolverReuse",
  "old": "{ o with meritFun := some \u27e8n, g\u27e9 }.sparseRoot",
  "new": "{ o with meritFun := o.meritFun.or (some \u27e8n, g\u27e9) }.sparseRoot",
  "claim": "C134 merit stored anew",
  "edit": "`{ o with meritFun := some \u27e8n, g\u27e9 }.sparseRoot` -> `{ o with meritFun := o.meritFun.or (some \u27e8n, g\u27e9) }.sparseRoot`",
  "count": 1,
  "def": "LSObj.foresight"
 },
 {
  "id": "w046",
  "file": "SolverReuse",
  "old": "1e-10 1e-10 1000",
  "new": "1e-8 1e-10 1000",
  "claim": "C134 default tolerance",
  "edit": "`1e-10 1e-10 1000` -> `1e-8 1e-10 1000`",
  "count": 2,
  "def": "LSObj.foresight",
  "nth": 0
 },
 {
  "id": "w047",
  "file": "SolverReuse",
  "old": "maxIter := cls.maxIter, meritFun := some g }\n  match",
  "new": "maxIter := cls.maxIter, meritFun := none }\n  match",
  "claim": "C134 object in a foresight run",
  "edit": "`maxIter := cls.maxIter, meritFun := some g }\n  match` -> `maxIter := cls.maxIter, meritFun := none }\n  match`",
  "count": 1,
  "def": "LSObj.forPF"
 },
 {
  "id": "w048",
  "file": "SolverReuse",
  "old": "f x0 1e-10 1e-10 1000",
  "new": "f x0 1e-10 1e-10 10",
  "claim": "C134 radius object",
  "edit": "`f x0 1e-10 1e-10 1000` -> `f x0 1e-10 1e-10 10`",
  "count": 2,
  "def": "radiusCall",
  "nth": 1
 },
 {
  "id": "w049",
  "file": "SolverReuse",
  "old": "    (cast (h\u03c3 n) r.1, some r.2)\n  | .foresight",
  "new": "    (o, some r.2)\n  | .foresight",
  "claim": "C134 radius kept",
  "edit": "`    (cast (h\u03c3 n) r.1, some r.2)\n  | .foresight` -> `    (o, some r.2)\n  | .foresight`",
  "count": 1,
  "def": "radiusCall"
 },
 {
  "id": "w050",
  "file": "StateSpaceSolve",
  "old": "entryAt o.A i j",
  "new": "entryAt o.A j i",
  "claim": "C136 transposed",
  "edit": "`entryAt o.A i j` -> `entryAt o.A j i`",
  "count": 1,
  "def": "SSGOut.matsAt"
 },
 {
  "id": "w051",
  "file": "StateSpaceSolve",
  "old": "entryAt o.C i j",
  "new": "entryAt o.B i j",
  "claim": "C136 wrong matrix",
  "edit": "`entryAt o.C i j` -> `entryAt o.B i j`",
  "count": 1,
  "def": "SSGOut.matsAt"
 },
 {
  "id": "w052",
  "file": "StateSpaceSolve",
  "old": "  A := Matrix.of fun i j => ((entryAt o.A i j).map fun x => x.1.val (drawOf par) 0 * x.2.val (drawOf par)).getD 0",
  "new": "  A := Matrix.of fun i j => ((entryAt o.A i j).map fun x => x.1.val (drawOf par) 0).getD 0",
  "claim": "C136 scale dropped",
  "edit": "`  A := Matrix.of fun i j => ((entryAt o.A i j).map fun x => x.1.val (drawOf par) 0 * x.2.val (drawOf par)).getD 0` -> `  A := Matrix.of fun i j => ((entryAt o.A i j).map fun x => x.1.val (drawOf par) 0).getD 0`",
  "count": 1,
  "def": "SSGOut.matsAt"
 },
 {
  "id": "w053",
  "file": "StateSpaceSolve",
  "old": "x.val (drawOf par) 0).getD 0",
  "new": "-x.val (drawOf par) 0).getD 0",
  "claim": "C136 sign of D",
  "edit": "`x.val (drawOf par) 0).getD 0` -> `-x.val (drawOf par) 0).getD 0`",
  "count": 1,
  "def": "SSGOut.matsAt"
 },
 {
  "id": "w054",
  "file": "StateSpaceSolve",
  "old": "\"backward_direct\"",
  "new": "\"backward\"",
  "claim": "C136 solver name",
  "edit": "`\"backward_direct\"` -> `\"backward\"`",
  "count": 1,
  "def": "solverPair"
 },
 {
  "id": "w055",
  "file": "StateSpaceSolve",
  "old": "selectionMatrix m.B m.C m.D T",
  "new": "selectionMatrix m.B m.A m.D T",
  "claim": "C136 selection",
  "edit": "`selectionMatrix m.B m.C m.D T` -> `selectionMatrix m.B m.A m.D T`",
  "count": 1,
  "def": "solverPair"
 },
 {
  "id": "w056",
  "file": "StateSpaceSolve",
  "old": "order.idxOf i",
  "new": "(order[i]?).getD 0",
  "claim": "C136 order inverted",
  "edit": "`order.idxOf i` -> `(order[i]?).getD 0`",
  "count": 1,
  "def": "invOrder"
 },
 {
  "id": "w057",
  "file": "StateSpaceSolve",
  "old": "policyMatrices n (NMat.ofMat m.A) (NMat.ofMat m.B) (NMat.ofMat m.C)",
  "new": "policyMatrices n (NMat.ofMat m.C) (NMat.ofMat m.B) (NMat.ofMat m.A)",
  "claim": "C136 residual",
  "edit": "`policyMatrices n (NMat.ofMat m.A) (NMat.ofMat m.B) (NMat.ofMat m.C)` -> `policyMatrices n (NMat.ofMat m.C) (NMat.ofMat m.B) (NMat.ofMat m.A)`",
  "count": 1,
  "def": "SSGOut.policy"
 },
 {
  "id": "w058",
  "file": "StateSpaceSolve",
  "old": "(invOrder o.varOrder)",
  "new": "(fun i => i)",
  "claim": "C136 order",
  "edit": "`(invOrder o.varOrder)` -> `(fun i => i)`",
  "count": 1,
  "def": "SSGOut.policy"
 },
 {
  "id": "w059",
  "file": "StateSpaceSolve",
  "old": "M \u27e8i, h.1\u27e9 \u27e8j, h.2\u27e9 else 0",
  "new": "M \u27e8i, h.1\u27e9 \u27e8j, h.2\u27e9 else 1",
  "claim": "C136 outside",
  "edit": "`M \u27e8i, h.1\u27e9 \u27e8j, h.2\u27e9 else 0` -> `M \u27e8i, h.1\u27e9 \u27e8j, h.2\u27e9 else 1`",
  "count": 1,
  "def": "NMat.ofMat"
 },
 {
  "id": "w060",
  "file": "StateSpaceBuild",
  "old": "free.map (fun n => SExpr.sym (.par n)) ++ determ.map Prod.snd",
  "new": "free.map (fun n => SExpr.sym (.par n)) ++ determ.map fun p => SExpr.sym (.par p.1)",
  "claim": "C136 deterministic parameters replaced",
  "edit": "`free.map (fun n => SExpr.sym (.par n)) ++ determ.map Prod.snd` -> `free.map (fun n => SExpr.sym (.par n)) ++ determ.map fun p => SExpr.sym (.par p.1)`",
  "count": 1,
  "def": "paramMapping"
 },
 {
  "id": "w061",
  "file": "StateSpaceBuild",
  "old": "| .guarded v => .guarded (",
  "new": "| .guarded v => .ss (",
  "claim": "C136 guard kept",
  "edit": "`| .guarded v => .guarded (` -> `| .guarded v => .ss (`",
  "count": 1,
  "def": "Scale.graphReplace"
 },
 {
  "id": "w062",
  "file": "StateSpaceBuild",
  "old": "(e.graphReplace d, s.graphReplace d)",
  "new": "(e, s.graphReplace d)",
  "claim": "C136 entries replaced",
  "edit": "`(e.graphReplace d, s.graphReplace d)` -> `(e, s.graphReplace d)`",
  "count": 1,
  "def": "replaceRows"
 },
 {
  "id": "w063",
  "file": "StateSpaceBuild",
  "old": "if !calib.isEmpty then .error .calibration\n  else match",
  "new": "match",
  "claim": "C136 calibration refused",
  "edit": "`if !calib.isEmpty then .error .calibration\n  else match` -> `match`",
  "count": 1,
  "def": "statespaceFromGcn"
 },
 {
  "id": "w064",
  "file": "StateSpaceBuild",
  "old": "if ssMap.length \u2260 vars.length then",
  "new": "if ssMap.length > vars.length then",
  "claim": "C136 analytic steady state",
  "edit": "`if ssMap.length \u2260 vars.length then` -> `if ssMap.length > vars.length then`",
  "count": 1,
  "def": "statespaceFromGcn"
 },
 {
  "id": "w065",
  "file": "StateSpaceBuild",
  "old": "if logLinearize && !linear then",
  "new": "if logLinearize then",
  "claim": "C136 linear models",
  "edit": "`if logLinearize && !linear then` -> `if logLinearize then`",
  "count": 1,
  "def": "statespaceFromGcn"
 },
 {
  "id": "w066",
  "file": "StateSpaceBuild",
  "old": "!exclude.contains v.base else []",
  "new": "exclude.contains v.base else []",
  "claim": "C136 excluded variables",
  "edit": "`!exclude.contains v.base else []` -> `exclude.contains v.base else []`",
  "count": 1,
  "def": "statespaceFromGcn"
 },
 {
  "id": "w067",
  "file": "StateSpaceBuild",
  "old": "p.2.graphReplace params)",
  "new": "p.2)",
  "claim": "C136 steady state in parameters",
  "edit": "`p.2.graphReplace params)` -> `p.2)`",
  "count": 1,
  "def": "statespaceFromGcn"
 },
 {
  "id": "w068",
  "file": "StateSpaceBuild",
  "old": "dupdate params ssMap",
  "new": "params",
  "claim": "C136 steady states replaced",
  "edit": "`dupdate params ssMap` -> `params`",
  "count": 1,
  "def": "statespaceFromGcn"
 },
 {
  "id": "w069",
  "file": "StateSpaceBuild",
  "old": "B := replaceRows d sys.scale sys.B",
  "new": "B := replaceRows d sys.scale sys.A",
  "claim": "C136 matrices",
  "edit": "`B := replaceRows d sys.scale sys.B` -> `B := replaceRows d sys.scale sys.A`",
  "count": 1,
  "def": "statespaceFromGcn"
 },
 {
  "id": "w070",
  "file": "StateSpaceBuild",
  "old": "varOrder := sys.varOrder",
  "new": "varOrder := List.range vars.length",
  "claim": "C136 order of variables",
  "edit": "`varOrder := sys.varOrder` -> `varOrder := List.range vars.length`",
  "count": 1,
  "def": "statespaceFromGcn"
 },
 {
  "id": "w072",
  "file": "Dynare",
  "old": "s.idx = .ss).eraseDups",
  "new": "s.idx = .ss)",
  "claim": "C135 each steady state once",
  "edit": "`s.idx = .ss).eraseDups` -> `s.idx = .ss)`",
  "count": 1,
  "def": "findSS"
 },
 {
  "id": "w073",
  "file": "Dynare",
  "old": "m.equations.map toks",
  "new": "(m.equations.drop 1).map toks",
  "claim": "C135 each equation",
  "edit": "`m.equations.map toks` -> `(m.equations.drop 1).map toks`",
  "count": 1,
  "def": "modelBlock"
 },
 {
  "id": "w074",
  "file": "Dynare",
  "old": ":= fltToks v",
  "new": ":= numToks (shown 3 v)",
  "claim": "C135 steady-state values",
  "edit": "`:= fltToks v` -> `:= numToks (shown 3 v)`",
  "count": 1,
  "def": "numText"
 }
]