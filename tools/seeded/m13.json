[
{
"id": "o000",
"file": "SSGraphs",
"old": "| .abs a => .mul (.sgn a) (a.grad x)",
"new": "| .abs a => .mul (.abs a) (a.grad x)",
"claim": "C123 gradient of abs",
"edit": "`| .abs a => .mul (.sgn a) (a.grad x)` -> `| .abs a => .mul (.abs a) (a.grad x)`",
"count": 1,
"def": "TG.grad"
},
{
"id": "o001",
"file": "SSGraphs",
"old": "| .mul a b => .add (.mul (a.grad x) b) (.mul a (b.grad x))",
"new": "| .mul a b => .mul (a.grad x) b",
"claim": "C123 product rule",
"edit": "`| .mul a b => .add (.mul (a.grad x) b) (.mul a (b.grad x))` -> `| .mul a b => .mul (a.grad x) b`",
"count": 1,
"def": "TG.grad"
},
{
"id": "o002",
"file": "SSGraphs",
"old": "(.inv (.mul (.s (.num 2)) (.sqrt a)))",
"new": "(.inv (.sqrt a))",
"claim": "C123 gradient of the norm",
"edit": "`(.inv (.mul (.s (.num 2)) (.sqrt a)))` -> `(.inv (.sqrt a))`",
"count": 1,
"def": "TG.grad"
},
{
"id": "o003",
"file": "SSGraphs",
"old": "(.mul (.s (.num (-1))) (.inv (.mul a a)))",
"new": "(.inv (.mul a a))",
"claim": "C123 gradient of a quotient",
"edit": "`(.mul (.s (.num (-1))) (.inv (.mul a a)))` -> `(.inv (.mul a a))`",
"count": 1,
"def": "TG.grad"
},
{
"id": "o004",
"file": "SSGraphs",
"old": "| .dir _ => .s (.num 0)",
"new": "| .dir _ => .s (.num 1)",
"claim": "C123 Hessian-vector product",
"edit": "`| .dir _ => .s (.num 0)` -> `| .dir _ => .s (.num 1)`",
"count": 1,
"def": "TG.grad"
},
{
"id": "o005",
"file": "SSGraphs",
"old": "| .sgn _ => .s (.num 0)",
"new": "| .sgn a => a.grad x",
"claim": "C123 Hessian of abs",
"edit": "`| .sgn _ => .s (.num 0)` -> `| .sgn a => a.grad x`",
"count": 1,
"def": "TG.grad"
},
{
"id": "o006",
"file": "SSGraphs",
"old": "| .abs => some (TG.sum (resid.map fun r => .abs (.s r)))",
"new": "| .abs => some (TG.sum (resid.map fun r => .s r))",
"claim": "C123 absolute error",
"edit": "`| .abs => some (TG.sum (resid.map fun r => .abs (.s r)))` -> `| .abs => some (TG.sum (resid.map fun r => .s r))`",
"count": 1,
"def": "errorGraph"
},
{
"id": "o007",
"file": "SSGraphs",
"old": "(.inv (.s (.num resid.length))))",
"new": "(.s (.num 1)))",
"claim": "C123 mean squared error",
"edit": "`(.inv (.s (.num resid.length))))` -> `(.s (.num 1)))`",
"count": 1,
"def": "errorGraph"
},
{
"id": "o008",
"file": "SSGraphs",
"old": "| .l2norm => some (.sqrt (TG.sum (resid.map fun r => .mul (.s r) (.s r))))",
"new": "| .l2norm => some (TG.sum (resid.map fun r => .mul (.s r) (.s r)))",
"claim": "C123 norm",
"edit": "`| .l2norm => some (.sqrt (TG.sum (resid.map fun r => .mul (.s r) (.s r))))` -> `| .l2norm => some (TG.sum (resid.map fun r => .mul (.s r) (.s r)))`",
"count": 1,
"def": "errorGraph"
},
{
"id": "o009",
"file": "SSGraphs",
"old": "| .squared => some (TG.sum (resid.map fun r => .mul (.s r) (.s r)))",
"new": "| .squared => some (.sqrt (TG.sum (resid.map fun r => .mul (.s r) (.s r))))",
"claim": "C123 squared error",
"edit": "`| .squared => some (TG.sum (resid.map fun r => .mul (.s r) (.s r)))` -> `| .squared => some (.sqrt (TG.sum (resid.map fun r => .mul (.s r) (.s r))))`",
"count": 1,
"def": "errorGraph"
},
{
"id": "o010",
"file": "SSGraphs",
"old": "| .other => none",
"new": "| .other => some (.s (.num 0))",
"claim": "C123 unknown error function",
"edit": "`| .other => none` -> `| .other => some (.s (.num 0))`",
"count": 1,
"def": "errorGraph"
},
{
"id": "o011",
"file": "SSGraphs",
"old": "l.foldr .add (.s (.num 0))",
"new": "l.foldr .add (.s (.num 1))",
"claim": "C123 error",
"edit": "`l.foldr .add (.s (.num 0))` -> `l.foldr .add (.s (.num 1))`",
"count": 1,
"def": "TG.sum"
},
{
"id": "o012",
"file": "SSGraphs",
"old": "(List.range n).map fun i => columns.filterMap fun c => c[i]?",
"new": "columns",
"claim": "C123 Jacobian is not transposed",
"edit": "`(List.range n).map fun i => columns.filterMap fun c => c[i]?` -> `columns`",
"count": 1,
"def": "stackColumns"
},
{
"id": "o013",
"file": "SSGraphs",
"old": "nodes.filter fun n => n \u2209 outputs.flatten",
"new": "nodes.filter fun n => n \u2208 outputs.flatten",
"claim": "C123 refusals",
"edit": "`nodes.filter fun n => n \u2209 outputs.flatten` -> `nodes.filter fun n => n \u2208 outputs.flatten`",
"count": 1,
"def": "connected"
},
{
"id": "o014",
"file": "SSGraphs",
"old": "if bad = [] then .ok () else .error (.disconnected bad)",
"new": "if bad.length \u2264 1 then .ok () else .error (.disconnected bad)",
"claim": "C123 refusals",
"edit": "`if bad = [] then .ok () else .error (.disconnected bad)` -> `if bad.length \u2264 1 then .ok () else .error (.disconnected bad)`",
"count": 1,
"def": "connected"
},
{
"id": "o015",
"file": "SSGraphs",
"old": ".error (.disconnected bad)",
"new": ".error (.disconnected nodes)",
"claim": "C123 the unknowns named",
"edit": "`.error (.disconnected bad)` -> `.error (.disconnected nodes)`",
"count": 1,
"def": "connected"
},
{
"id": "o016",
"file": "SSGraphs",
"old": "if equations \u2260 [] \u2227 nodes \u2260 [] then",
"new": "if equations \u2260 [] then",
"claim": "equivalent? C123 no unknowns",
"edit": "`if equations \u2260 [] \u2227 nodes \u2260 [] then` -> `if equations \u2260 [] then`",
"count": 1,
"def": "buildRootGraphs"
},
{
"id": "o017",
"file": "SSGraphs",
"old": "(nodes.map fun x => equations.map (SExpr.diff x))",
"new": "(nodes.reverse.map fun x => equations.map (SExpr.diff x))",
"claim": "C123 Jacobian columns",
"edit": "`(nodes.map fun x => equations.map (SExpr.diff x))` -> `(nodes.reverse.map fun x => equations.map (SExpr.diff x))`",
"count": 1,
"def": "buildRootGraphs"
},
{
"id": "o018",
"file": "SSGraphs",
"old": "List.replicate equations.length (List.replicate nodes.length (.num 0))",
"new": "List.replicate nodes.length (List.replicate equations.length (.num 0))",
"claim": "C123 shape",
"edit": "`List.replicate equations.length (List.replicate nodes.length (.num 0))` -> `List.replicate nodes.length (List.replicate equations.length (.num 0))`",
"count": 1,
"def": "buildRootGraphs"
},
{
"id": "o019",
"file": "SSGraphs",
"old": "else .ok (equations, none)",
"new": "else .ok (equations.reverse, none)",
"claim": "C123 residual order",
"edit": "`else .ok (equations, none)` -> `else .ok (equations.reverse, none)`",
"count": 1,
"def": "buildRootGraphs"
},
{
"id": "o020",
"file": "SSGraphs",
"old": ".mul (error.grad x.1) (.dir x.2)",
"new": ".mul (error.grad x.1) (.dir 0)",
"claim": "C123 Hessian-vector product",
"edit": "`.mul (error.grad x.1) (.dir x.2)` -> `.mul (error.grad x.1) (.dir 0)`",
"count": 1,
"def": "hessianVectorProduct"
},
{
"id": "o021",
"file": "SSGraphs",
"old": "nodes.map fun x => g.grad x",
"new": "nodes.map fun x => g",
"claim": "C123 Hessian-vector product",
"edit": "`nodes.map fun x => g.grad x` -> `nodes.map fun x => g`",
"count": 1,
"def": "hessianVectorProduct"
},
{
"id": "o022",
"file": "SSGraphs",
"old": "(nodes.zipIdx).map",
"new": "(nodes.zipIdx 1).map",
"claim": "C123 Hessian-vector product",
"edit": "`(nodes.zipIdx).map` -> `(nodes.zipIdx 1).map`",
"count": 1,
"def": "hessianVectorProduct"
},
{
"id": "o023",
"file": "SSGraphs",
"old": "if useJac || useHess || useHessp then",
"new": "if useJac || useHess then",
"claim": "C123 which derivatives",
"edit": "`if useJac || useHess || useHessp then` -> `if useJac || useHess then`",
"count": 1,
"def": "buildMinimizeGraphs"
},
{
"id": "o024",
"file": "SSGraphs",
"old": "if nodes = [] then .error .emptyStack",
"new": "if False then .error .emptyStack",
"claim": "C123 refusals",
"edit": "`if nodes = [] then .error .emptyStack` -> `if False then .error .emptyStack`",
"count": 1,
"def": "buildMinimizeGraphs"
},
{
"id": "o025",
"file": "SSGraphs",
"old": "let grad := nodes.map fun x => error.grad x",
"new": "let grad := nodes.reverse.map fun x => error.grad x",
"claim": "C123 gradient order",
"edit": "`let grad := nodes.map fun x => error.grad x` -> `let grad := nodes.reverse.map fun x => error.grad x`",
"count": 1,
"def": "buildMinimizeGraphs"
},
{
"id": "o026",
"file": "SSGraphs",
"old": "connected [error.syms] nodes",
"new": "connected (equations.map SExpr.syms) []",
"claim": "C123 refusals",
"edit": "`connected [error.syms] nodes` -> `connected (equations.map SExpr.syms) []`",
"count": 1,
"def": "buildMinimizeGraphs"
},
{
"id": "o027",
"file": "SSGraphs",
"old": "if useHess then some (stackColumns",
"new": "if useHessp then some (stackColumns",
"claim": "C123 Hessian",
"edit": "`if useHess then some (stackColumns` -> `if useHessp then some (stackColumns`",
"count": 1,
"def": "buildMinimizeGraphs"
},
{
"id": "o028",
"file": "SSGraphs",
"old": "hessp := if useHessp then some",
"new": "hessp := if useHess then some",
"claim": "C123 Hessian-vector product",
"edit": "`hessp := if useHessp then some` -> `hessp := if useHess then some`",
"count": 1,
"def": "buildMinimizeGraphs"
},
{
"id": "o029",
"file": "SSGraphs",
"old": "grad.map fun g => g.grad x)",
"new": "grad.map fun g => g)",
"claim": "C123 Hessian",
"edit": "`grad.map fun g => g.grad x)` -> `grad.map fun g => g)`",
"count": 1,
"def": "buildMinimizeGraphs"
},
{
"id": "o030",
"file": "SSGraphs",
"old": "else .ok { error := error, grad := none",
"new": "else .ok { error := error, grad := some (nodes.map fun x => error.grad x)",
"claim": "C123 no gradient asked for",
"edit": "`else .ok { error := error, grad := none` -> `else .ok { error := error, grad := some (nodes.map fun x => error.grad x)`",
"count": 1,
"def": "buildMinimizeGraphs"
},
{
"id": "o031",
"file": "SSGraphs",
"old": "if (dkeys kw).any fun k => k \u2208 dkeys params then none\n  else if",
"new": "if",
"claim": "equivalent under the hypothesis on names? C123",
"edit": "`if (dkeys kw).any fun k => k \u2208 dkeys params then none\n  else if` -> `if`",
"count": 1,
"def": "callHessp"
},
{
"id": "o032",
"file": "SSGraphs",
"old": "fun n => (n.1, x n.2))",
"new": "fun n => (n.1, p n.2))",
"claim": "C123 point of the Hessian",
"edit": "`fun n => (n.1, x n.2))` -> `fun n => (n.1, p n.2))`",
"count": 1,
"def": "callHessp"
},
{
"id": "o033",
"file": "SSGraphs",
"old": "TG.eval p fun s",
"new": "TG.eval x fun s",
"claim": "C123 direction",
"edit": "`TG.eval p fun s` -> `TG.eval x fun s`",
"count": 1,
"def": "callHessp"
},
{
"id": "o034",
"file": "SSGraphs",
"old": "kw.method.getD \"hybr\".toList",
"new": "kw.method.getD \"lm\".toList",
"claim": "C123 method",
"edit": "`kw.method.getD \"hybr\".toList` -> `kw.method.getD \"lm\".toList`",
"count": 1,
"def": "rootCall"
},
{
"id": "o035",
"file": "SSGraphs",
"old": "[\"hybr\".toList, \"df-sane\".toList]",
"new": "[\"hybr\".toList]",
"claim": "C123 budget",
"edit": "`[\"hybr\".toList, \"df-sane\".toList]` -> `[\"hybr\".toList]`",
"count": 1,
"def": "rootCall"
},
{
"id": "o036",
"file": "SSGraphs",
"old": "then \"maxfev\".toList else \"maxiter\".toList",
"new": "then \"maxiter\".toList else \"maxfev\".toList",
"claim": "C123 budget",
"edit": "`then \"maxfev\".toList else \"maxiter\".toList` -> `then \"maxiter\".toList else \"maxfev\".toList`",
"count": 1,
"def": "rootCall"
},
{
"id": "o037",
"file": "SSGraphs",
"old": "dset (kw.options.getD []) key",
"new": "dset [] key",
"claim": "C123 options kept",
"edit": "`dset (kw.options.getD []) key` -> `dset [] key`",
"count": 1,
"def": "rootCall"
},
{
"id": "o038",
"file": "SSGraphs",
"old": "x0 := initialX0 kw.x0 asm",
"new": "x0 := initialX0 none asm",
"claim": "C123 start",
"edit": "`x0 := initialX0 kw.x0 asm` -> `x0 := initialX0 none asm`",
"count": 1,
"def": "rootCall"
},
{
"id": "o039",
"file": "SSGraphs",
"old": "tol := kw.tol,",
"new": "tol := none,",
"claim": "C123 tolerance",
"edit": "`tol := kw.tol,` -> `tol := none,`",
"count": 1,
"def": "rootCall"
},
{
"id": "o040",
"file": "SSGraphs",
"old": "kw.maxiter.getD 5000)\n  match",
"new": "500)\n  match",
"claim": "C123 budget",
"edit": "`kw.maxiter.getD 5000)\n  match` -> `500)\n  match`",
"count": 1,
"def": "rootCall"
},
{
"id": "o041",
"file": "SSGraphs",
"old": "\u27e8m, transformEquations equations nodes ts,",
"new": "\u27e8m, equations,",
"claim": "C123 transformed equations",
"edit": "`\u27e8m, transformEquations equations nodes ts,` -> `\u27e8m, equations,`",
"count": 1,
"def": "BoundPlan.setup"
},
{
"id": "o042",
"file": "SSGraphs",
"old": "toUnconstrained ts (x0.map fun q => (q : \u211d)), none\u27e9",
"new": "x0.map (fun q => some (q : \u211d)), none\u27e9",
"claim": "C123 start",
"edit": "`toUnconstrained ts (x0.map fun q => (q : \u211d)), none\u27e9` -> `x0.map (fun q => some (q : \u211d)), none\u27e9`",
"count": 1,
"def": "BoundPlan.setup"
},
{
"id": "o043",
"file": "SSGraphs",
"old": "x0.map fun q => some (q : \u211d), some b\u27e9",
"new": "x0.map fun q => some (q : \u211d), none\u27e9",
"claim": "C123 bounds",
"edit": "`x0.map fun q => some (q : \u211d), some b\u27e9` -> `x0.map fun q => some (q : \u211d), none\u27e9`",
"count": 1,
"def": "BoundPlan.setup"
},
{
"id": "o044",
"file": "SSGraphs",
"old": "| .box m b => \u27e8m, equations,",
"new": "| .box m b => \u27e8m, equations.reverse,",
"claim": "equivalent (a sum) C123",
"edit": "`| .box m b => \u27e8m, equations,` -> `| .box m b => \u27e8m, equations.reverse,`",
"count": 1,
"def": "BoundPlan.setup"
},
{
"id": "o045",
"file": "SSGraphs",
"old": "dset options \"maxfun\".toList maxiter",
"new": "dset options \"maxfev\".toList maxiter",
"claim": "C123 budget",
"edit": "`dset options \"maxfun\".toList maxiter` -> `dset options \"maxfev\".toList maxiter`",
"count": 1,
"def": "minOptions"
},
{
"id": "o046",
"file": "SSGraphs",
"old": "\"maxiter\".toList maxiter",
"new": "\"maxfev\".toList maxiter",
"claim": "C123 budget",
"edit": "`\"maxiter\".toList maxiter` -> `\"maxfev\".toList maxiter`",
"count": 1,
"def": "minOptions"
},
{
"id": "o047",
"file": "SSGraphs",
"old": "if method = \"L-BFGS-B\".toList then",
"new": "if method = \"powell\".toList then",
"claim": "C123 budget",
"edit": "`if method = \"L-BFGS-B\".toList then` -> `if method = \"powell\".toList then`",
"count": 1,
"def": "minOptions"
},
{
"id": "o048",
"file": "SSGraphs",
"old": "let maxiter := kw.maxiter.getD 5000",
"new": "let maxiter := 5000",
"claim": "C123 budget",
"edit": "`let maxiter := kw.maxiter.getD 5000` -> `let maxiter := 5000`",
"count": 1,
"def": "minOptions"
},
{
"id": "o049",
"file": "SSGraphs",
"old": "dset (kw.options.getD []) \"maxiter\"",
"new": "dset [] \"maxiter\"",
"claim": "C123 options kept",
"edit": "`dset (kw.options.getD []) \"maxiter\"` -> `dset [] \"maxiter\"`",
"count": 1,
"def": "minOptions"
},
{
"id": "o050",
"file": "SSGraphs",
"old": "if useHess && useHessp then false else useHess",
"new": "useHess",
"claim": "C123 flags",
"edit": "`if useHess && useHessp then false else useHess` -> `useHess`",
"count": 1,
"def": "minimizeCall"
},
{
"id": "o051",
"file": "SSGraphs",
"old": "if useHess && useHessp then false else useHess",
"new": "false",
"claim": "C123 flags",
"edit": "`if useHess && useHessp then false else useHess` -> `false`",
"count": 1,
"def": "minimizeCall"
},
{
"id": "o052",
"file": "SSGraphs",
"old": "initialX0 kw.x0 (nodes",
"new": "initialX0 none (nodes",
"claim": "C123 start",
"edit": "`initialX0 kw.x0 (nodes` -> `initialX0 none (nodes`",
"count": 1,
"def": "minimizeCall"
},
{
"id": "o053",
"file": "SSGraphs",
"old": "buildMinimizeGraphs st.eqs nodes",
"new": "buildMinimizeGraphs equations nodes",
"claim": "C123 equations in the solver space",
"edit": "`buildMinimizeGraphs st.eqs nodes` -> `buildMinimizeGraphs equations nodes`",
"count": 1,
"def": "minimizeCall"
},
{
"id": "o054",
"file": "SSGraphs",
"old": "kw.tol.getD (1 / 10 ^ 30)",
"new": "kw.tol.getD (1 / 10 ^ 8)",
"claim": "C123 tolerance",
"edit": "`kw.tol.getD (1 / 10 ^ 30)` -> `kw.tol.getD (1 / 10 ^ 8)`",
"count": 1,
"def": "minimizeCall"
},
{
"id": "o055",
"file": "SSGraphs",
"old": "bounds := st.bounds",
"new": "bounds := none",
"claim": "C123 bounds",
"edit": "`bounds := st.bounds` -> `bounds := none`",
"count": 1,
"def": "minimizeCall"
},
{
"id": "o056",
"file": "SSGraphs",
"old": "user preferTransform kw.method).setup",
"new": "user false kw.method).setup",
"claim": "C123 prefer_transform",
"edit": "`user preferTransform kw.method).setup` -> `user false kw.method).setup`",
"count": 1,
"def": "minimizeCall"
},
{
"id": "o057",
"file": "SSGraphs",
"old": "user preferTransform kw.method).setup",
"new": "user preferTransform none).setup",
"claim": "C123 method",
"edit": "`user preferTransform kw.method).setup` -> `user preferTransform none).setup`",
"count": 1,
"def": "minimizeCall"
},
{
"id": "o058",
"file": "SSGraphs",
"old": "boundPlan parAsm nodes user",
"new": "boundPlan parAsm nodes []",
"claim": "C123 user bounds",
"edit": "`boundPlan parAsm nodes user` -> `boundPlan parAsm nodes []`",
"count": 1,
"def": "minimizeCall"
},
{
"id": "o059",
"file": "SSGraphs",
"old": "minOptions st.method kw",
"new": "minOptions (kw.method.getD []) kw",
"claim": "equivalent? C123 options",
"edit": "`minOptions st.method kw` -> `minOptions (kw.method.getD []) kw`",
"count": 1,
"def": "minimizeCall"
},
{
"id": "o060",
"file": "SSGraphs",
"old": "row.getD j 0 * r",
"new": "row.getD 0 0 * r",
"claim": "C123 gradient after root",
"edit": "`row.getD j 0 * r` -> `row.getD 0 0 * r`",
"count": 1,
"def": "rootGradient"
},
{
"id": "o061",
"file": "SSGraphs",
"old": "2 * (List.zipWith",
"new": "(List.zipWith",
"claim": "C123 gradient after root",
"edit": "`2 * (List.zipWith` -> `(List.zipWith`",
"count": 1,
"def": "rootGradient"
},
{
"id": "o062",
"file": "SSGraphs",
"old": "(List.range nodes.length).map fun j",
"new": "(List.range equations.length).map fun j",
"claim": "C123 gradient after root",
"edit": "`(List.range nodes.length).map fun j` -> `(List.range equations.length).map fun j`",
"count": 1,
"def": "rootGradient"
},
{
"id": "o063",
"file": "SSGraphs",
"old": "(List.zipWith (fun row r => row.getD j 0 * r) jac resid).sum",
"new": "(List.zipWith (fun row r => row.getD j 0 * r) jac resid.reverse).sum",
"claim": "C123 gradient after root",
"edit": "`(List.zipWith (fun row r => row.getD j 0 * r) jac resid).sum` -> `(List.zipWith (fun row r => row.getD j 0 * r) jac resid.reverse).sum`",
"count": 1,
"def": "rootGradient"
},
{
"id": "o064",
"file": "SSGraphs",
"old": "if v = 0 then none else some v\u207b\u00b9",
"new": "some v\u207b\u00b9",
"claim": "C123 division by zero",
"edit": "`if v = 0 then none else some v\u207b\u00b9` -> `some v\u207b\u00b9`",
"count": 1,
"def": "TG.evalN"
}
]