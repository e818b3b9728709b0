[
 {
  "id": "x000",
  "file": "BKReport",
  "old": "(order (bkEigenvalues q), bkForward C tol)",
  "new": "(bkEigenvalues q, bkForward C tol)",
  "claim": "C139 sorted",
  "edit": "`(order (bkEigenvalues q), bkForward C tol)` -> `(bkEigenvalues q, bkForward C tol)`",
  "count": 1,
  "def": "computeBK"
 },
 {
  "id": "x001",
  "file": "BKReport",
  "old": "(order (bkEigenvalues q), bkForward C tol)",
  "new": "(order (bkEigenvalues q), bkForward A tol)",
  "claim": "C139 forward columns",
  "edit": "`(order (bkEigenvalues q), bkForward C tol)` -> `(order (bkEigenvalues q), bkForward A tol)`",
  "count": 1,
  "def": "computeBK"
 },
 {
  "id": "x002",
  "file": "BKReport",
  "old": "(order (bkEigenvalues q), bkForward C tol)",
  "new": "(order ((bkEigenvalues q).drop 1), bkForward C tol)",
  "claim": "C139 complete",
  "edit": "`(order (bkEigenvalues q), bkForward C tol)` -> `(order ((bkEigenvalues q).drop 1), bkForward C tol)`",
  "count": 1,
  "def": "computeBK"
 },
 {
  "id": "x003",
  "file": "BKReport",
  "old": "checkBK (computeBK order q).1 (computeBK order q).2",
  "new": "checkBK (bkEigenvalues q) (computeBK order q).2",
  "claim": "C139 sorted",
  "edit": "`checkBK (computeBK order q).1 (computeBK order q).2` -> `checkBK (bkEigenvalues q) (computeBK order q).2`",
  "count": 1,
  "def": "checkBKCondition"
 },
 {
  "id": "x004",
  "file": "BKReport",
  "old": "natStr nUnstable ++ \" eigenvalues",
  "new": "natStr nForward ++ \" eigenvalues",
  "claim": "C139 message counts",
  "edit": "`natStr nUnstable ++ \" eigenvalues` -> `natStr nForward ++ \" eigenvalues`",
  "count": 1,
  "def": "bkMessage"
 },
 {
  "id": "x005",
  "file": "BKReport",
  "old": "(if nForward = nUnstable then [] else \" NOT\".toList)",
  "new": "(if nForward \u2264 nUnstable then [] else \" NOT\".toList)",
  "claim": "C139 message verdict",
  "edit": "`(if nForward = nUnstable then [] else \" NOT\".toList)` -> `(if nForward \u2264 nUnstable then [] else \" NOT\".toList)`",
  "count": 1,
  "def": "bkMessage"
 },
 {
  "id": "x006",
  "file": "BKReport",
  "old": "else if nForward < nUnstable then",
  "new": "else if nUnstable < nForward then",
  "claim": "C139 message reason",
  "edit": "`else if nForward < nUnstable then` -> `else if nUnstable < nForward then`",
  "count": 1,
  "def": "bkMessage"
 },
 {
  "id": "x007",
  "file": "BKReport",
  "old": "fits B vars.length &&",
  "new": "",
  "claim": "C139 sizes",
  "edit": "`fits B vars.length &&` -> ``",
  "count": 1,
  "def": "summarize"
 },
 {
  "id": "x008",
  "file": "BKReport",
  "old": "X.rows == A.rows && X.cols == c",
  "new": "X.cols == c",
  "claim": "C139 sizes",
  "edit": "`X.rows == A.rows && X.cols == c` -> `X.cols == c`",
  "count": 1,
  "def": "summarize"
 },
 {
  "id": "x009",
  "file": "BKReport",
  "old": "fits D shocks.length",
  "new": "fits D vars.length",
  "claim": "C139 sizes of D",
  "edit": "`fits D shocks.length` -> `fits D vars.length`",
  "count": 1,
  "def": "summarize"
 },
 {
  "id": "x010",
  "file": "BKReport",
  "old": "equation := List.range A.rows",
  "new": "equation := List.range A.cols",
  "claim": "C139 equation labels",
  "edit": "`equation := List.range A.rows` -> `equation := List.range A.cols`",
  "count": 1,
  "def": "summarize"
 },
 {
  "id": "x011",
  "file": "BKReport",
  "old": "shockNames := shocks.map TSym.base",
  "new": "shockNames := vars.map TSym.base",
  "claim": "C139 shock labels",
  "edit": "`shockNames := shocks.map TSym.base` -> `shockNames := vars.map TSym.base`",
  "count": 1,
  "def": "summarize"
 },
 {
  "id": "x012",
  "file": "BKReport",
  "old": "| _, _ => .error .solutionNotFound",
  "new": "| _, _ => .error .conflictingSizes",
  "claim": "C139 missing solution",
  "edit": "`| _, _ => .error .solutionNotFound` -> `| _, _ => .error .conflictingSizes`",
  "count": 1,
  "def": "summarize"
 },
 {
  "id": "x013",
  "file": "BKReport",
  "old": "if i \u2208 rowLabels \u2227 name \u2208 colLabels then",
  "new": "if name \u2208 colLabels then",
  "claim": "C139 lookup of labels",
  "edit": "`if i \u2208 rowLabels \u2227 name \u2208 colLabels then` -> `if name \u2208 colLabels then`",
  "count": 1,
  "def": "NArr.sel"
 },
 {
  "id": "x014",
  "file": "BKReport",
  "old": "some (X.at_ \u27e8_, h.1\u27e9 \u27e8_, h.2\u27e9)",
  "new": "some 0",
  "claim": "C139 lookup",
  "edit": "`some (X.at_ \u27e8_, h.1\u27e9 \u27e8_, h.2\u27e9)` -> `some 0`",
  "count": 1,
  "def": "NArr.sel"
 },
 {
  "id": "x015",
  "file": "Gensys",
  "old": "-((fromBlocks B C (-1) 0)",
  "new": "-((fromBlocks B C 1 0)",
  "claim": "C137 pencil",
  "edit": "`-((fromBlocks B C (-1) 0)` -> `-((fromBlocks B C 1 0)`",
  "count": 1,
  "def": "setupG0"
 },
 {
  "id": "x016",
  "file": "Gensys",
  "old": "-((fromBlocks B C (-1) 0)",
  "new": "-((fromBlocks C B (-1) 0)",
  "claim": "C137 pencil",
  "edit": "`-((fromBlocks B C (-1) 0)` -> `-((fromBlocks C B (-1) 0)`",
  "count": 1,
  "def": "setupG0"
 },
 {
  "id": "x017",
  "file": "Gensys",
  "old": "(fromBlocks A 0 0 1).submatrix",
  "new": "(fromBlocks A 0 0 (-1)).submatrix",
  "claim": "C137 pencil",
  "edit": "`(fromBlocks A 0 0 1).submatrix` -> `(fromBlocks A 0 0 (-1)).submatrix`",
  "count": 1,
  "def": "setupG1"
 },
 {
  "id": "x018",
  "file": "Gensys",
  "old": "(fromRows D 0).submatrix",
  "new": "(fromRows (-D) 0).submatrix",
  "claim": "C138 shocks enter",
  "edit": "`(fromRows D 0).submatrix` -> `(fromRows (-D) 0).submatrix`",
  "count": 1,
  "def": "setupPsi"
 },
 {
  "id": "x019",
  "file": "Gensys",
  "old": "(fromRows (0 : Mat n n) (1 : Mat n n))",
  "new": "(fromRows (1 : Mat n n) (1 : Mat n n))",
  "claim": "C138 expectation errors",
  "edit": "`(fromRows (0 : Mat n n) (1 : Mat n n))` -> `(fromRows (1 : Mat n n) (1 : Mat n n))`",
  "count": 1,
  "def": "setupPi"
 },
 {
  "id": "x020",
  "file": "Gensys",
  "old": "p.2 / (p.1 + (tol : \u2102))",
  "new": "p.1 / (p.2 + (tol : \u2102))",
  "claim": "C137 roots inverted",
  "edit": "`p.2 / (p.1 + (tol : \u2102))` -> `p.1 / (p.2 + (tol : \u2102))`",
  "count": 1,
  "def": "bkEigenvalues"
 },
 {
  "id": "x021",
  "file": "Gensys",
  "old": "tol < \u2211 i, |C i j|",
  "new": "tol < \u2211 i, |C j i|",
  "claim": "C137 columns",
  "edit": "`tol < \u2211 i, |C i j|` -> `tol < \u2211 i, |C j i|`",
  "count": 2,
  "def": "bkForward"
 },
 {
  "id": "x022",
  "file": "Gensys",
  "old": "tol < \u2211 i, |C i j|",
  "new": "tol < |\u2211 i, C i j|",
  "claim": "C137 cancelling entries",
  "edit": "`tol < \u2211 i, |C i j|` -> `tol < |\u2211 i, C i j|`",
  "count": 2,
  "def": "bkForward"
 },
 {
  "id": "x023",
  "file": "Gensys",
  "old": "1 < Real.sqrt (z.re ^ 2 + z.im ^ 2)",
  "new": "1 < Real.sqrt (z.re ^ 2)",
  "claim": "C137 complex roots",
  "edit": "`1 < Real.sqrt (z.re ^ 2 + z.im ^ 2)` -> `1 < Real.sqrt (z.re ^ 2)`",
  "count": 1,
  "def": "bkUnstable"
 },
 {
  "id": "x024",
  "file": "Gensys",
  "old": "1 < Real.sqrt (z.re ^ 2 + z.im ^ 2)",
  "new": "1 \u2264 Real.sqrt (z.re ^ 2 + z.im ^ 2)",
  "claim": "C137 unit roots",
  "edit": "`1 < Real.sqrt (z.re ^ 2 + z.im ^ 2)` -> `1 \u2264 Real.sqrt (z.re ^ 2 + z.im ^ 2)`",
  "count": 1,
  "def": "bkUnstable"
 },
 {
  "id": "x025",
  "file": "Gensys",
  "old": "if nForward \u2260 nU \u2227 raiseOnFailure",
  "new": "if nForward < nU \u2227 raiseOnFailure",
  "claim": "C40 raise on failure",
  "edit": "`if nForward \u2260 nU \u2227 raiseOnFailure` -> `if nForward < nU \u2227 raiseOnFailure`",
  "count": 1,
  "def": "checkBK"
 },
 {
  "id": "x026",
  "file": "Gensys",
  "old": ".flag (decide (nForward = nU))",
  "new": ".flag (decide (nForward \u2264 nU))",
  "claim": "C40 flag",
  "edit": "`.flag (decide (nForward = nU))` -> `.flag (decide (nForward \u2264 nU))`",
  "count": 1,
  "def": "checkBK"
 },
 {
  "id": "x027",
  "file": "Statistics",
  "old": "lyap T",
  "new": "lyap T\u1d40",
  "claim": "C47 Lyapunov equation",
  "edit": "`lyap T` -> `lyap T\u1d40`",
  "count": 1,
  "def": "stationaryCov"
 },
 {
  "id": "x028",
  "file": "Perturbation",
  "old": "eqToSSIn d.tsyms shocks d",
  "new": "eqToSSIn d.tsyms [] d",
  "claim": "C140 shocks are zero",
  "edit": "`eqToSSIn d.tsyms shocks d` -> `eqToSSIn d.tsyms [] d`",
  "count": 1,
  "def": "jacEntry"
 },
 {
  "id": "x029",
  "file": "Perturbation",
  "old": "eqToSSIn d.tsyms shocks d",
  "new": "eqToSSIn d.tsyms (shocks.take 1) d",
  "claim": "C140 all shocks are zero",
  "edit": "`eqToSSIn d.tsyms shocks d` -> `eqToSSIn d.tsyms (shocks.take 1) d`",
  "count": 1,
  "def": "jacEntry"
 },
 {
  "id": "x030",
  "file": "Perturbation",
  "old": "let scale := sys.scale.map (Scale.eval ssv)",
  "new": "let scale := sys.scale.map fun _ => (1 : K)",
  "claim": "C141 units",
  "edit": "`let scale := sys.scale.map (Scale.eval ssv)` -> `let scale := sys.scale.map fun _ => (1 : K)`",
  "count": 1,
  "def": "linearizeModel"
 },
 {
  "id": "x031",
  "file": "Perturbation",
  "old": "C := scaledRows (ev ssv) scale sys.C",
  "new": "C := scaledRows (ev ssv) (scale.map fun _ => 1) sys.C",
  "claim": "C141 units",
  "edit": "`C := scaledRows (ev ssv) scale sys.C` -> `C := scaledRows (ev ssv) (scale.map fun _ => 1) sys.C`",
  "count": 1,
  "def": "linearizeModel"
 },
 {
  "id": "x032",
  "file": "Perturbation",
  "old": "(some dr.eqOrder) (some dr.varOrder)",
  "new": "(some dr.eqOrder) none",
  "claim": "C140 order of variables",
  "edit": "`(some dr.eqOrder) (some dr.varOrder)` -> `(some dr.eqOrder) none`",
  "count": 1,
  "def": "linearizeModel"
 },
 {
  "id": "x033",
  "file": "Perturbation",
  "old": "(dget (normalizeConditions ss) v.base).getD 0",
  "new": "(dget ss v.base).getD 0",
  "claim": "C141 steady state by name",
  "edit": "`(dget (normalizeConditions ss) v.base).getD 0` -> `(dget ss v.base).getD 0`",
  "count": 1,
  "def": "linearizeModel"
 },
 {
  "id": "x034",
  "file": "Perturbation",
  "old": "B := takeRows dr.invEqOrder M.B, C",
  "new": "B := M.B, C",
  "claim": "C140 order of equations",
  "edit": "`B := takeRows dr.invEqOrder M.B, C` -> `B := M.B, C`",
  "count": 1,
  "def": "undoOrders"
 },
 {
  "id": "x035",
  "file": "Perturbation",
  "old": "B := takeCols dr.invVarOrder M.B, C",
  "new": "B := M.B, C",
  "claim": "C140 order of variables",
  "edit": "`B := takeCols dr.invVarOrder M.B, C` -> `B := M.B, C`",
  "count": 1,
  "def": "undoOrders"
 },
 {
  "id": "x036",
  "file": "LinearSolve",
  "old": "\u2a06 j, \u2211 i, |M i j|",
  "new": "|\u2211 i, \u2211 j, M i j|",
  "claim": "C61 norm",
  "edit": "`\u2a06 j, \u2211 i, |M i j|` -> `|\u2211 i, \u2211 j, M i j|`",
  "count": 1,
  "def": "norm1"
 },
 {
  "id": "x037",
  "file": "LinearSolve",
  "old": "\u2a06 j, \u2211 i, |M i j|",
  "new": "\u2a06 i, \u2211 j, |M i j|",
  "claim": "C61 norm by rows",
  "edit": "`\u2a06 j, \u2211 i, |M i j|` -> `\u2a06 i, \u2211 j, |M i j|`",
  "count": 1,
  "def": "norm1"
 },
 {
  "id": "x038",
  "file": "LinearSolve",
  "old": "A1hat := s.A1hat - tmp.toBlocks\u2082\u2081",
  "new": "A1hat := s.A1hat - tmp.toBlocks\u2081\u2082",
  "claim": "C61 iteration",
  "edit": "`A1hat := s.A1hat - tmp.toBlocks\u2082\u2081` -> `A1hat := s.A1hat - tmp.toBlocks\u2081\u2082`",
  "count": 1,
  "def": "crStep"
 },
 {
  "id": "x039",
  "file": "LinearSolve",
  "old": "if norm1 s'.A2 < tol then some (.done s') else crLoop tol left s'",
  "new": "some (.done s')",
  "claim": "C61 both norms",
  "edit": "`if norm1 s'.A2 < tol then some (.done s') else crLoop tol left s'` -> `some (.done s')`",
  "count": 1,
  "def": "crLoop"
 },
 {
  "id": "x040",
  "file": "Time",
  "old": "dupdate defaultAssumptions (user.getD [])",
  "new": "dupdate (user.getD []) defaultAssumptions",
  "claim": "C44 user wins",
  "edit": "`dupdate defaultAssumptions (user.getD [])` -> `dupdate (user.getD []) defaultAssumptions`",
  "count": 1,
  "def": "mergeAssumptions"
 },
 {
  "id": "x041",
  "file": "Time",
  "old": "dupdate defaultAssumptions (user.getD [])",
  "new": "user.getD defaultAssumptions",
  "claim": "C44 defaults also for declared",
  "edit": "`dupdate defaultAssumptions (user.getD [])` -> `user.getD defaultAssumptions`",
  "count": 1,
  "def": "mergeAssumptions"
 },
 {
  "id": "x042",
  "file": "Time",
  "old": ", (['f','i','n','i','t','e'], true)]",
  "new": "]",
  "claim": "C44 finite",
  "edit": "`, (['f','i','n','i','t','e'], true)]` -> `]`",
  "count": 1,
  "def": "defaultAssumptions"
 },
 {
  "id": "x043",
  "file": "ValidationText",
  "old": "'\\u2028', '\\u2029'",
  "new": "'\\u2028'",
  "claim": "C126 breaks",
  "edit": "`'\\u2028', '\\u2029'` -> `'\\u2028'`",
  "count": 1,
  "def": "isBreak"
 },
 {
  "id": "x044",
  "file": "ValidationText",
  "old": "isBreak c || c \u2208 ['\\t', ' ',",
  "new": "isBreak c || c \u2208 ['\\t',",
  "claim": "C126 blanks",
  "edit": "`isBreak c || c \u2208 ['\\t', ' ',` -> `isBreak c || c \u2208 ['\\t',`",
  "count": 1,
  "def": "isSpace"
 },
 {
  "id": "x045",
  "file": "ParserMisc",
  "old": "(if name = unitInterval then dset a positiveStr true else a)",
  "new": "(if name = unitInterval then dset a positiveStr false else a)",
  "claim": "C44 unit interval",
  "edit": "`(if name = unitInterval then dset a positiveStr true else a)` -> `(if name = unitInterval then dset a positiveStr false else a)`",
  "count": 1,
  "def": "addAssumption"
 },
 {
  "id": "x046",
  "file": "ParserMisc",
  "old": "(dget d v).getD parserDefaults",
  "new": "parserDefaults",
  "claim": "C44 several assumptions",
  "edit": "`(dget d v).getD parserDefaults` -> `parserDefaults`",
  "count": 1,
  "def": "addAssumption"
 }
]