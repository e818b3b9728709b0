[
{
"id": "p000",
"file": "Report",
"old": "| n :: ns => n ++ \", \".toList ++ commaJoin ns",
"new": "| n :: ns => n ++ \",\".toList ++ commaJoin ns",
"claim": "C124 separator",
"edit": "`| n :: ns => n ++ \", \".toList ++ commaJoin ns` -> `| n :: ns => n ++ \",\".toList ++ commaJoin ns`",
"count": 1,
"def": "commaJoin"
},
{
"id": "p001",
"file": "Report",
"old": "8 - col % 8",
"new": "4 - col % 4",
"claim": "C124 width of tabs",
"edit": "`8 - col % 8` -> `4 - col % 4`",
"count": 2,
"def": "expandedLen"
},
{
"id": "p002",
"file": "Report",
"old": "else if c = '\\n' then expandedLen 0 (len + 1) cs",
"new": "else if c = '\\n' then expandedLen 0 0 cs",
"claim": "C124 width",
"edit": "`else if c = '\\n' then expandedLen 0 (len + 1) cs` -> `else if c = '\\n' then expandedLen 0 0 cs`",
"count": 1,
"def": "expandedLen"
},
{
"id": "p003",
"file": "Report",
"old": "(if ns = [] then [] else \", \".toList)",
"new": "\", \".toList",
"claim": "C124 no trailing comma",
"edit": "`(if ns = [] then [] else \", \".toList)` -> `\", \".toList`",
"count": 1,
"def": "wrapNames"
},
{
"id": "p004",
"file": "Report",
"old": "if width < tabLen cur + candidate.length",
"new": "if width \u2264 tabLen cur + candidate.length",
"claim": "C124 line broken too early",
"edit": "`if width < tabLen cur + candidate.length` -> `if width \u2264 tabLen cur + candidate.length`",
"count": 1,
"def": "wrapNames"
},
{
"id": "p005",
"file": "Report",
"old": "if width < tabLen cur + candidate.length",
"new": "if width + 5 < tabLen cur + candidate.length",
"claim": "C124 line too long",
"edit": "`if width < tabLen cur + candidate.length` -> `if width + 5 < tabLen cur + candidate.length`",
"count": 1,
"def": "wrapNames"
},
{
"id": "p006",
"file": "Report",
"old": "wrapNames indent width false (indent ++ candidate) ns",
"new": "wrapNames indent width false indent ns",
"claim": "C124 name lost at the break",
"edit": "`wrapNames indent width false (indent ++ candidate) ns` -> `wrapNames indent width false indent ns`",
"count": 1,
"def": "wrapNames"
},
{
"id": "p007",
"file": "Report",
"old": "cur ++ ['\\n'] ++ wrapNames indent width false (indent",
"new": "wrapNames indent width false (indent",
"claim": "C124 line lost",
"edit": "`cur ++ ['\\n'] ++ wrapNames indent width false (indent` -> `wrapNames indent width false (indent`",
"count": 1,
"def": "wrapNames"
},
{
"id": "p008",
"file": "Report",
"old": "(indent ++ candidate)",
"new": "candidate",
"claim": "C124 indentation",
"edit": "`(indent ++ candidate)` -> `candidate`",
"count": 1,
"def": "wrapNames"
},
{
"id": "p009",
"file": "Report",
"old": "(width : Nat := 80)",
"new": "(width : Nat := 60)",
"claim": "C124 width 80",
"edit": "`(width : Nat := 80)` -> `(width : Nat := 60)`",
"count": 1,
"def": "formatSSVarList"
},
{
"id": "p010",
"file": "Report",
"old": "List.replicate (tabLen pre) ' '",
"new": "List.replicate pre.length ' '",
"claim": "C124 indentation",
"edit": "`List.replicate (tabLen pre) ' '` -> `List.replicate pre.length ' '`",
"count": 1,
"def": "formatSSVarList"
},
{
"id": "p011",
"file": "Report",
"old": "(if count = 1 then word else \"have\".toList)",
"new": "\"have\".toList",
"claim": "C124 has/have",
"edit": "`(if count = 1 then word else \"have\".toList)` -> `\"have\".toList`",
"count": 1,
"def": "pluralize"
},
{
"id": "p012",
"file": "Report",
"old": "else if count = 1 then word else word ++ \"s\".toList",
"new": "else if count \u2264 1 then word else word ++ \"s\".toList",
"claim": "C124 plural of 0",
"edit": "`else if count = 1 then word else word ++ \"s\".toList` -> `else if count \u2264 1 then word else word ++ \"s\".toList`",
"count": 1,
"def": "pluralize"
},
{
"id": "p013",
"file": "Report",
"old": "if names = [] then [] else head",
"new": "head",
"claim": "C124 heading without names",
"edit": "`if names = [] then [] else head` -> `head`",
"count": 1,
"def": "namesSection"
},
{
"id": "p014",
"file": "Report",
"old": "commaJoin names",
"new": "commaJoin names.reverse",
"claim": "C124 order of names",
"edit": "`commaJoin names` -> `commaJoin names.reverse`",
"count": 1,
"def": "namesSection"
},
{
"id": "p015",
"file": "Report",
"old": "let total := r.userSS.length + r.inferredSS.length",
"new": "let total := r.userSS.length",
"claim": "C124 total",
"edit": "`let total := r.userSS.length + r.inferredSS.length` -> `let total := r.userSS.length`",
"count": 1,
"def": "ssSection"
},
{
"id": "p016",
"file": "Report",
"old": "natStr total ++ \" / \".toList ++ natStr r.nVar",
"new": "natStr total ++ \" / \".toList ++ natStr r.nEq",
"claim": "C124 variables in total",
"edit": "`natStr total ++ \" / \".toList ++ natStr r.nVar` -> `natStr total ++ \" / \".toList ++ natStr r.nEq`",
"count": 1,
"def": "ssSection"
},
{
"id": "p017",
"file": "Report",
"old": "if 0 < total then",
"new": "if 1 < total then",
"claim": "C124 one value",
"edit": "`if 0 < total then` -> `if 1 < total then`",
"count": 1,
"def": "ssSection"
},
{
"id": "p018",
"file": "Report",
"old": "(if 0 < r.inferredSS.length then formatSSVarList (natStr r.inferredSS.length ++ \" inferred\".toList) r.inferredSS else [])",
"new": "[]",
"claim": "C124 inferred names",
"edit": "`(if 0 < r.inferredSS.length then formatSSVarList (natStr r.inferredSS.length ++ \" inferred\".toList) r.inferredSS else [])` -> `[]`",
"count": 1,
"def": "ssSection"
},
{
"id": "p019",
"file": "Report",
"old": "\" user-provided\".toList) r.userSS",
"new": "\" user-provided\".toList) r.inferredSS",
"claim": "C124 user names",
"edit": "`\" user-provided\".toList) r.userSS` -> `\" user-provided\".toList) r.inferredSS`",
"count": 1,
"def": "ssSection"
},
{
"id": "p020",
"file": "Report",
"old": "natStr r.nEq ++ \" \".toList ++ pluralize \"equation\".toList r.nEq ++ ['\\n']",
"new": "natStr r.nVar ++ \" \".toList ++ pluralize \"equation\".toList r.nEq ++ ['\\n']",
"claim": "C124 counts",
"edit": "`natStr r.nEq ++ \" \".toList ++ pluralize \"equation\".toList r.nEq ++ ['\\n']` -> `natStr r.nVar ++ \" \".toList ++ pluralize \"equation\".toList r.nEq ++ ['\\n']`",
"count": 1,
"def": "reportPieces"
},
{
"id": "p021",
"file": "Report",
"old": "natStr r.nShockPriors ++ \" / \".toList ++ natStr r.nShock",
"new": "natStr r.nParamPriors ++ \" / \".toList ++ natStr r.nShock",
"claim": "C124 shock priors",
"edit": "`natStr r.nShockPriors ++ \" / \".toList ++ natStr r.nShock` -> `natStr r.nParamPriors ++ \" / \".toList ++ natStr r.nShock`",
"count": 1,
"def": "reportPieces"
},
{
"id": "p022",
"file": "Report",
"old": "\"\\t\".toList ++ natStr (r.nFree + r.nCalib)",
"new": "\"\\t\".toList ++ natStr r.nFree",
"claim": "C124 number of parameters",
"edit": "`\"\\t\".toList ++ natStr (r.nFree + r.nCalib)` -> `\"\\t\".toList ++ natStr r.nFree`",
"count": 1,
"def": "reportPieces"
},
{
"id": "p023",
"file": "Report",
"old": "namesSection \"\\t\\tThe following variables were eliminated at user request:\\n\".toList r.reducedVars",
"new": "namesSection \"\\t\\tThe following variables were eliminated at user request:\\n\".toList r.singletons",
"claim": "C124 eliminated names",
"edit": "`namesSection \"\\t\\tThe following variables were eliminated at user request:\\n\".toList r.reducedVars` -> `namesSection \"\\t\\tThe following variables were eliminated at user request:\\n\".toList r.singletons`",
"count": 1,
"def": "reportPieces"
},
{
"id": "p024",
"file": "Report",
"old": "if r.nEq = r.nVar then \"Model appears",
"new": "if r.nEq \u2264 r.nVar then \"Model appears",
"claim": "C124 closing line",
"edit": "`if r.nEq = r.nVar then \"Model appears` -> `if r.nEq \u2264 r.nVar then \"Model appears`",
"count": 1,
"def": "reportPieces"
},
{
"id": "p025",
"file": "Report",
"old": "if r.nEq = r.nVar then none",
"new": "if r.nEq \u2264 r.nVar then none",
"claim": "C124 warning",
"edit": "`if r.nEq = r.nVar then none` -> `if r.nEq \u2264 r.nVar then none`",
"count": 1,
"def": "reportWarning"
},
{
"id": "p026",
"file": "Report",
"old": "\" but \".toList ++ natStr r.nVar",
"new": "\" but \".toList ++ natStr r.nEq",
"claim": "C124 warning text",
"edit": "`\" but \".toList ++ natStr r.nVar` -> `\" but \".toList ++ natStr r.nEq`",
"count": 1,
"def": "reportWarning"
},
{
"id": "p027",
"file": "Report",
"old": "nFree := out.param.length",
"new": "nFree := out.param.length + out.calib.length",
"claim": "C124 counts",
"edit": "`nFree := out.param.length` -> `nFree := out.param.length + out.calib.length`",
"count": 1,
"def": "reportOf"
},
{
"id": "p028",
"file": "Report",
"old": "filter fun k => k \u2209 out.userSS",
"new": "filter fun _ => true",
"claim": "C124 inferred",
"edit": "`filter fun k => k \u2209 out.userSS` -> `filter fun _ => true`",
"count": 1,
"def": "reportOf"
},
{
"id": "p029",
"file": "Report",
"old": "nShockPriors := out.shockPriors.length",
"new": "nShockPriors := out.paramPriors.length",
"claim": "C124 priors",
"edit": "`nShockPriors := out.shockPriors.length` -> `nShockPriors := out.paramPriors.length`",
"count": 1,
"def": "reportOf"
},
{
"id": "p030",
"file": "Report",
"old": "singletons := out.singletons.map createName",
"new": "singletons := out.reducedVars.map createName",
"claim": "C124 constants",
"edit": "`singletons := out.singletons.map createName` -> `singletons := out.reducedVars.map createName`",
"count": 1,
"def": "reportOf"
},
{
"id": "p031",
"file": "DataFromPrior",
"old": "\"add_solver_success_check\".toList, \"solver_tol\"",
"new": "\"solver_tol\"",
"claim": "C122 accepted keyword arguments",
"edit": "`\"add_solver_success_check\".toList, \"solver_tol\"` -> `\"solver_tol\"`",
"count": 1,
"def": "graphKwNames"
},
{
"id": "p032",
"file": "DataFromPrior",
"old": "graphSwitch kw \"register_data\" true",
"new": "graphSwitch kw \"register_data\" false",
"claim": "C122 data registered",
"edit": "`graphSwitch kw \"register_data\" true` -> `graphSwitch kw \"register_data\" false`",
"count": 1,
"def": "graphNodes"
},
{
"id": "p033",
"file": "DataFromPrior",
"old": "graphSwitch kw \"add_norm_check\" true",
"new": "graphSwitch kw \"add_norm_check\" false",
"claim": "C122 norm checks",
"edit": "`graphSwitch kw \"add_norm_check\" true` -> `graphSwitch kw \"add_norm_check\" false`",
"count": 1,
"def": "graphNodes"
},
{
"id": "p034",
"file": "DataFromPrior",
"old": "graphSwitch kw \"add_bk_check\" false",
"new": "graphSwitch kw \"add_bk_check\" true",
"claim": "C122 BK check",
"edit": "`graphSwitch kw \"add_bk_check\" false` -> `graphSwitch kw \"add_bk_check\" true`",
"count": 1,
"def": "graphNodes"
},
{
"id": "p035",
"file": "DataFromPrior",
"old": "graphSwitch kw \"add_solver_success_check\" false",
"new": "graphSwitch kw \"add_bk_check\" false",
"claim": "C122 success check",
"edit": "`graphSwitch kw \"add_solver_success_check\" false` -> `graphSwitch kw \"add_bk_check\" false`",
"count": 1,
"def": "graphNodes"
},
{
"id": "p036",
"file": "DataFromPrior",
"old": "if obj.cyclic then",
"new": "if !obj.cyclic then",
"claim": "C122 cycle steps",
"edit": "`if obj.cyclic then` -> `if !obj.cyclic then`",
"count": 1,
"def": "graphNodes"
},
{
"id": "p037",
"file": "DataFromPrior",
"old": "fit := some rows",
"new": "fit := obj.fit",
"claim": "C122 data rows",
"edit": "`fit := some rows` -> `fit := obj.fit`",
"count": 1,
"def": "buildGraph"
},
{
"id": "p038",
"file": "DataFromPrior",
"old": "m.nodes ++ graphNodes obj kw",
"new": "graphNodes obj kw",
"claim": "C122 the model keeps its priors",
"edit": "`m.nodes ++ graphNodes obj kw` -> `graphNodes obj kw`",
"count": 1,
"def": "buildGraph"
},
{
"id": "p039",
"file": "DataFromPrior",
"old": "if p.2 \u2208 idxs then none else p.1",
"new": "if p.2 \u2209 idxs then none else p.1",
"claim": "C122 which values are missing",
"edit": "`if p.2 \u2208 idxs then none else p.1` -> `if p.2 \u2209 idxs then none else p.1`",
"count": 1,
"def": "setMissing"
},
{
"id": "p040",
"file": "DataFromPrior",
"old": "col.zipIdx.map",
"new": "(col.zipIdx 1).map",
"claim": "C122 number of missing values",
"edit": "`col.zipIdx.map` -> `(col.zipIdx 1).map`",
"count": 1,
"def": "setMissing"
},
{
"id": "p041",
"file": "DataFromPrior",
"old": "missingLoop r rows k rest s.2",
"new": "rest",
"claim": "C122 every column",
"edit": "`missingLoop r rows k rest s.2` -> `rest`",
"count": 1,
"def": "missingLoop"
},
{
"id": "p042",
"file": "DataFromPrior",
"old": "if 0 < pct then",
"new": "if 0 \u2264 pct then",
"claim": "equivalent: nothing missing for 0",
"edit": "`if 0 < pct then` -> `if 0 \u2264 pct then`",
"count": 1,
"def": "addMissing"
},
{
"id": "p043",
"file": "DataFromPrior",
"old": ".floor.toNat",
"new": ".ceil.toNat",
"claim": "C122 int() truncates",
"edit": "`.floor.toNat` -> `.ceil.toNat`",
"count": 1,
"def": "addMissing"
},
{
"id": "p044",
"file": "DataFromPrior",
"old": "if rows < k \u2227 data \u2260 []",
"new": "if rows \u2264 k \u2227 data \u2260 []",
"claim": "C122 all missing is accepted",
"edit": "`if rows < k \u2227 data \u2260 []` -> `if rows \u2264 k \u2227 data \u2260 []`",
"count": 1,
"def": "addMissing"
},
{
"id": "p045",
"file": "DataFromPrior",
"old": "index.getD 180",
"new": "index.getD 120",
"claim": "C122 default index",
"edit": "`index.getD 180` -> `index.getD 120`",
"count": 1,
"def": "dataFromPrior"
},
{
"id": "p046",
"file": "DataFromPrior",
"old": "kwargs.getD []",
"new": "kwargs.getD dfpDefaults",
"claim": "C122 default arguments (would change the finding)",
"edit": "`kwargs.getD []` -> `kwargs.getD dfpDefaults`",
"count": 1,
"def": "dataFromPrior"
},
{
"id": "p047",
"file": "DataFromPrior",
"old": "{ obj1 with fit := none }",
"new": "obj1",
"claim": "C122 state left behind",
"edit": "`{ obj1 with fit := none }` -> `obj1`",
"count": 1,
"def": "dataFromPrior"
},
{
"id": "p048",
"file": "DataFromPrior",
"old": "caller := model",
"new": "caller := new",
"claim": "C122 model left behind",
"edit": "`caller := model` -> `caller := new`",
"count": 1,
"def": "dataFromPrior"
},
{
"id": "p049",
"file": "DataFromPrior",
"old": "match d.1[pk.1]?, t.1[pk.1]? with",
"new": "match d.1[0]?, t.1[pk.1]? with",
"claim": "C122 same draw",
"edit": "`match d.1[pk.1]?, t.1[pk.1]? with` -> `match d.1[0]?, t.1[pk.1]? with`",
"count": 1,
"def": "dataFromPrior"
},
{
"id": "p050",
"file": "DataFromPrior",
"old": "match d.1[pk.1]?, t.1[pk.1]? with",
"new": "match d.1[pk.1]?, t.1[0]? with",
"claim": "C122 same draw",
"edit": "`match d.1[pk.1]?, t.1[pk.1]? with` -> `match d.1[pk.1]?, t.1[0]? with`",
"count": 1,
"def": "dataFromPrior"
},
{
"id": "p051",
"file": "DataFromPrior",
"old": "paramIdx := pk.1",
"new": "paramIdx := 0",
"claim": "C122 index reported",
"edit": "`paramIdx := pk.1` -> `paramIdx := 0`",
"count": 1,
"def": "dataFromPrior"
},
{
"id": "p052",
"file": "DataFromPrior",
"old": "if \"data\".toList \u2209 model.nodes then buildGraph",
"new": "if False then buildGraph",
"claim": "C122 graph built",
"edit": "`if \"data\".toList \u2209 model.nodes then buildGraph` -> `if False then buildGraph`",
"count": 1,
"def": "dataFromPrior"
},
{
"id": "p053",
"file": "DataFromPrior",
"old": "ops.prior new nSamples g",
"new": "ops.prior model nSamples g",
"claim": "C122 sampled model",
"edit": "`ops.prior new nSamples g` -> `ops.prior model nSamples g`",
"count": 1,
"def": "dataFromPrior"
},
{
"id": "p054",
"file": "DataFromPrior",
"old": "ops.prior new nSamples g",
"new": "ops.prior new 500 g",
"claim": "C122 number of draws",
"edit": "`ops.prior new nSamples g` -> `ops.prior new 500 g`",
"count": 1,
"def": "dataFromPrior"
},
{
"id": "p055",
"file": "LoadSimplified",
"old": "\"lambda__\".toList <:+: x.base",
"new": "\"lambda\".toList <:+: x.base",
"claim": "C125 only generated multipliers",
"edit": "`\"lambda__\".toList <:+: x.base` -> `\"lambda\".toList <:+: x.base`",
"count": 1,
"def": "isGenerated"
},
{
"id": "p056",
"file": "LoadSimplified",
"old": "decide (\"lambda__\".toList <:+: x.base)",
"new": "true",
"claim": "C125 only generated multipliers",
"edit": "`decide (\"lambda__\".toList <:+: x.base)` -> `true`",
"count": 1,
"def": "isGenerated"
},
{
"id": "p057",
"file": "LoadSimplified",
"old": "st.equations.map fun e => e.subsSeq (expandSubsAllTimes [(x, rhs)])",
"new": "st.equations.map fun e => e.subsSeq [(.tv x, rhs)]",
"claim": "C125 other dates of the multiplier stay",
"edit": "`st.equations.map fun e => e.subsSeq (expandSubsAllTimes [(x, rhs)])` -> `st.equations.map fun e => e.subsSeq [(.tv x, rhs)]`",
"count": 1,
"def": "elimStep"
},
{
"id": "p058",
"file": "LoadSimplified",
"old": "\u27e8st.equations.map fun e",
"new": "\u27e8(st.equations.filter fun w => w \u2260 e).map fun e",
"claim": "C125 the pinning equation dropped (equivalent?)",
"edit": "`\u27e8st.equations.map fun e` -> `\u27e8(st.equations.filter fun w => w \u2260 e).map fun e`",
"count": 1,
"def": "elimStep"
},
{
"id": "p059",
"file": "LoadSimplified",
"old": "st.eliminated ++ [(x, rhs)]",
"new": "st.eliminated",
"claim": "C125 record of eliminated multipliers",
"edit": "`st.eliminated ++ [(x, rhs)]` -> `st.eliminated`",
"count": 1,
"def": "elimStep"
},
{
"id": "p060",
"file": "LoadSimplified",
"old": "| some rhs => some \u27e8st.equations.map fun e => e.subsSeq",
"new": "| some rhs => some \u27e8st.equations.tail.map fun e => e.subsSeq",
"claim": "C125 an equation lost",
"edit": "`| some rhs => some \u27e8st.equations.map fun e => e.subsSeq` -> `| some rhs => some \u27e8st.equations.tail.map fun e => e.subsSeq`",
"count": 1,
"def": "elimStep"
},
{
"id": "p061",
"file": "LoadSimplified",
"old": "fun e => decide (e \u2260 .num 0), s.eliminated",
"new": "fun e => decide (e = .num 0), s.eliminated",
"claim": "C125 equations kept",
"edit": "`fun e => decide (e \u2260 .num 0), s.eliminated` -> `fun e => decide (e = .num 0), s.eliminated`",
"count": 1,
"def": "simplifyEquations"
},
{
"id": "p062",
"file": "LoadSimplified",
"old": "filter fun e => decide (e \u2260 .num 0)",
"new": "filter fun e => decide (e.tsyms \u2260 [])",
"claim": "C125 equations between parameters lost",
"edit": "`filter fun e => decide (e \u2260 .num 0)` -> `filter fun e => decide (e.tsyms \u2260 [])`",
"count": 1,
"def": "simplifyEquations"
},
{
"id": "p063",
"file": "LoadSimplified",
"old": "(s.equations.map ops.norm).filter",
"new": "(s.equations.map ops.norm).eraseDups.filter",
"claim": "equivalent: repeated equations dropped",
"edit": "`(s.equations.map ops.norm).filter` -> `(s.equations.map ops.norm).eraseDups.filter`",
"count": 1,
"def": "simplifyEquations"
},
{
"id": "p064",
"file": "LoadSimplified",
"old": "then none else some v",
"new": "then some v else none",
"claim": "C125 the other multipliers stay",
"edit": "`then none else some v` -> `then some v else none`",
"count": 1,
"def": "clearMultipliers"
},
{
"id": "p065",
"file": "LoadSimplified",
"old": "decide (v = { q.1 with idx := i })",
"new": "decide (v.base = q.1.base)",
"claim": "C125 multipliers lost by name only",
"edit": "`decide (v = { q.1 with idx := i })` -> `decide (v.base = q.1.base)`",
"count": 1,
"def": "clearMultipliers"
},
{
"id": "p066",
"file": "LoadSimplified",
"old": "    | none => none)",
"new": "    | none => some \u27e8[], .ss, []\u27e9)",
"claim": "C125 no variable is added",
"edit": "`    | none => none)` -> `    | none => some \u27e8[], .ss, []\u27e9)`",
"count": 1,
"def": "clearMultipliers"
},
{
"id": "p067",
"file": "LoadSimplified",
"old": "B.variableList vs0 (clearMultipliers",
"new": "B.variableList [] (clearMultipliers",
"claim": "C125 variables lost",
"edit": "`B.variableList vs0 (clearMultipliers` -> `B.variableList [] (clearMultipliers`",
"count": 1,
"def": "constructBlockS"
},
{
"id": "p068",
"file": "LoadSimplified",
"old": "dicts, vs, s.equations\u27e9",
"new": "dicts, vs, r.equations\u27e9",
"claim": "C125 equations not simplified",
"edit": "`dicts, vs, s.equations\u27e9` -> `dicts, vs, r.equations\u27e9`",
"count": 1,
"def": "constructBlockS"
},
{
"id": "p069",
"file": "LoadSimplified",
"old": "dicts, vs, s.equations\u27e9, s.eliminated\u27e9",
"new": "dicts, vs0, s.equations\u27e9, s.eliminated\u27e9",
"claim": "C125 multipliers that stay are lost",
"edit": "`dicts, vs, s.equations\u27e9, s.eliminated\u27e9` -> `dicts, vs0, s.equations\u27e9, s.eliminated\u27e9`",
"count": 1,
"def": "constructBlockS"
},
{
"id": "p070",
"file": "LoadSimplified",
"old": "| none => .ok \u27e8\u27e8{ B with multipliers := r.multipliers }, dicts, vs0, r.equations\u27e9, []\u27e9",
"new": "| none => .ok \u27e8\u27e8{ B with multipliers := r.multipliers }, dicts, [], r.equations\u27e9, []\u27e9",
"claim": "C125 variables of plain blocks",
"edit": "`| none => .ok \u27e8\u27e8{ B with multipliers := r.multipliers }, dicts, vs0, r.equations\u27e9, []\u27e9` -> `| none => .ok \u27e8\u27e8{ B with multipliers := r.multipliers }, dicts, [], r.equations\u27e9, []\u27e9`",
"count": 1,
"def": "constructBlockS"
},
{
"id": "p071",
"file": "LoadSimplified",
"old": "dset acc r.built.block.name r",
"new": "(r.built.block.name, r) :: acc",
"claim": "C125 order of blocks",
"edit": "`dset acc r.built.block.name r` -> `(r.built.block.name, r) :: acc`",
"count": 1,
"def": "blockDictLoopS"
},
{
"id": "p072",
"file": "LoadSimplified",
"old": "if isSkippedName b.name then",
"new": "if !isSkippedName b.name then",
"claim": "C125 which blocks",
"edit": "`if isSkippedName b.name then` -> `if !isSkippedName b.name then`",
"count": 1,
"def": "blockDictLoopS"
},
{
"id": "p073",
"file": "LoadSimplified",
"old": "mergeParams (bs.map fun b => b.dicts.calib)",
"new": "mergeParams (bs.map fun b => b.dicts.determ)",
"claim": "C125 calibration",
"edit": "`mergeParams (bs.map fun b => b.dicts.calib)` -> `mergeParams (bs.map fun b => b.dicts.determ)`",
"count": 1,
"def": "loadRestS"
},
{
"id": "p074",
"file": "LoadSimplified",
"old": "equations := bs.flatMap Built.equations",
"new": "equations := (bs.take 1).flatMap Built.equations",
"claim": "C125 equations",
"edit": "`equations := bs.flatMap Built.equations` -> `equations := (bs.take 1).flatMap Built.equations`",
"count": 1,
"def": "loadRestS"
},
{
"id": "p075",
"file": "LoadSimplified",
"old": "shocks := vs.2",
"new": "shocks := vs.1",
"claim": "C125 shocks",
"edit": "`shocks := vs.2` -> `shocks := vs.1`",
"count": 1,
"def": "loadRestS"
},
{
"id": "p076",
"file": "LoadSimplified",
"old": "ss := sortToString ss",
"new": "ss := []",
"claim": "C125 steady-state values",
"edit": "`ss := sortToString ss` -> `ss := []`",
"count": 1,
"def": "loadRestS"
},
{
"id": "p077",
"file": "LoadSimplified",
"old": "bd.flatMap fun p => p.2.eliminated)",
"new": "[])",
"claim": "C125 eliminated multipliers",
"edit": "`bd.flatMap fun p => p.2.eliminated)` -> `[])`",
"count": 1,
"def": "loadRestS"
},
{
"id": "p078",
"file": "LoadSimplified",
"old": "loadModelS ops m.toMdl",
"new": "loadModelS ops { m.toMdl with blocks := m.toMdl.blocks.reverse }",
"claim": "C125 order of blocks",
"edit": "`loadModelS ops m.toMdl` -> `loadModelS ops { m.toMdl with blocks := m.toMdl.blocks.reverse }`",
"count": 1,
"def": "LoadGcnFile"
}
]