[
 {
  "id": "a001",
  "file": "Time",
  "def": "createName",
  "old": "if idx = ['0'] then s.base ++ ['_', 't']",
  "new": "if idx = ['0'] then s.base ++ ['_', 't'] else if k = 1 then s.base ++ ['_', 't']",
  "claim": "C01 names identify symbols",
  "edit": "`if idx = ['0'] then s.base ++ ['_', 't']` -> `if idx = ['0'] then s.base ++ ['_', 't'] else if k = 1 then s.base ++ ['_', 't']`",
  "count": 1
 },
 {
  "id": "a002",
  "file": "Time",
  "def": "determineOperator",
  "old": "if k > 0 then ['+'] else if k < 0 then ['-'] else []",
  "new": "if k > 0 then ['+'] else if k < -1 then ['-'] else []",
  "claim": "C01 x(t-1) printed like x_t1",
  "edit": "`if k > 0 then ['+'] else if k < 0 then ['-'] else []` -> `if k > 0 then ['+'] else if k < -1 then ['-'] else []`",
  "count": 1
 },
 {
  "id": "a003",
  "file": "Time",
  "def": "determineOperator",
  "old": "if k > 0 then ['+'] else if k < 0 then ['-'] else []",
  "new": "[]",
  "claim": "C01 sign dropped from names",
  "edit": "`if k > 0 then ['+'] else if k < 0 then ['-'] else []` -> `[]`",
  "count": 1
 },
 {
  "id": "a004",
  "file": "Time",
  "def": "stepForward",
  "old": "{ s with idx := .t (k + 1) }",
  "new": "{ s with idx := .t (k + 2) }",
  "claim": "C02 forward then backward is the identity",
  "edit": "`{ s with idx := .t (k + 1) }` -> `{ s with idx := .t (k + 2) }`",
  "count": 1
 },
 {
  "id": "a005",
  "file": "Time",
  "def": "stepBackward",
  "old": "| .t k => .ok { s with idx := .t (k - 1) }\n  | .ss => .error .typeError",
  "new": "| .t k => .ok { s with idx := .t (k - 1) }\n  | .ss => .ok s",
  "claim": "C02 stepping a steady-state symbol raises",
  "edit": "`| .t k => .ok { s with idx := .t (k - 1) }\n  | .ss => .error .typeError` -> `| .t k => .ok { s with idx := .t (k - 1) }\n  | .ss => .ok s`",
  "count": 1
 },
 {
  "id": "a006",
  "file": "Time",
  "def": "setT",
  "old": "if w \u2260 ['s', 's'] then .error .valueError else .ok { s with idx := .ss }",
  "new": ".ok { s with idx := .ss }",
  "claim": "C02 set_t rejects other strings",
  "edit": "`if w \u2260 ['s', 's'] then .error .valueError else .ok { s with idx := .ss }` -> `.ok { s with idx := .ss }`",
  "count": 1
 },
 {
  "id": "a007",
  "file": "Time",
  "def": "exitSS",
  "old": "| .t _ => s",
  "new": "| .t _ => { s with idx := .t 0 }",
  "claim": "C02 exit_ss leaves dated symbols alone",
  "edit": "`| .t _ => s` -> `| .t _ => { s with idx := .t 0 }`",
  "count": 1
 },
 {
  "id": "a008",
  "file": "Time",
  "def": "replacePM",
  "old": "(s.map fun c => if c = '+' then 'p' else c)",
  "new": "(s.map fun c => if c = '+' then 'm' else c)",
  "claim": "C01 safe names identify symbols",
  "edit": "`(s.map fun c => if c = '+' then 'p' else c)` -> `(s.map fun c => if c = '+' then 'm' else c)`",
  "count": 1
 },
 {
  "id": "a009",
  "file": "Time",
  "def": "toSS",
  "old": "{ s with idx := .ss }",
  "new": "{ s with idx := .ss, asm := [] }",
  "claim": "C02 to_ss keeps the assumptions",
  "edit": "`{ s with idx := .ss }` -> `{ s with idx := .ss, asm := [] }`",
  "count": 2,
  "nth": 0
 },
 {
  "id": "a010",
  "file": "Containers",
  "def": "safeStringToIndex",
  "old": "(['t','p','1'], .t 1), (['t','m','1'], .t (-1))",
  "new": "(['t','p','1'], .t (-1)), (['t','m','1'], .t 1)",
  "claim": "C03 round trip",
  "edit": "`(['t','p','1'], .t 1), (['t','m','1'], .t (-1))` -> `(['t','p','1'], .t (-1)), (['t','m','1'], .t 1)`",
  "count": 1
 },
 {
  "id": "a011",
  "file": "Containers",
  "def": "hasTimeSuffix",
  "old": "[['_','t'], ['_','t','p','1'], ['_','t','m','1'], ['_','s','s']]",
  "new": "[['_','t'], ['_','t','p','1'], ['_','s','s']]",
  "claim": "C03 round trip of lags",
  "edit": "`[['_','t'], ['_','t','p','1'], ['_','t','m','1'], ['_','s','s']]` -> `[['_','t'], ['_','t','p','1'], ['_','s','s']]`",
  "count": 1
 },
 {
  "id": "a012",
  "file": "Containers",
  "def": "keyToSympy",
  "old": "(dget m.isVar s).getD true = false \u2228 hasTimeSuffix s = false",
  "new": "hasTimeSuffix s = false",
  "claim": "C03 parameter named like a variable keeps its kind",
  "edit": "`(dget m.isVar s).getD true = false \u2228 hasTimeSuffix s = false` -> `hasTimeSuffix s = false`",
  "count": 1
 },
 {
  "id": "a013",
  "file": "Containers",
  "def": "saveKey",
  "old": "| .par n a => { asm := dset m.asm n a, isVar := dset m.isVar n false }",
  "new": "| .par n a => { asm := dset m.asm n a, isVar := dset m.isVar n true }",
  "claim": "C03 parameter kind is recorded",
  "edit": "`| .par n a => { asm := dset m.asm n a, isVar := dset m.isVar n false }` -> `| .par n a => { asm := dset m.asm n a, isVar := dset m.isVar n true }`",
  "count": 1
 },
 {
  "id": "a014",
  "file": "Containers",
  "def": "saveKey",
  "old": "| .var s => { asm := dset m.asm s.base s.asm,",
  "new": "| .var s => { asm := dset m.asm s.base [],",
  "claim": "C03 assumptions are restored",
  "edit": "`| .var s => { asm := dset m.asm s.base s.asm,` -> `| .var s => { asm := dset m.asm s.base [],`",
  "count": 1
 },
 {
  "id": "a015",
  "file": "Containers",
  "def": "SDict.new",
  "old": "if items.any (fun q => q.1.isSym \u2260 isSympy) then .error .keyError\n    else if",
  "new": "if",
  "claim": "C04 the constructor rejects mixed keys",
  "edit": "`if items.any (fun q => q.1.isSym \u2260 isSympy) then .error .keyError\n    else if` -> `if`",
  "count": 1
 },
 {
  "id": "a016",
  "file": "Containers",
  "def": "SDict.setItem",
  "old": "if d.isSympy \u2260 k.isSym then .error .keyError\n  else",
  "new": "if false then .error .keyError\n  else",
  "claim": "C04 setitem rejects keys of the other kind",
  "edit": "`if d.isSympy \u2260 k.isSym then .error .keyError\n  else` -> `if false then .error .keyError\n  else`",
  "count": 1
 },
 {
  "id": "a017",
  "file": "Containers",
  "def": "SDict.setItem",
  "old": "let d := if d.items.isEmpty then { d with isSympy := k.isSym } else d",
  "new": "let d := { d with isSympy := k.isSym }",
  "claim": "C04 setitem on a non-empty dict keeps the mode",
  "edit": "`let d := if d.items.isEmpty then { d with isSympy := k.isSym } else d` -> `let d := { d with isSympy := k.isSym }`",
  "count": 1
 },
 {
  "id": "a018",
  "file": "Containers",
  "def": "SDict.or",
  "old": "else if o.isSympy \u2260 d.isSympy then .error .valueError\n",
  "new": "",
  "claim": "C04 or of dicts with different modes raises",
  "edit": "`else if o.isSympy \u2260 d.isSympy then .error .valueError` -> ``",
  "count": 1
 },
 {
  "id": "a019",
  "file": "Containers",
  "def": "SDict.updateDict",
  "old": "let h := h.put d.ref ((h.get d.ref).update (h.get o.ref))",
  "new": "let h := h.put o.ref ((h.get d.ref).update (h.get o.ref))",
  "claim": "C05 update does not write into the operand",
  "edit": "`let h := h.put d.ref ((h.get d.ref).update (h.get o.ref))` -> `let h := h.put o.ref ((h.get d.ref).update (h.get o.ref))`",
  "count": 1
 },
 {
  "id": "a020",
  "file": "Containers",
  "def": "SDict.updateDict",
  "old": "let items := dupdate d.items o.items\n  let h",
  "new": "let items := dupdate o.items d.items\n  let h",
  "claim": "C05 merge: right operand wins",
  "edit": "`let items := dupdate d.items o.items\n  let h` -> `let items := dupdate o.items d.items\n  let h`",
  "count": 1
 },
 {
  "id": "a021",
  "file": "Containers",
  "def": "stepItems",
  "old": "stepItems f (dset acc k' v) rest",
  "new": "stepItems f (match dget acc k' with | some _ => acc | none => dset acc k' v) rest",
  "claim": "C06 last value per variable is kept",
  "edit": "`stepItems f (dset acc k' v) rest` -> `stepItems f (match dget acc k' with | some _ => acc | none => dset acc k' v) rest`",
  "count": 1
 },
 {
  "id": "a022",
  "file": "Containers",
  "def": "stepKey",
  "old": "| .ss => .ok (.var (toSS s))",
  "new": "| .ss => .ok (.var s)",
  "claim": "C06 keys become steady-state symbols",
  "edit": "`| .ss => .ok (.var (toSS s))` -> `| .ss => .ok (.var s)`",
  "count": 1
 },
 {
  "id": "a023",
  "file": "Containers",
  "def": "SDict.toStr",
  "old": "return (s, h.put s.ref (h.get c.ref))",
  "new": "return (s, h)",
  "claim": "C03 to_string keeps the metadata needed to convert back",
  "edit": "`return (s, h.put s.ref (h.get c.ref))` -> `return (s, h)`",
  "count": 1
 },
 {
  "id": "a024",
  "file": "Containers",
  "def": "SDict.cleanUpdate",
  "old": "SDict.updateDict h' { d with items := [] } o",
  "new": "SDict.updateDict h' d o",
  "claim": "C03 in-place conversion replaces the old keys",
  "edit": "`SDict.updateDict h' { d with items := [] } o` -> `SDict.updateDict h' d o`",
  "count": 1
 },
 {
  "id": "a025",
  "file": "ExpandTime",
  "def": "collectVar",
  "old": "if k < -1 then { d",
  "new": "if k < -2 then { d",
  "claim": "C07 only one-period lags remain",
  "edit": "`if k < -1 then { d` -> `if k < -2 then { d`",
  "count": 1
 },
 {
  "id": "a026",
  "file": "ExpandTime",
  "def": "collectVar",
  "old": "if k < -1 then { d",
  "new": "if k \u2264 -1 then { d",
  "claim": "C09 shallow blocks are returned unchanged",
  "edit": "`if k < -1 then { d` -> `if k \u2264 -1 then { d`",
  "count": 1
 },
 {
  "id": "a027",
  "file": "ExpandTime",
  "def": "collectVar",
  "old": "(min ((dget d.lags x).getD 0) k)",
  "new": "k",
  "claim": "C08 meaning preserved: deepest lag defines the chain",
  "edit": "`(min ((dget d.lags x).getD 0) k)` -> `k`",
  "count": 1
 },
 {
  "id": "a028",
  "file": "ExpandTime",
  "def": "collectVar",
  "old": "(max ((dget d.leads x).getD 0) k)",
  "new": "(min ((dget d.leads x).getD 9) k)",
  "claim": "C08 deepest lead defines the chain",
  "edit": "`(max ((dget d.leads x).getD 0) k)` -> `(min ((dget d.leads x).getD 9) k)`",
  "count": 1
 },
 {
  "id": "a029",
  "file": "ExpandTime",
  "def": "replaceVar",
  "old": "(makeLagName x (k.natAbs - 1), .t (-1))",
  "new": "(makeLagName x k.natAbs, .t (-1))",
  "claim": "C08 meaning preserved",
  "edit": "`(makeLagName x (k.natAbs - 1), .t (-1))` -> `(makeLagName x k.natAbs, .t (-1))`",
  "count": 1
 },
 {
  "id": "a030",
  "file": "ExpandTime",
  "def": "replaceVar",
  "old": "(makeLeadName x (k.natAbs - 1), .t 1)",
  "new": "(makeLagName x (k.natAbs - 1), .t 1)",
  "claim": "C08 leads are replaced by lead auxiliaries",
  "edit": "`(makeLeadName x (k.natAbs - 1), .t 1)` -> `(makeLagName x (k.natAbs - 1), .t 1)`",
  "count": 1
 },
 {
  "id": "a031",
  "file": "ExpandTime",
  "def": "lagLink",
  "old": "else makeLagName x (level - 1)) (.t (-1))",
  "new": "else makeLagName x (level - 1)) (.t 0)",
  "claim": "C08 chain equations shift by one",
  "edit": "`else makeLagName x (level - 1)) (.t (-1))` -> `else makeLagName x (level - 1)) (.t 0)`",
  "count": 1
 },
 {
  "id": "a032",
  "file": "ExpandTime",
  "def": "createLeadChain",
  "old": "(List.range' 1 depth).map (leadLink x)",
  "new": "(List.range' 1 (depth - 1)).map (leadLink x)",
  "claim": "C10 one equation per auxiliary variable",
  "edit": "`(List.range' 1 depth).map (leadLink x)` -> `(List.range' 1 (depth - 1)).map (leadLink x)`",
  "count": 1
 },
 {
  "id": "a033",
  "file": "ExpandTime",
  "def": "auxIdentities",
  "old": "d.leads.flatMap (fun p => createLeadChain p.1 (p.2.natAbs - 1))",
  "new": "[]",
  "claim": "C10 one equation per auxiliary variable",
  "edit": "`d.leads.flatMap (fun p => createLeadChain p.1 (p.2.natAbs - 1))` -> `[]`",
  "count": 1
 },
 {
  "id": "a034",
  "file": "ExpandTime",
  "def": "blockDeep",
  "old": "let c := b.controls.foldl (fun s v => collectVar s v.name v.t) ({} : Deep)",
  "new": "let c : Deep := {}",
  "claim": "C07 deep controls are expanded too",
  "edit": "`let c := b.controls.foldl (fun s v => collectVar s v.name v.t) ({} : Deep)` -> `let c : Deep := {}`",
  "count": 1
 },
 {
  "id": "a035",
  "file": "ExpandTime",
  "def": "expandBlock",
  "old": "constraints := b.constraints.map (replaceEqn d)",
  "new": "constraints := b.constraints",
  "claim": "C07 constraints keep deep lags",
  "edit": "`constraints := b.constraints.map (replaceEqn d)` -> `constraints := b.constraints`",
  "count": 1
 },
 {
  "id": "a036",
  "file": "ExpandTime",
  "def": "expandBlock",
  "old": "objective := b.objective.map (replaceEqn d)",
  "new": "objective := []",
  "claim": "C08 objective preserved",
  "edit": "`objective := b.objective.map (replaceEqn d)` -> `objective := []`",
  "count": 1
 },
 {
  "id": "a037",
  "file": "ExpandTime",
  "def": "expandBlock",
  "old": "shockDists := b.shockDists\n",
  "new": "",
  "claim": "C08 shock distributions preserved",
  "edit": "`shockDists := b.shockDists` -> ``",
  "count": 1
 },
 {
  "id": "a038",
  "file": "ExpandTime",
  "def": "expandBlock",
  "old": "(b.identities ++ auxIdentities d).map (replaceEqn d)",
  "new": "(auxIdentities d).map (replaceEqn d)",
  "claim": "C08 user identities preserved",
  "edit": "`(b.identities ++ auxIdentities d).map (replaceEqn d)` -> `(auxIdentities d).map (replaceEqn d)`",
  "count": 1
 },
 {
  "id": "a039",
  "file": "ExpandTime",
  "def": "replaceEqn",
  "old": "{ e with lhs := replaceExpr d e.lhs, rhs := replaceExpr d e.rhs }",
  "new": "{ lhs := replaceExpr d e.lhs, rhs := replaceExpr d e.rhs }",
  "claim": "C08 multipliers/calibrating params/tags carried over",
  "edit": "`{ e with lhs := replaceExpr d e.lhs, rhs := replaceExpr d e.rhs }` -> `{ lhs := replaceExpr d e.lhs, rhs := replaceExpr d e.rhs }`",
  "count": 1
 },
 {
  "id": "a040",
  "file": "ExpandTime",
  "def": "expandModel",
  "old": "{ m with blocks := m.blocks.map expandBlock }",
  "new": "{ m with blocks := (m.blocks.take 1).map expandBlock }",
  "claim": "C07 every block is expanded",
  "edit": "`{ m with blocks := m.blocks.map expandBlock }` -> `{ m with blocks := (m.blocks.take 1).map expandBlock }`",
  "count": 1
 },
 {
  "id": "a041",
  "file": "Printer",
  "def": "prec",
  "old": ".mul => 2 | .div => 2 | .pow => 3",
  "new": ".mul => 2 | .div => 2 | .pow => 2",
  "claim": "C11 print/parse round trip",
  "edit": "`.mul => 2 | .div => 2 | .pow => 3` -> `.mul => 2 | .div => 2 | .pow => 2`",
  "count": 1
 },
 {
  "id": "a042",
  "file": "Printer",
  "def": "rightPrec",
  "old": "if o = .pow then prec o - 1 else prec o",
  "new": "prec o",
  "claim": "C11 counts of parentheses in right operand",
  "edit": "`if o = .pow then prec o - 1 else prec o` -> `prec o`",
  "count": 1
 },
 {
  "id": "a043",
  "file": "Printer",
  "def": "Expr.toks",
  "old": "if prec o < p then",
  "new": "if prec o \u2264 p then",
  "claim": "C11 no redundant parentheses (not claimed)",
  "edit": "`if prec o < p then` -> `if prec o \u2264 p then`",
  "count": 1
 },
 {
  "id": "a044",
  "file": "Printer",
  "def": "negPrec",
  "old": "def negPrec : Nat := 4",
  "new": "def negPrec : Nat := 0",
  "claim": "C11 -(a+b) printed without parentheses",
  "edit": "`def negPrec : Nat := 4` -> `def negPrec : Nat := 0`",
  "count": 1
 },
 {
  "id": "a045",
  "file": "Printer",
  "def": "Eqn.toks",
  "old": "[.arrow, .id (c :: cs)] | _ => [])",
  "new": "[] | _ => [])",
  "claim": "C11 calibrating parameter lost in print",
  "edit": "`[.arrow, .id (c :: cs)] | _ => [])` -> `[] | _ => [])`",
  "count": 1
 },
 {
  "id": "a046",
  "file": "Printer",
  "def": "pLagrange",
  "old": "| .colon :: .id n :: .tix _ :: ts => (some n, ts)",
  "new": "| .colon :: .id _ :: .tix _ :: ts => (none, ts)",
  "claim": "C11 multiplier lost in parsing",
  "edit": "`| .colon :: .id n :: .tix _ :: ts => (some n, ts)` -> `| .colon :: .id _ :: .tix _ :: ts => (none, ts)`",
  "count": 1
 },
 {
  "id": "a047",
  "file": "Printer",
  "def": "pArgs",
  "old": "some (as, r') => some (a :: as, r')",
  "new": "some (as, r') => some (as, r')",
  "claim": "C11 call arguments lost",
  "edit": "`some (as, r') => some (a :: as, r')` -> `some (as, r') => some (as, r')`",
  "count": 1
 },
 {
  "id": "a048",
  "file": "Printer",
  "def": "pAddLoop",
  "old": "pAddLoop f (.bin .sub a b) r",
  "new": "pAddLoop f (.bin .sub b a) r",
  "claim": "C11 subtraction operands swapped",
  "edit": "`pAddLoop f (.bin .sub a b) r` -> `pAddLoop f (.bin .sub b a) r`",
  "count": 1
 },
 {
  "id": "a049",
  "file": "Printer",
  "def": "Blk.addComp",
  "old": "| .shocks vs ds => { b with shocks := vs, shockDists := ds }",
  "new": "| .shocks vs _ => { b with shocks := vs }",
  "claim": "C43 shock distributions lost in parsing",
  "edit": "`| .shocks vs ds => { b with shocks := vs, shockDists := ds }` -> `| .shocks vs _ => { b with shocks := vs }`",
  "count": 1
 },
 {
  "id": "a050",
  "file": "Printer",
  "def": "Blk.addComp",
  "old": "| .constraints es => { b with constraints := es }",
  "new": "| .constraints es => { b with identities := es }",
  "claim": "C43 component stored in wrong field",
  "edit": "`| .constraints es => { b with constraints := es }` -> `| .constraints es => { b with identities := es }`",
  "count": 1
 },
 {
  "id": "a051",
  "file": "Printer",
  "def": "Blk.printComps",
  "old": "++ (if b.calibration.isEmpty then [] else",
  "new": "++ (if b.calibration.length \u2264 1 then [] else",
  "claim": "C11 single calibration equation not printed",
  "edit": "`++ (if b.calibration.isEmpty then [] else` -> `++ (if b.calibration.length \u2264 1 then [] else`",
  "count": 1
 },
 {
  "id": "a052",
  "file": "Sym",
  "def": "descT",
  "old": "| .t i, .t j => j \u2264 i",
  "new": "| .t i, .t j => i \u2264 j",
  "claim": "C12 stepping forward in the wrong order",
  "edit": "`| .t i, .t j => j \u2264 i` -> `| .t i, .t j => i \u2264 j`",
  "count": 1
 },
 {
  "id": "a053",
  "file": "Sym",
  "def": "stepFwdIn",
  "old": "let w \u2190 stepForward v",
  "new": "let w \u2190 stepBackward v",
  "claim": "C12 forward steps backward",
  "edit": "`let w \u2190 stepForward v` -> `let w \u2190 stepBackward v`",
  "count": 1
 },
 {
  "id": "a054",
  "file": "Sym",
  "def": "stepBwd",
  "old": "stepBwdIn ((e.tsyms.eraseDups).mergeSort ascT) e",
  "new": "stepBwdIn ((e.tsyms.eraseDups).mergeSort descT) e",
  "claim": "C12 stepping backward in the wrong order",
  "edit": "`stepBwdIn ((e.tsyms.eraseDups).mergeSort ascT) e` -> `stepBwdIn ((e.tsyms.eraseDups).mergeSort descT) e`",
  "count": 1
 },
 {
  "id": "a055",
  "file": "Sym",
  "def": "eqToSSIn",
  "old": "(shocks.map fun x => (.tv (toSS x), .num 0))",
  "new": "[]",
  "claim": "C13 shocks are zero in the steady state",
  "edit": "`(shocks.map fun x => (.tv (toSS x), .num 0))` -> `[]`",
  "count": 1
 },
 {
  "id": "a056",
  "file": "Sym",
  "def": "SExpr.diff",
  "old": "| .mul a b => .add (.mul (a.diff x) b) (.mul a (b.diff x))",
  "new": "| .mul a b => .mul (a.diff x) (b.diff x)",
  "claim": "C14 derivative wrong",
  "edit": "`| .mul a b => .add (.mul (a.diff x) b) (.mul a (b.diff x))` -> `| .mul a b => .mul (a.diff x) (b.diff x)`",
  "count": 1
 },
 {
  "id": "a057",
  "file": "Sym",
  "def": "SExpr.diff",
  "old": "| .pow a b => .mul (.pow a b) (.add (.mul (b.diff x) (.log a)) (.mul (a.diff x) (div b a)))",
  "new": "| .pow a b => .mul (.pow a b) (.mul (a.diff x) (div b a))",
  "claim": "C14 derivative with respect to the exponent missing",
  "edit": "`| .pow a b => .mul (.pow a b) (.add (.mul (b.diff x) (.log a)) (.mul (a.diff x) (div b a)))` -> `| .pow a b => .mul (.pow a b) (.mul (a.diff x) (div b a))`",
  "count": 1
 },
 {
  "id": "a058",
  "file": "Sym",
  "def": "dttLoop",
  "old": "| .ok b' => dttLoop x n (b.times e') b' total",
  "new": "| .ok b' => dttLoop x n (b'.times e') b' total",
  "claim": "C14 discount factor taken one period late",
  "edit": "`| .ok b' => dttLoop x n (b.times e') b' total` -> `| .ok b' => dttLoop x n (b'.times e') b' total`",
  "count": 1
 },
 {
  "id": "a059",
  "file": "Sym",
  "def": "dttLoop",
  "old": "dttLoop x n (b.times e') b' total",
  "new": "dttLoop x n e' b' total",
  "claim": "C14 future terms not discounted",
  "edit": "`dttLoop x n (b.times e') b' total` -> `dttLoop x n e' b' total`",
  "count": 1
 },
 {
  "id": "a060",
  "file": "Sym",
  "def": "diffThroughTime",
  "old": "(max 0 (k - m)).toNat + 1",
  "new": "(max 0 (k - m)).toNat",
  "claim": "C14 last lag dropped",
  "edit": "`(max 0 (k - m)).toNat + 1` -> `(max 0 (k - m)).toNat`",
  "count": 1
 },
 {
  "id": "a061",
  "file": "Sym",
  "def": "minTime",
  "old": "| .t k :: ts => (minTime ts).map (min k)",
  "new": "| .t k :: ts => (minTime ts).map (max k)",
  "claim": "C14 deepest lag missed",
  "edit": "`| .t k :: ts => (minTime ts).map (min k)` -> `| .t k :: ts => (minTime ts).map (max k)`",
  "count": 1
 },
 {
  "id": "a062",
  "file": "Sym",
  "def": "timesOf",
  "old": "e.tsyms.filter fun s => s.base = base",
  "new": "e.tsyms.filter fun s => s.base = base \u2227 s.idx \u2260 .t (-1)",
  "claim": "C14 lags missed",
  "edit": "`e.tsyms.filter fun s => s.base = base` -> `e.tsyms.filter fun s => s.base = base \u2227 s.idx \u2260 .t (-1)`",
  "count": 1
 },
 {
  "id": "a063",
  "file": "Sym",
  "def": "resolve",
  "old": "else if key \u2208 st.visiting then some none",
  "new": "else if key \u2208 st.visiting then some (some st)",
  "claim": "C15 cycles are reported",
  "edit": "`else if key \u2208 st.visiting then some none` -> `else if key \u2208 st.visiting then some (some st)`",
  "count": 1
 },
 {
  "id": "a064",
  "file": "Sym",
  "def": "resolve",
  "old": "subsSeq\n          ((flatDeps d key).map fun k => (k, (dget st'.flat k).getD (.sym k)))",
  "new": "subsSeq\n          ((flatDeps d key).map fun k => (k, (dget d k).getD (.sym k)))",
  "claim": "C15 every value is fully resolved",
  "edit": "`subsSeq\n          ((flatDeps d key).map fun k => (k, (dget st'.flat k).getD (.sym k)))` -> `subsSeq\n          ((flatDeps d key).map fun k => (k, (dget d k).getD (.sym k)))`",
  "count": 1
 },
 {
  "id": "a065",
  "file": "Sym",
  "def": "resolve",
  "old": "visiting := st'.visiting.erase key",
  "new": "visiting := st'.visiting",
  "claim": "C15 acyclic dictionaries resolve (diamond)",
  "edit": "`visiting := st'.visiting.erase key` -> `visiting := st'.visiting`",
  "count": 1
 },
 {
  "id": "a066",
  "file": "Sym",
  "def": "flattenSubs",
  "old": "(resolveAll d (d.length + 1) (dkeys d) {})",
  "new": "(resolveAll d (d.length + 1) ((dkeys d).take 1) {})",
  "claim": "C15 every key is resolved",
  "edit": "`(resolveAll d (d.length + 1) (dkeys d) {})` -> `(resolveAll d (d.length + 1) ((dkeys d).take 1) {})`",
  "count": 1
 },
 {
  "id": "a067",
  "file": "ToSympy",
  "def": "convBin",
  "old": "| .sub, a, b => a.sub b",
  "new": "| .sub, a, b => b.sub a",
  "claim": "C51 value preserved",
  "edit": "`| .sub, a, b => a.sub b` -> `| .sub, a, b => b.sub a`",
  "count": 1
 },
 {
  "id": "a068",
  "file": "ToSympy",
  "def": "convBin",
  "old": "| .div, a, b => a.div b",
  "new": "| .div, a, b => .mul a b",
  "claim": "C51 value preserved",
  "edit": "`| .div, a, b => a.div b` -> `| .div, a, b => .mul a b`",
  "count": 1
 },
 {
  "id": "a069",
  "file": "ToSympy",
  "def": "convCall",
  "old": "SExpr.div (.log a) (.log b)",
  "new": "SExpr.div (.log b) (.log a)",
  "claim": "C51 log base",
  "edit": "`SExpr.div (.log a) (.log b)` -> `SExpr.div (.log b) (.log a)`",
  "count": 1
 },
 {
  "id": "a070",
  "file": "ToSympy",
  "def": "convCall",
  "old": ".pow a (.num (1/2))",
  "new": ".pow a (.num 2)",
  "claim": "C51 sqrt",
  "edit": "`.pow a (.num (1/2))` -> `.pow a (.num 2)`",
  "count": 1
 },
 {
  "id": "a071",
  "file": "ToSympy",
  "def": "toSympy",
  "old": "| .ok a => .ok a.neg",
  "new": "| .ok a => .ok a",
  "claim": "C51 unary minus",
  "edit": "`| .ok a => .ok a.neg` -> `| .ok a => .ok a`",
  "count": 1
 },
 {
  "id": "a072",
  "file": "ToSympy",
  "def": "eqnToSympy",
  "old": "r.sub l\u27e9",
  "new": "r\u27e9",
  "claim": "C21 calibrating equation is rhs - lhs = 0",
  "edit": "`r.sub l\u27e9` -> `r\u27e9`",
  "count": 1
 },
 {
  "id": "a073",
  "file": "ToSympy",
  "def": "convVar",
  "old": "\u27e8n, t, mergeAssumptions (dget asm n)\u27e9",
  "new": "\u27e8n, .t 0, mergeAssumptions (dget asm n)\u27e9",
  "claim": "C51 dates preserved",
  "edit": "`\u27e8n, t, mergeAssumptions (dget asm n)\u27e9` -> `\u27e8n, .t 0, mergeAssumptions (dget asm n)\u27e9`",
  "count": 1
 },
 {
  "id": "a074",
  "file": "ToSympy",
  "def": "convVar",
  "old": "mergeAssumptions (dget asm n)\u27e9",
  "new": "mergeAssumptions none\u27e9",
  "claim": "C44 variables get declared assumptions",
  "edit": "`mergeAssumptions (dget asm n)\u27e9` -> `mergeAssumptions none\u27e9`",
  "count": 1
 }
]