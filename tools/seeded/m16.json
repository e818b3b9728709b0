[
 {
  "id": "r000",
  "file": "ValidationText",
  "old": "| '\\r' :: '\\n' :: cs => [] :: splitlines cs\n",
  "new": "",
  "claim": "C126 lines of a CRLF file",
  "edit": "`| '\\r' :: '\\n' :: cs => [] :: splitlines cs\n` -> ``",
  "count": 1,
  "def": "splitlines"
 },
 {
  "id": "r001",
  "file": "ValidationText",
  "old": "| [] => [[c]]\n",
  "new": "| [] => [[c], []]\n",
  "claim": "C126 no line after the last break",
  "edit": "`| [] => [[c]]\n` -> `| [] => [[c], []]\n`",
  "count": 1,
  "def": "splitlines"
 },
 {
  "id": "r002",
  "file": "ValidationText",
  "old": "((s.reverse).dropWhile isSpace).reverse",
  "new": "s.dropWhile isSpace",
  "claim": "C126 trailing blanks",
  "edit": "`((s.reverse).dropWhile isSpace).reverse` -> `s.dropWhile isSpace`",
  "count": 1,
  "def": "rstripPy"
 },
 {
  "id": "r003",
  "file": "ValidationText",
  "old": "List.replicate (width - (natStr n).length) ' ' ++ natStr n",
  "new": "natStr n ++ List.replicate (width - (natStr n).length) ' '",
  "claim": "C126 line numbers right-aligned",
  "edit": "`List.replicate (width - (natStr n).length) ' ' ++ natStr n` -> `natStr n ++ List.replicate (width - (natStr n).length) ' '`",
  "count": 1,
  "def": "padTo"
 },
 {
  "id": "r004",
  "file": "ValidationText",
  "old": "if t \u2260 [] then",
  "new": "if line \u2260 [] then",
  "claim": "C126 empty line has no trailing blank",
  "edit": "`if t \u2260 [] then` -> `if line \u2260 [] then`",
  "count": 1,
  "def": "vRow"
 },
 {
  "id": "r005",
  "file": "ValidationText",
  "old": "((width + 5 : Nat) + (l.column - 1)).toNat",
  "new": "((width + 4 : Nat) + (l.column - 1)).toNat",
  "claim": "C126 carets under the column",
  "edit": "`((width + 5 : Nat) + (l.column - 1)).toNat` -> `((width + 4 : Nat) + (l.column - 1)).toNat`",
  "count": 1,
  "def": "vCarets"
 },
 {
  "id": "r006",
  "file": "ValidationText",
  "old": "((width + 5 : Nat) + (l.column - 1)).toNat",
  "new": "((width + 5 : Nat) + l.column).toNat",
  "claim": "C126 carets under the column",
  "edit": "`((width + 5 : Nat) + (l.column - 1)).toNat` -> `((width + 5 : Nat) + l.column).toNat`",
  "count": 1,
  "def": "vCarets"
 },
 {
  "id": "r007",
  "file": "ValidationText",
  "old": "(max 1 (e - l.column)).toNat",
  "new": "(e - l.column).toNat",
  "claim": "C126 at least one caret",
  "edit": "`(max 1 (e - l.column)).toNat` -> `(e - l.column).toNat`",
  "count": 1,
  "def": "vCarets"
 },
 {
  "id": "r008",
  "file": "ValidationText",
  "old": "| none => 3",
  "new": "| none => 1",
  "claim": "C126 three carets without end",
  "edit": "`| none => 3` -> `| none => 1`",
  "count": 1,
  "def": "vCarets"
 },
 {
  "id": "r009",
  "file": "ValidationText",
  "old": "if annotation \u2260 [] then ' ' :: annotation else []",
  "new": "annotation",
  "claim": "C126 annotation after a blank",
  "edit": "`if annotation \u2260 [] then ' ' :: annotation else []` -> `annotation`",
  "count": 1,
  "def": "vCarets"
 },
 {
  "id": "r010",
  "file": "ValidationText",
  "old": "lines[a - 1]?.getD []",
  "new": "lines[a]?.getD []",
  "claim": "C126 the line shown is the numbered one",
  "edit": "`lines[a - 1]?.getD []` -> `lines[a]?.getD []`",
  "count": 1,
  "def": "vRows"
 },
 {
  "id": "r011",
  "file": "ValidationText",
  "old": "if a = l.line then",
  "new": "if a + 1 = l.line then",
  "claim": "C126 carets under the line of the error",
  "edit": "`if a = l.line then` -> `if a + 1 = l.line then`",
  "count": 1,
  "def": "vRows"
 },
 {
  "id": "r012",
  "file": "ValidationText",
  "old": "l.line < 1 \u2228 lines.length < l.line",
  "new": "lines.length < l.line",
  "claim": "C126 line zero",
  "edit": "`l.line < 1 \u2228 lines.length < l.line` -> `lines.length < l.line`",
  "count": 1,
  "def": "withSource"
 },
 {
  "id": "r013",
  "file": "ValidationText",
  "old": "l.line < 1 \u2228 lines.length < l.line",
  "new": "l.line < 1 \u2228 lines.length \u2264 l.line",
  "claim": "C126 last line shown",
  "edit": "`l.line < 1 \u2228 lines.length < l.line` -> `l.line < 1 \u2228 lines.length \u2264 l.line`",
  "count": 1,
  "def": "withSource"
 },
 {
  "id": "r014",
  "file": "ValidationText",
  "old": "let start := l.line - 2",
  "new": "let start := l.line - 3",
  "claim": "C126 window",
  "edit": "`let start := l.line - 2` -> `let start := l.line - 3`",
  "count": 1,
  "def": "withSource"
 },
 {
  "id": "r015",
  "file": "ValidationText",
  "old": "let stop := min lines.length (l.line + 2)",
  "new": "let stop := min lines.length (l.line + 1)",
  "claim": "C126 window",
  "edit": "`let stop := min lines.length (l.line + 2)` -> `let stop := min lines.length (l.line + 1)`",
  "count": 1,
  "def": "withSource"
 },
 {
  "id": "r016",
  "file": "ValidationText",
  "old": "let stop := min lines.length (l.line + 2)",
  "new": "let stop := l.line + 2",
  "claim": "C126 window within the file",
  "edit": "`let stop := min lines.length (l.line + 2)` -> `let stop := l.line + 2`",
  "count": 1,
  "def": "withSource"
 },
 {
  "id": "r017",
  "file": "ValidationText",
  "old": "(if l.column = 0 then 1 else l.column)",
  "new": "l.column",
  "claim": "C126 column shown",
  "edit": "`(if l.column = 0 then 1 else l.column)` -> `l.column`",
  "count": 1,
  "def": "withSource"
 },
 {
  "id": "r018",
  "file": "ValidationText",
  "old": "if e.filepath \u2260 [] then e.filepath else \"<source>\".toList",
  "new": "e.filepath",
  "claim": "C126 file shown",
  "edit": "`if e.filepath \u2260 [] then e.filepath else \"<source>\".toList` -> `e.filepath`",
  "count": 1,
  "def": "withSource"
 },
 {
  "id": "r019",
  "file": "ValidationText",
  "old": "e.notes.map (\"   = note: \".toList ++ \u00b7)",
  "new": "(e.notes.take 1).map (\"   = note: \".toList ++ \u00b7)",
  "claim": "C126 all notes",
  "edit": "`e.notes.map (\"   = note: \".toList ++ \u00b7)` -> `(e.notes.take 1).map (\"   = note: \".toList ++ \u00b7)`",
  "count": 1,
  "def": "withSource"
 },
 {
  "id": "r020",
  "file": "ValidationText",
  "old": "| some s, some l => withSource e s l\n",
  "new": "| some s, _ => withSource e s \u27e81, 1, none\u27e9\n",
  "claim": "C126 no place, no excerpt",
  "edit": "`| some s, some l => withSource e s l\n` -> `| some s, _ => withSource e s \u27e81, 1, none\u27e9\n`",
  "count": 1,
  "def": "text"
 },
 {
  "id": "r021",
  "file": "ValidationText",
  "old": "code := \"V001\".toList",
  "new": "code := \"V002\".toList",
  "claim": "C126 codes",
  "edit": "`code := \"V001\".toList` -> `code := \"V002\".toList`",
  "count": 1,
  "def": "dynamicCalibrating"
 },
 {
  "id": "r022",
  "file": "ValidationText",
  "old": "control ++ \"' in block \".toList ++ block",
  "new": "block ++ \"' in block \".toList ++ control",
  "claim": "C126 message names",
  "edit": "`control ++ \"' in block \".toList ++ block` -> `block ++ \"' in block \".toList ++ control`",
  "count": 1,
  "def": "controlNotFound"
 },
 {
  "id": "r023",
  "file": "ValidationText",
  "old": "joinText \", \".toList names",
  "new": "joinText \", \".toList (names.take 1)",
  "claim": "C126 all duplicated names",
  "edit": "`joinText \", \".toList names` -> `joinText \", \".toList (names.take 1)`",
  "count": 1,
  "def": "duplicateParameter"
 },
 {
  "id": "r024",
  "file": "ValidationText",
  "old": "if block \u2260 [] then \"block \".toList ++ block else \"calibration blocks\".toList",
  "new": "\"calibration blocks\".toList",
  "claim": "C126 block named",
  "edit": "`if block \u2260 [] then \"block \".toList ++ block else \"calibration blocks\".toList` -> `\"calibration blocks\".toList`",
  "count": 1,
  "def": "duplicateParameter"
 },
 {
  "id": "r025",
  "file": "ValidationText",
  "old": "| (some n, some l) => dset d n l",
  "new": "| (some n, some l) => if n \u2208 dkeys d then d else dset d n l",
  "claim": "C126 last place wins",
  "edit": "`| (some n, some l) => dset d n l` -> `| (some n, some l) => if n \u2208 dkeys d then d else dset d n l`",
  "count": 1,
  "def": "noteLoc"
 },
 {
  "id": "r026",
  "file": "ValidationText",
  "old": "b.controls ++ b.shocks",
  "new": "b.shocks ++ b.controls",
  "claim": "C126 order of places",
  "edit": "`b.controls ++ b.shocks` -> `b.shocks ++ b.controls`",
  "count": 1,
  "def": "symbolLocations"
 },
 {
  "id": "r027",
  "file": "ValidationText",
  "old": "b.controls ++ b.shocks",
  "new": "b.controls",
  "claim": "C126 places of shocks",
  "edit": "`b.controls ++ b.shocks` -> `b.controls`",
  "count": 1,
  "def": "symbolLocations"
 },
 {
  "id": "r028",
  "file": "ValidationText",
  "old": "(b.calibration.foldl noteLoc [])",
  "new": "[]",
  "claim": "C126 places of parameters",
  "edit": "`(b.calibration.foldl noteLoc [])` -> `[]`",
  "count": 1,
  "def": "symbolLocations"
 },
 {
  "id": "r029",
  "file": "ValidationText",
  "old": "(dget (symbolLocations b) n)",
  "new": "(dget (symbolLocations b) (ns.getLastD n))",
  "claim": "C126 place of the first duplicate",
  "edit": "`(dget (symbolLocations b) n)` -> `(dget (symbolLocations b) (ns.getLastD n))`",
  "count": 1,
  "def": "duplicateError"
 },
 {
  "id": "r030",
  "file": "ValidationText",
  "old": "| [] => none\n",
  "new": "| [] => some (duplicateParameter [] block source none)\n",
  "claim": "C126 no duplicates, no error",
  "edit": "`| [] => none\n` -> `| [] => some (duplicateParameter [] block source none)\n`",
  "count": 1,
  "def": "duplicateError"
 },
 {
  "id": "r031",
  "file": "ValidationText",
  "old": "(dget (symbolLocations b) name)",
  "new": "(dget (symbolLocations b) control)",
  "claim": "C126 place of a control",
  "edit": "`(dget (symbolLocations b) name)` -> `(dget (symbolLocations b) control)`",
  "count": 1,
  "def": "controlError"
 },
 {
  "id": "r032",
  "file": "ValidationText",
  "old": "(dget (symbolLocations b) param)",
  "new": "none",
  "claim": "C126 place of a calibrating equation",
  "edit": "`(dget (symbolLocations b) param)` -> `none`",
  "count": 1,
  "def": "calibratingError"
 },
 {
  "id": "r033",
  "file": "DirectConvert",
  "old": "isCalibrating := e.calibrating.isSome",
  "new": "isCalibrating := (match e.calibrating with | some (_ :: _) => true | _ => false)",
  "claim": "C127 calibrating flag",
  "edit": "`isCalibrating := e.calibrating.isSome` -> `isCalibrating := (match e.calibrating with | some (_ :: _) => true | _ => false)`",
  "count": 1,
  "def": "eqMeta"
 },
 {
  "id": "r034",
  "file": "DirectConvert",
  "old": "some (.par (c :: p))",
  "new": "some (.par p)",
  "claim": "C127 parameter name",
  "edit": "`some (.par (c :: p))` -> `some (.par p)`",
  "count": 1,
  "def": "eqMeta"
 },
 {
  "id": "r035",
  "file": "DirectConvert",
  "old": "(convVar asm (c :: p) (.t 0))",
  "new": "(convVar asm (c :: p) .ss)",
  "claim": "C127 multiplier dated now",
  "edit": "`(convVar asm (c :: p) (.t 0))` -> `(convVar asm (c :: p) .ss)`",
  "count": 1,
  "def": "eqMeta"
 },
 {
  "id": "r036",
  "file": "DirectConvert",
  "old": "(convVar asm (c :: p) (.t 0))",
  "new": "(convVar [] (c :: p) (.t 0))",
  "claim": "C127 multiplier assumptions",
  "edit": "`(convVar asm (c :: p) (.t 0))` -> `(convVar [] (c :: p) (.t 0))`",
  "count": 1,
  "def": "eqMeta"
 },
 {
  "id": "r037",
  "file": "DirectConvert",
  "old": "| .ok ss => .ok (s :: ss)",
  "new": "| .ok ss => .ok (ss ++ [s])",
  "claim": "C127 order",
  "edit": "`| .ok ss => .ok (s :: ss)` -> `| .ok ss => .ok (ss ++ [s])`",
  "count": 1,
  "def": "convertAll"
 },
 {
  "id": "r038",
  "file": "DirectConvert",
  "old": "| .dist _ :: cs => calibEqns cs",
  "new": "| .dist _ :: _ => []",
  "claim": "C127 equations after a prior",
  "edit": "`| .dist _ :: cs => calibEqns cs` -> `| .dist _ :: _ => []`",
  "count": 1,
  "def": "calibEqns"
 },
 {
  "id": "r039",
  "file": "DirectConvert",
  "old": ".ok \u27e8ds, os, cs, is, ks\u27e9",
  "new": ".ok \u27e8ds, os, is, cs, ks\u27e9",
  "claim": "C127 components",
  "edit": "`.ok \u27e8ds, os, cs, is, ks\u27e9` -> `.ok \u27e8ds, os, is, cs, ks\u27e9`",
  "count": 1,
  "def": "blockToSympy"
 },
 {
  "id": "r040",
  "file": "DirectConvert",
  "old": "convertAll asm b.objective",
  "new": "convertAll asm (b.objective.take 1)",
  "claim": "C127 all objectives",
  "edit": "`convertAll asm b.objective` -> `convertAll asm (b.objective.take 1)`",
  "count": 1,
  "def": "blockToSympy"
 },
 {
  "id": "r041",
  "file": "DirectConvert",
  "old": "(dset acc b.name r)",
  "new": "(if b.name \u2208 dkeys acc then acc else dset acc b.name r)",
  "claim": "C127 last block of a name wins",
  "edit": "`(dset acc b.name r)` -> `(if b.name \u2208 dkeys acc then acc else dset acc b.name r)`",
  "count": 1,
  "def": "modelToSympyLoop"
 },
 {
  "id": "r042",
  "file": "DirectConvert",
  "old": "{ b with calibration := [] }",
  "new": "b",
  "claim": "C127 no calibration",
  "edit": "`{ b with calibration := [] }` -> `b`",
  "count": 1,
  "def": "blockToEquations"
 },
 {
  "id": "r043",
  "file": "DirectConvert",
  "old": "| .sym (.tv x) => createName x",
  "new": "| .sym (.tv x) => x.base",
  "claim": "C127 key of an assignment",
  "edit": "`| .sym (.tv x) => createName x` -> `| .sym (.tv x) => x.base`",
  "count": 1,
  "def": "assignKey"
 },
 {
  "id": "r044",
  "file": "DirectConvert",
  "old": "priors := dset acc.priors d.param c",
  "new": "priors := dset acc.priors d.name c",
  "claim": "C127 prior by parameter",
  "edit": "`priors := dset acc.priors d.param c` -> `priors := dset acc.priors d.name c`",
  "count": 1,
  "def": "calibrationLoop"
 },
 {
  "id": "r045",
  "file": "DirectConvert",
  "old": "| some v => { acc with params := dset acc.params d.param (.num v) }",
  "new": "| some _ => acc",
  "claim": "C127 initial value",
  "edit": "`| some v => { acc with params := dset acc.params d.param (.num v) }` -> `| some _ => acc`",
  "count": 1,
  "def": "calibrationLoop"
 },
 {
  "id": "r046",
  "file": "DirectConvert",
  "old": "if pz c then",
  "new": "if true then",
  "claim": "C127 PreliZ refusal raises",
  "edit": "`if pz c then` -> `if true then`",
  "count": 1,
  "def": "calibrationLoop"
 },
 {
  "id": "r047",
  "file": "DirectConvert",
  "old": "dset acc.calib p \u27e8l, r\u27e9",
  "new": "dset acc.calib p \u27e8r, l\u27e9",
  "claim": "C127 sides",
  "edit": "`dset acc.calib p \u27e8l, r\u27e9` -> `dset acc.calib p \u27e8r, l\u27e9`",
  "count": 1,
  "def": "calibrationLoop"
 },
 {
  "id": "r048",
  "file": "DirectConvert",
  "old": "dset acc.params (assignKey shown l) r",
  "new": "dset acc.params (assignKey shown l) l",
  "claim": "C127 value",
  "edit": "`dset acc.params (assignKey shown l) r` -> `dset acc.params (assignKey shown l) l`",
  "count": 1,
  "def": "calibrationLoop"
 },
 {
  "id": "r049",
  "file": "DirectConvert",
  "old": "x.now :: xs",
  "new": "x :: xs",
  "claim": "C127 dated now",
  "edit": "`x.now :: xs` -> `x :: xs`",
  "count": 1,
  "def": "lhsVars"
 },
 {
  "id": "r050",
  "file": "DirectConvert",
  "old": "| _ => xs",
  "new": "| _ => []",
  "claim": "C127 later variables",
  "edit": "`| _ => xs` -> `| _ => []`",
  "count": 1,
  "def": "lhsVars"
 },
 {
  "id": "r051",
  "file": "DirectConvert",
  "old": "b.definitions ++ b.identities ++ b.objective ++ b.constraints",
  "new": "b.identities ++ b.objective ++ b.constraints",
  "claim": "C127 definitions",
  "edit": "`b.definitions ++ b.identities ++ b.objective ++ b.constraints` -> `b.identities ++ b.objective ++ b.constraints`",
  "count": 1,
  "def": "blockToVariables"
 },
 {
  "id": "r052",
  "file": "DirectConvert",
  "old": "((b.controls.map fun v => (convVar asm v.name v.t).now) ++ xs).eraseDups",
  "new": "(b.controls.map fun v => (convVar asm v.name v.t).now) ++ xs",
  "claim": "C127 each once",
  "edit": "`((b.controls.map fun v => (convVar asm v.name v.t).now) ++ xs).eraseDups` -> `(b.controls.map fun v => (convVar asm v.name v.t).now) ++ xs`",
  "count": 1,
  "def": "blockToVariables"
 },
 {
  "id": "r053",
  "file": "DirectConvert",
  "old": "(b.shocks.map fun v => (convVar asm v.name v.t).now).eraseDups",
  "new": "(b.shocks.map fun v => (convVar asm v.name v.t)).eraseDups",
  "claim": "C127 shocks dated now",
  "edit": "`(b.shocks.map fun v => (convVar asm v.name v.t).now).eraseDups` -> `(b.shocks.map fun v => (convVar asm v.name v.t)).eraseDups`",
  "count": 1,
  "def": "blockToVariables"
 },
 {
  "id": "r054",
  "file": "FigAcf",
  "old": "sample.filter fun d => d \u2208 t.dims",
  "new": "sample",
  "claim": "C128 sample dimensions",
  "edit": "`sample.filter fun d => d \u2208 t.dims` -> `sample`",
  "count": 1,
  "def": "present"
 },
 {
  "id": "r055",
  "file": "FigAcf",
  "old": "decide (d \u2260 \"lag\".toList) && decide (d \u2209 t.present sample)",
  "new": "decide (d \u2209 t.present sample)",
  "claim": "C128 lag is not a variable",
  "edit": "`decide (d \u2260 \"lag\".toList) && decide (d \u2209 t.present sample)` -> `decide (d \u2209 t.present sample)`",
  "count": 1,
  "def": "varDims"
 },
 {
  "id": "r056",
  "file": "FigAcf",
  "old": "| [d, _] => collectDims sample rest (some d)",
  "new": "| [_, d] => collectDims sample rest (some d)",
  "claim": "C128 first dimension",
  "edit": "`| [d, _] => collectDims sample rest (some d)` -> `| [_, d] => collectDims sample rest (some d)`",
  "count": 1,
  "def": "collectDims"
 },
 {
  "id": "r057",
  "file": "FigAcf",
  "old": "| _ => .error .valueError",
  "new": "| _ => collectDims sample rest none",
  "claim": "C128 refused",
  "edit": "`| _ => .error .valueError` -> `| _ => collectDims sample rest none`",
  "count": 1,
  "def": "collectDims"
 },
 {
  "id": "r058",
  "file": "FigAcf",
  "old": "if d = dim then .ok (t.labels d) else .error .keyError",
  "new": ".ok (t.labels d)",
  "claim": "C128 other dimension raises",
  "edit": "`if d = dim then .ok (t.labels d) else .error .keyError` -> `.ok (t.labels d)`",
  "count": 1,
  "def": "diagLabels"
 },
 {
  "id": "r059",
  "file": "FigAcf",
  "old": "if p.1 \u2264 p.2 then p else (p.2, p.1)",
  "new": "p",
  "claim": "C128 intervals sorted",
  "edit": "`if p.1 \u2264 p.2 then p else (p.2, p.1)` -> `p`",
  "count": 1,
  "def": "sortedProbs"
 },
 {
  "id": "r060",
  "file": "FigAcf",
  "old": "if t.lags.length = lags.length then",
  "new": "if True then",
  "claim": "C128 lags mismatch raises",
  "edit": "`if t.lags.length = lags.length then` -> `if True then`",
  "count": 1,
  "def": "drawModel"
 },
 {
  "id": "r061",
  "file": "FigAcf",
  "old": "if (t.present sample).isEmpty then",
  "new": "if \u00ac (t.present sample).isEmpty then",
  "claim": "C128 stem or forest",
  "edit": "`if (t.present sample).isEmpty then` -> `if \u00ac (t.present sample).isEmpty then`",
  "count": 1,
  "def": "drawModel"
 },
 {
  "id": "r062",
  "file": "FigAcf",
  "old": "(p.1 + offset, t.value i i p.2)",
  "new": "(p.1 + offset, t.value i 0 p.2)",
  "claim": "C128 diagonal",
  "edit": "`(p.1 + offset, t.value i i p.2)` -> `(p.1 + offset, t.value i 0 p.2)`",
  "count": 1,
  "def": "drawModel"
 },
 {
  "id": "r063",
  "file": "FigAcf",
  "old": "(p.1 + offset, t.value i i p.2)",
  "new": "(p.1 - offset, t.value i i p.2)",
  "claim": "C128 offset",
  "edit": "`(p.1 + offset, t.value i i p.2)` -> `(p.1 - offset, t.value i i p.2)`",
  "count": 1,
  "def": "drawModel"
 },
 {
  "id": "r064",
  "file": "FigAcf",
  "old": "t.hdi ps.1 i i p.2, t.hdi ps.2 i i p.2",
  "new": "t.hdi ps.2 i i p.2, t.hdi ps.1 i i p.2",
  "claim": "C128 inner and outer",
  "edit": "`t.hdi ps.1 i i p.2, t.hdi ps.2 i i p.2` -> `t.hdi ps.2 i i p.2, t.hdi ps.1 i i p.2`",
  "count": 1,
  "def": "drawModel"
 },
 {
  "id": "r065",
  "file": "FigAcf",
  "old": "(labels.idxOf v) lags",
  "new": "0 lags",
  "claim": "C128 variable of the panel",
  "edit": "`(labels.idxOf v) lags` -> `0 lags`",
  "count": 1,
  "def": "drawModels"
 },
 {
  "id": "r066",
  "file": "FigAcf",
  "old": "else drawModels sample dim v lags ci rest",
  "new": "else .ok []",
  "claim": "C128 later models",
  "edit": "`else drawModels sample dim v lags ci rest` -> `else .ok []`",
  "count": 1,
  "def": "drawModels"
 },
 {
  "id": "r067",
  "file": "FigAcf",
  "old": "(labels.idxOf v) p.2",
  "new": "p.2 (labels.idxOf v)",
  "claim": "C128 reference",
  "edit": "`(labels.idxOf v) p.2` -> `p.2 (labels.idxOf v)`",
  "count": 1,
  "def": "drawReference"
 },
 {
  "id": "r068",
  "file": "FigAcf",
  "old": "(p.1, r.value",
  "new": "(p.1 + 1, r.value",
  "claim": "C128 reference at its lags",
  "edit": "`(p.1, r.value` -> `(p.1 + 1, r.value`",
  "count": 1,
  "def": "drawReference"
 },
 {
  "id": "r069",
  "file": "FigAcf",
  "old": "\u27e8v, loc, ms ++ drawReference r v\u27e9",
  "new": "\u27e8v, loc, ms\u27e9",
  "claim": "C128 reference drawn",
  "edit": "`\u27e8v, loc, ms ++ drawReference r v\u27e9` -> `\u27e8v, loc, ms\u27e9`",
  "count": 1,
  "def": "drawPanels"
 },
 {
  "id": "r070",
  "file": "FigAcf",
  "old": "if 1 < n then dodge else 0",
  "new": "dodge",
  "claim": "(equivalent for one model)",
  "edit": "`if 1 < n then dodge else 0` -> `dodge`",
  "count": 1,
  "def": "offsetOf"
 },
 {
  "id": "r071",
  "file": "FigAcf",
  "old": "((n : \u211d) - 1) / 2",
  "new": "(n : \u211d) / 2",
  "claim": "C128 centred",
  "edit": "`((n : \u211d) - 1) / 2` -> `(n : \u211d) / 2`",
  "count": 1,
  "def": "offsetOf"
 },
 {
  "id": "r072",
  "file": "FigAcf",
  "old": "if 1 < labels.length then",
  "new": "if 0 < labels.length then",
  "claim": "C128 no legend for one model",
  "edit": "`if 1 < labels.length then` -> `if 0 < labels.length then`",
  "count": 1,
  "def": "legend"
 },
 {
  "id": "r073",
  "file": "FigAcf",
  "old": ".model p.2 p.1",
  "new": ".model 0 p.1",
  "claim": "C128 legend colours",
  "edit": "`.model p.2 p.1` -> `.model 0 p.1`",
  "count": 1,
  "def": "legend"
 },
 {
  "id": "r074",
  "file": "FigAcf",
  "old": "if vs.all fun v => v \u2208 available then",
  "new": "if True then",
  "claim": "C128 unknown variable refused",
  "edit": "`if vs.all fun v => v \u2208 available then` -> `if True then`",
  "count": 1,
  "def": "plotAcf"
 },
 {
  "id": "r075",
  "file": "FigAcf",
  "old": "prepareGrid (min c vs.length) vs.length",
  "new": "prepareGrid c vs.length",
  "claim": "C128 columns",
  "edit": "`prepareGrid (min c vs.length) vs.length` -> `prepareGrid c vs.length`",
  "count": 1,
  "def": "plotAcf"
 },
 {
  "id": "r076",
  "file": "FigAcf",
  "old": "offsetOf models.length dodge p.2, p.2)",
  "new": "offsetOf models.length dodge 0, p.2)",
  "claim": "C128 offsets differ",
  "edit": "`offsetOf models.length dodge p.2, p.2)` -> `offsetOf models.length dodge 0, p.2)`",
  "count": 1,
  "def": "plotAcf"
 },
 {
  "id": "r077",
  "file": "FigAcf",
  "old": "reference.isSome\u27e9",
  "new": "false\u27e9",
  "claim": "C128 legend of the data",
  "edit": "`reference.isSome\u27e9` -> `false\u27e9`",
  "count": 1,
  "def": "plotAcf"
 },
 {
  "id": "r078",
  "file": "Figures",
  "old": "(t.rows.idxOf (rs.getD i [])) (t.cols.idxOf (cs.getD j []))",
  "new": "i j",
  "claim": "C129 selected entries",
  "edit": "`(t.rows.idxOf (rs.getD i [])) (t.cols.idxOf (cs.getD j []))` -> `i j`",
  "count": 1,
  "def": "select"
 },
 {
  "id": "r079",
  "file": "Figures",
  "old": "(t.rows.idxOf (rs.getD i [])) (t.cols.idxOf (cs.getD j []))",
  "new": "(t.rows.idxOf (rs.getD i [])) (t.rows.idxOf (cs.getD j []))",
  "claim": "C129 selected entries",
  "edit": "`(t.rows.idxOf (rs.getD i [])) (t.cols.idxOf (cs.getD j []))` -> `(t.rows.idxOf (rs.getD i [])) (t.rows.idxOf (cs.getD j []))`",
  "count": 1,
  "def": "select"
 },
 {
  "id": "r080",
  "file": "Figures",
  "old": "if t.cols.length = t.rows.length then",
  "new": "if True then",
  "claim": "C129 non-square raises",
  "edit": "`if t.cols.length = t.rows.length then` -> `if True then`",
  "count": 1,
  "def": "heatTicks"
 },
 {
  "id": "r081",
  "file": "Figures",
  "old": "(List.range t.rows.length).zip t.cols, (List.range t.cols.length).zip t.rows",
  "new": "(List.range t.rows.length).zip t.rows, (List.range t.cols.length).zip t.cols",
  "claim": "C129 labels",
  "edit": "`(List.range t.rows.length).zip t.cols, (List.range t.cols.length).zip t.rows` -> `(List.range t.rows.length).zip t.rows, (List.range t.cols.length).zip t.cols`",
  "count": 1,
  "def": "heatTicks"
 },
 {
  "id": "r082",
  "file": "Figures",
  "old": "(v - lo) / (hi - lo)",
  "new": "(v - lo) / hi",
  "claim": "C129 norm",
  "edit": "`(v - lo) / (hi - lo)` -> `(v - lo) / hi`",
  "count": 1,
  "def": "norm"
 },
 {
  "id": "r083",
  "file": "Figures",
  "old": "threshold < norm lo hi (t.value i j)",
  "new": "threshold \u2264 norm lo hi (t.value i j)",
  "claim": "C129 text colour",
  "edit": "`threshold < norm lo hi (t.value i j)` -> `threshold \u2264 norm lo hi (t.value i j)`",
  "count": 1,
  "def": "annotate"
 },
 {
  "id": "r084",
  "file": "Figures",
  "old": "\u27e8j, i, t.value i j",
  "new": "\u27e8i, j, t.value i j",
  "claim": "C129 position",
  "edit": "`\u27e8j, i, t.value i j` -> `\u27e8i, j, t.value i j`",
  "count": 1,
  "def": "annotate"
 },
 {
  "id": "r085",
  "file": "Figures",
  "old": "norm lo hi hi / 2",
  "new": "norm lo hi hi",
  "claim": "C129 threshold",
  "edit": "`norm lo hi hi / 2` -> `norm lo hi hi`",
  "count": 1,
  "def": "annotate"
 },
 {
  "id": "r086",
  "file": "Figures",
  "old": "t.select vs vs",
  "new": "t.select vs t.cols",
  "claim": "C129 both axes selected",
  "edit": "`t.select vs vs` -> `t.select vs t.cols`",
  "count": 1,
  "def": "plotCovariance"
 },
 {
  "id": "r087",
  "file": "Figures",
  "old": "decide (i \u2264 j) && symmetrical",
  "new": "decide (i < j) && symmetrical",
  "claim": "C129 diagonal hidden",
  "edit": "`decide (i \u2264 j) && symmetrical` -> `decide (i < j) && symmetrical`",
  "count": 1,
  "def": "plotMatrix"
 },
 {
  "id": "r088",
  "file": "Figures",
  "old": "(i, j), if j = 0",
  "new": "(j, i), if j = 0",
  "claim": "C129 entry shown",
  "edit": "`(i, j), if j = 0` -> `(j, i), if j = 0`",
  "count": 1,
  "def": "plotMatrix"
 },
 {
  "id": "r089",
  "file": "Figures",
  "old": "if i = names.length - 1 then names[j]?",
  "new": "if i = names.length then names[j]?",
  "claim": "C129 labels below",
  "edit": "`if i = names.length - 1 then names[j]?` -> `if i = names.length then names[j]?`",
  "count": 1,
  "def": "plotMatrix"
 },
 {
  "id": "r090",
  "file": "Figures",
  "old": "(xs.length - 1))",
  "new": "(xs.length))",
  "claim": "C129 sample variance",
  "edit": "`(xs.length - 1))` -> `(xs.length))`",
  "count": 1,
  "def": "variance"
 },
 {
  "id": "r091",
  "file": "Figures",
  "old": "| none => false",
  "new": "| none => true",
  "claim": "C129 one draw",
  "edit": "`| none => false` -> `| none => true`",
  "count": 1,
  "def": "isConstant"
 },
 {
  "id": "r092",
  "file": "Figures",
  "old": "decide (c.name \u2209 metaCols) && !isConstant c",
  "new": "decide (c.name \u2209 metaCols)",
  "claim": "C129 constants dropped",
  "edit": "`decide (c.name \u2209 metaCols) && !isConstant c` -> `decide (c.name \u2209 metaCols)`",
  "count": 1,
  "def": "solvParams"
 },
 {
  "id": "r093",
  "file": "Figures",
  "old": "decide (c.name \u2209 metaCols) && !isConstant c",
  "new": "!isConstant c",
  "claim": "C129 meta columns dropped",
  "edit": "`decide (c.name \u2209 metaCols) && !isConstant c` -> `!isConstant c`",
  "count": 1,
  "def": "solvParams"
 },
 {
  "id": "r094",
  "file": "Figures",
  "old": ".filter fun n => n \u2260 \"success\".toList",
  "new": ".filter fun _ => true",
  "claim": "C129 success dropped",
  "edit": "`.filter fun n => n \u2260 \"success\".toList` -> `.filter fun _ => true`",
  "count": 1,
  "def": "solvParams"
 },
 {
  "id": "r095",
  "file": "Figures",
  "old": "decide (c.2 \u2264 r.2)",
  "new": "decide (c.2 < r.2)",
  "claim": "C129 diagonal drawn",
  "edit": "`decide (c.2 \u2264 r.2)` -> `decide (c.2 < r.2)`",
  "count": 1,
  "def": "plotSolvability"
 },
 {
  "id": "r096",
  "file": "Figures",
  "old": "\u27e8r.2, c.2, c.1, r.1,",
  "new": "\u27e8r.2, c.2, r.1, c.1,",
  "claim": "C129 axes",
  "edit": "`\u27e8r.2, c.2, c.1, r.1,` -> `\u27e8r.2, c.2, r.1, c.1,`",
  "count": 1,
  "def": "plotSolvability"
 },
 {
  "id": "r097",
  "file": "Figures",
  "old": "if use.length = 0 then .error .valueError\n    else",
  "new": "if False then .error .valueError\n    else",
  "claim": "C129 empty refused",
  "edit": "`if use.length = 0 then .error .valueError\n    else` -> `if False then .error .valueError\n    else`",
  "count": 1,
  "def": "plotSolvability"
 },
 {
  "id": "r098",
  "file": "Figures",
  "old": "(nCols.getD (min 4 columns.length))",
  "new": "(nCols.getD (min 4 vs.length))",
  "claim": "C129 default columns",
  "edit": "`(nCols.getD (min 4 columns.length))` -> `(nCols.getD (min 4 vs.length))`",
  "count": 1,
  "def": "plotTimeseries"
 },
 {
  "id": "r099",
  "file": "Figures",
  "old": "if vs.all fun v => decide (v \u2208 columns) then",
  "new": "if True then",
  "claim": "C129 unknown column",
  "edit": "`if vs.all fun v => decide (v \u2208 columns) then` -> `if True then`",
  "count": 1,
  "def": "plotTimeseries"
 },
 {
  "id": "r100",
  "file": "Figures",
  "old": "if ps.all fun p => decide (p \u2208 all) then .ok ps else .error .valueError",
  "new": ".ok (ps.filter fun p => decide (p \u2208 all))",
  "claim": "C129 unknown parameter refused",
  "edit": "`if ps.all fun p => decide (p \u2208 all) then .ok ps else .error .valueError` -> `.ok (ps.filter fun p => decide (p \u2208 all))`",
  "count": 1,
  "def": "sensParams"
 },
 {
  "id": "r101",
  "file": "Figures",
  "old": "kwargs.filter fun k => k.1 \u2208 dkeys defaults",
  "new": "kwargs.filter fun _ => true",
  "claim": "C129 unknown keywords ignored",
  "edit": "`kwargs.filter fun k => k.1 \u2208 dkeys defaults` -> `kwargs.filter fun _ => true`",
  "count": 1,
  "def": "sensValue"
 },
 {
  "id": "r102",
  "file": "Figures",
  "old": ".getD 1",
  "new": ".getD 0",
  "claim": "C129 default one",
  "edit": "`.getD 1` -> `.getD 0`",
  "count": 1,
  "def": "sensValue"
 },
 {
  "id": "r103",
  "file": "Figures",
  "old": "| some 0 => min 4 n",
  "new": "| some 0 => 0",
  "claim": "C129 zero columns",
  "edit": "`| some 0 => min 4 n` -> `| some 0 => 0`",
  "count": 1,
  "def": "sensCols"
 },
 {
  "id": "r104",
  "file": "Figures",
  "old": "decide (q.2 = 0)\u27e9",
  "new": "true\u27e9",
  "claim": "C129 legend in the first panel",
  "edit": "`decide (q.2 = 0)\u27e9` -> `true\u27e9`",
  "count": 1,
  "def": "plotSensitivity"
 },
 {
  "id": "r105",
  "file": "Figures",
  "old": "s.params.idxOf q.1.1",
  "new": "q.2",
  "claim": "C129 arrows of the parameter",
  "edit": "`s.params.idxOf q.1.1` -> `q.2`",
  "count": 1,
  "def": "plotSensitivity"
 },
 {
  "id": "r106",
  "file": "Figures",
  "old": "(p.lines.take ss.length).zip ss",
  "new": "p.lines.zip ss",
  "claim": "(equivalent: zip)",
  "edit": "`(p.lines.take ss.length).zip ss` -> `p.lines.zip ss`",
  "count": 1,
  "def": "shockLegend"
 },
 {
  "id": "r107",
  "file": "Figures",
  "old": "(p.lines.take ss.length).zip ss",
  "new": "(p.lines.take ss.length).zip ss.reverse",
  "claim": "C129 shock labels",
  "edit": "`(p.lines.take ss.length).zip ss` -> `(p.lines.take ss.length).zip ss.reverse`",
  "count": 1,
  "def": "shockLegend"
 },
 {
  "id": "r108",
  "file": "Figures",
  "old": "1 < names.length \u2227 n \u2260 []",
  "new": "1 < names.length",
  "claim": "C129 empty first name",
  "edit": "`1 < names.length \u2227 n \u2260 []` -> `1 < names.length`",
  "count": 1,
  "def": "scenarioLegend"
 },
 {
  "id": "r109",
  "file": "Figures",
  "old": "(p.2 % 4, p.1)",
  "new": "(p.2, p.1)",
  "claim": "C129 styles repeat",
  "edit": "`(p.2 % 4, p.1)` -> `(p.2, p.1)`",
  "count": 1,
  "def": "scenarioLegend"
 }
]