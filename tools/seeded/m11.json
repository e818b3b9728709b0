[
{
"id": "k000",
"file": "ErrorText",
"def": "rfindNl",
"old": "if c = '\\n' then i else acc",
"new": "if c = '\\n' then i + 1 else acc",
"claim": "C110 columns",
"edit": "`if c = '\\n' then i else acc` -> `if c = '\\n' then i + 1 else acc`",
"count": 1
},
{
"id": "k001",
"file": "ErrorText",
"def": "lineno",
"old": "(s.take loc).count '\\n' + 1",
"new": "(s.take loc).count '\\n'",
"claim": "C110 lines",
"edit": "`(s.take loc).count '\\n' + 1` -> `(s.take loc).count '\\n'`",
"count": 1
},
{
"id": "k002",
"file": "ErrorText",
"def": "lineno",
"old": "(s.take loc).count",
"new": "(s.take (loc + 1)).count",
"claim": "C110 lines",
"edit": "`(s.take loc).count` -> `(s.take (loc + 1)).count`",
"count": 1
},
{
"id": "k003",
"file": "ErrorText",
"def": "col",
"old": "then 1 else loc - rfindNl s loc",
"new": "then 0 else loc - rfindNl s loc",
"claim": "equivalent? C110 columns at line start",
"edit": "`then 1 else loc - rfindNl s loc` -> `then 0 else loc - rfindNl s loc`",
"count": 1
},
{
"id": "k004",
"file": "ErrorText",
"def": "col",
"old": "then 1 else loc - rfindNl s loc",
"new": "then 1 else loc - rfindNl s loc + 1",
"claim": "C110 columns",
"edit": "`then 1 else loc - rfindNl s loc` -> `then 1 else loc - rfindNl s loc + 1`",
"count": 1
},
{
"id": "k005",
"file": "ErrorText",
"def": "splitNl",
"old": "if c = '\\n' then [] :: splitNl cs",
"new": "if c = ';' then [] :: splitNl cs",
"claim": "C110 source line",
"edit": "`if c = '\\n' then [] :: splitNl cs` -> `if c = ';' then [] :: splitNl cs`",
"count": 1
},
{
"id": "k006",
"file": "ErrorText",
"def": "expandTabs",
"old": "8 - k % 8",
"new": "8",
"claim": "C110 tabs",
"edit": "`8 - k % 8` -> `8`",
"count": 1
},
{
"id": "k007",
"file": "ErrorText",
"def": "expandTabs",
"old": "++ expandTabs 0 cs",
"new": "++ expandTabs (k + 1) cs",
"claim": "C110 tabs",
"edit": "`++ expandTabs 0 cs` -> `++ expandTabs (k + 1) cs`",
"count": 1
},
{
"id": "k008",
"file": "ErrorText",
"def": "splitSep",
"old": "cur :: go cs (sep.length - 1) []",
"new": "cur :: go cs sep.length []",
"claim": "C109 separator",
"edit": "`cur :: go cs (sep.length - 1) []` -> `cur :: go cs sep.length []`",
"count": 1
},
{
"id": "k009",
"file": "ErrorText",
"def": "stripQuotes",
"old": "(((s.dropWhile q).reverse).dropWhile q).reverse",
"new": "s.dropWhile q",
"claim": "C110 end column",
"edit": "`(((s.dropWhile q).reverse).dropWhile q).reverse` -> `s.dropWhile q`",
"count": 1
},
{
"id": "k010",
"file": "ErrorText",
"def": "encode",
"old": "joinText separator [f.msg, f.code, f.found,",
"new": "joinText separator [f.msg, f.found, f.code,",
"claim": "C109 order of fields",
"edit": "`joinText separator [f.msg, f.code, f.found,` -> `joinText separator [f.msg, f.found, f.code,`",
"count": 1
},
{
"id": "k011",
"file": "ErrorText",
"def": "encode",
"old": "joinText [','] f.suggestions]",
"new": "joinText [';'] f.suggestions]",
"claim": "C109 suggestions",
"edit": "`joinText [','] f.suggestions]` -> `joinText [';'] f.suggestions]`",
"count": 1
},
{
"id": "k012",
"file": "ErrorText",
"def": "decode",
"old": "if c \u2208 codes then c else \"E000\".toList, f,",
"new": "\"E000\".toList, f,",
"claim": "C109 code",
"edit": "`if c \u2208 codes then c else \"E000\".toList, f,` -> `\"E000\".toList, f,`",
"count": 1
},
{
"id": "k013",
"file": "ErrorText",
"def": "decode",
"old": "(splitSep [','] s).filter (\u00b7 \u2260 [])",
"new": "(splitSep [','] s)",
"claim": "C109 no suggestions",
"edit": "`(splitSep [','] s).filter (\u00b7 \u2260 [])` -> `(splitSep [','] s)`",
"count": 1
},
{
"id": "k014",
"file": "ErrorText",
"def": "decode",
"old": "else \u27e8msg, \"E000\".toList, excFound, []\u27e9",
"new": "else \u27e8msg, \"E000\".toList, [], []\u27e9",
"claim": "C109 plain failures",
"edit": "`else \u27e8msg, \"E000\".toList, excFound, []\u27e9` -> `else \u27e8msg, \"E000\".toList, [], []\u27e9`",
"count": 1
},
{
"id": "k015",
"file": "ErrorText",
"def": "copyMsg",
"old": "(splitSep separator m).headD []",
"new": "m",
"claim": "C109 copies",
"edit": "`(splitSep separator m).headD []` -> `m`",
"count": 1
},
{
"id": "k016",
"file": "ErrorText",
"def": "codes",
"old": "\"E013\".toList, ",
"new": "",
"claim": "C109 codes",
"edit": "`\"E013\".toList, ` -> ``",
"count": 1
},
{
"id": "k017",
"file": "ErrorText",
"def": "gcnLocation",
"old": "some (c + clean.length)",
"new": "some (c + found.length)",
"claim": "C110 end column",
"edit": "`some (c + clean.length)` -> `some (c + found.length)`",
"count": 1
},
{
"id": "k018",
"file": "ErrorText",
"def": "gcnLocation",
"old": "(splitNl text)[line - 1]?",
"new": "(splitNl text)[line]?",
"claim": "C110 source line",
"edit": "`(splitNl text)[line - 1]?` -> `(splitNl text)[line]?`",
"count": 1
},
{
"id": "k019",
"file": "ErrorText",
"def": "gcnLocation",
"old": "let s := expandTabs 0 text",
"new": "let s := text",
"claim": "C110 tabs",
"edit": "`let s := expandTabs 0 text` -> `let s := text`",
"count": 1
},
{
"id": "k020",
"file": "ErrorText",
"def": "gcnLocation",
"old": "endLine := e.map fun _ => line",
"new": "endLine := none",
"claim": "C110 end line",
"edit": "`endLine := e.map fun _ => line` -> `endLine := none`",
"count": 1
},
{
"id": "k021",
"file": "ErrorText",
"def": "parameterLocation",
"old": "some (col s loc + name.length),\n    sourceLine",
"new": "some (col s loc + 1),\n    sourceLine",
"claim": "C110 parameter span",
"edit": "`some (col s loc + name.length),\n    sourceLine` -> `some (col s loc + 1),\n    sourceLine`",
"count": 1
},
{
"id": "k022",
"file": "ErrorText",
"def": "variableLocation",
"old": "(name.length + 2 + timeStr.length : Nat)",
"new": "(name.length + timeStr.length : Nat)",
"claim": "C110 variable span",
"edit": "`(name.length + 2 + timeStr.length : Nat)` -> `(name.length + timeStr.length : Nat)`",
"count": 1
},
{
"id": "k023",
"file": "ErrorText",
"def": "variableLocation",
"old": "if t = .t 0 then [] else indexText t",
"new": "indexText t",
"claim": "C110 variable span",
"edit": "`if t = .t 0 then [] else indexText t` -> `indexText t`",
"count": 1
},
{
"id": "k024",
"file": "ErrorText",
"def": "Loc.carets",
"old": "(max 1 (e - l.column)).toNat",
"new": "(e - l.column).toNat",
"claim": "C111 at least one caret",
"edit": "`(max 1 (e - l.column)).toNat` -> `(e - l.column).toNat`",
"count": 1
},
{
"id": "k025",
"file": "ErrorText",
"def": "Loc.carets",
"old": "if l.endLine = some l.line then",
"new": "if l.endLine = none then",
"claim": "C111 carets",
"edit": "`if l.endLine = some l.line then` -> `if l.endLine = none then`",
"count": 1
},
{
"id": "k026",
"file": "ErrorText",
"def": "Loc.pointer",
"old": "(max 0 (l.column - 1)).toNat",
"new": "(max 0 l.column).toNat",
"claim": "C111 pointer",
"edit": "`(max 0 (l.column - 1)).toNat` -> `(max 0 l.column).toNat`",
"count": 1
},
{
"id": "k027",
"file": "ErrorText",
"def": "Loc.lsp",
"old": "(l.line - 1, l.column - 1,",
"new": "(l.line, l.column - 1,",
"claim": "C110 lsp",
"edit": "`(l.line - 1, l.column - 1,` -> `(l.line, l.column - 1,`",
"count": 1
},
{
"id": "k028",
"file": "ErrorText",
"def": "Loc.lsp",
"old": "(l.endColumn.getD (l.column + 1)) - 1)",
"new": "(l.endColumn.getD l.column) - 1)",
"claim": "C110 lsp",
"edit": "`(l.endColumn.getD (l.column + 1)) - 1)` -> `(l.endColumn.getD l.column) - 1)`",
"count": 1
},
{
"id": "k029",
"file": "ErrorText",
"def": "Loc.text",
"old": "intText l.column\n\n",
"new": "intText (l.column - 1)\n\n",
"claim": "C111 location text",
"edit": "`intText l.column\n\n` -> `intText (l.column - 1)\n\n`",
"count": 1
},
{
"id": "k030",
"file": "ErrorText",
"def": "grammarMessage",
"old": "if expected \u2260 [] \u2227 found \u2260 [] then message ++ one expected ++",
"new": "if expected \u2260 [] \u2227 found \u2260 [] then message ++",
"claim": "C111 expected",
"edit": "`if expected \u2260 [] \u2227 found \u2260 [] then message ++ one expected ++` -> `if expected \u2260 [] \u2227 found \u2260 [] then message ++`",
"count": 1
},
{
"id": "k031",
"file": "ErrorText",
"def": "grammarMessage",
"old": "else if found \u2260 [] then message ++ \". Found \".toList ++ quoted found",
"new": "else if found \u2260 [] then message",
"claim": "C111 found",
"edit": "`else if found \u2260 [] then message ++ \". Found \".toList ++ quoted found` -> `else if found \u2260 [] then message`",
"count": 1
},
{
"id": "k032",
"file": "ErrorText",
"def": "Error.rebuild",
"old": "{ e with expected := [], found := [], symbolName := [] }",
"new": "e",
"claim": "C111 rebuilt errors",
"edit": "`{ e with expected := [], found := [], symbolName := [] }` -> `e`",
"count": 1
},
{
"id": "k033",
"file": "ErrorText",
"def": "Error.withLocation",
"old": "{ e with location := some l }.rebuild",
"new": "e.rebuild",
"claim": "C111 with_location",
"edit": "`{ e with location := some l }.rebuild` -> `e.rebuild`",
"count": 1
},
{
"id": "k034",
"file": "ErrorText",
"def": "Error.withContext",
"old": "{ e with context := c }.rebuild",
"new": "{ e with message := c }.rebuild",
"claim": "C111 with_context",
"edit": "`{ e with context := c }.rebuild` -> `{ e with message := c }.rebuild`",
"count": 1
},
{
"id": "k035",
"file": "ErrorText",
"def": "Error.lines",
"old": "(if e.context \u2260 [] then [\"  in \".toList ++ e.context] else [])",
"new": "[]",
"claim": "C111 context shown",
"edit": "`(if e.context \u2260 [] then [\"  in \".toList ++ e.context] else [])` -> `[]`",
"count": 1
},
{
"id": "k036",
"file": "ErrorText",
"def": "Error.lines",
"old": "++ l.pointer.map (\"    \".toList ++ \u00b7)",
"new": "++ l.pointer",
"claim": "C111 pointer aligned",
"edit": "`++ l.pointer.map (\"    \".toList ++ \u00b7)` -> `++ l.pointer`",
"count": 1
},
{
"id": "k037",
"file": "ErrorText",
"def": "semanticNotes",
"old": "if notes.any (isIn \"Did you mean\".toList) then notes else",
"new": "if notes = [] then notes else",
"claim": "C111 suggestions",
"edit": "`if notes.any (isIn \"Did you mean\".toList) then notes else` -> `if notes = [] then notes else`",
"count": 1
},
{
"id": "k038",
"file": "ErrorText",
"def": "semanticNotes",
"old": "else []) ++ fixes f.code",
"new": "else [])",
"claim": "C111 fixes",
"edit": "`else []) ++ fixes f.code` -> `else [])`",
"count": 1
},
{
"id": "k039",
"file": "ErrorText",
"def": "convertFailure",
"old": "message := grammarMessage f.msg [] f.found",
"new": "message := f.msg",
"claim": "C111 message",
"edit": "`message := grammarMessage f.msg [] f.found` -> `message := f.msg`",
"count": 1
},
{
"id": "k040",
"file": "ErrorText",
"def": "convertFailure",
"old": "code := some f.code",
"new": "code := none",
"claim": "C111 code",
"edit": "`code := some f.code` -> `code := none`",
"count": 1
},
{
"id": "k041",
"file": "ErrorText",
"def": "pad4",
"old": "4 - (natStr n).length",
"new": "3 - (natStr n).length",
"claim": "C111 aligned numbers",
"edit": "`4 - (natStr n).length` -> `3 - (natStr n).length`",
"count": 1
},
{
"id": "k042",
"file": "ErrorText",
"def": "sourceRow",
"old": "let t := rstrip line",
"new": "let t := line",
"claim": "C111 rows",
"edit": "`let t := rstrip line` -> `let t := line`",
"count": 1
},
{
"id": "k043",
"file": "ErrorText",
"def": "pointerRow",
"old": "(column - 1).toNat",
"new": "column.toNat",
"claim": "C111 pointer",
"edit": "`(column - 1).toNat` -> `column.toNat`",
"count": 1
},
{
"id": "k044",
"file": "ErrorText",
"def": "pointerRow",
"old": "(max 1 length).toNat '^'",
"new": "length.toNat '^'",
"claim": "C111 at least one caret",
"edit": "`(max 1 length).toNat '^'` -> `length.toNat '^'`",
"count": 1
},
{
"id": "k045",
"file": "ErrorText",
"def": "Loc.span",
"old": "e - l.column else 1",
"new": "e - l.column + 1 else 1",
"claim": "C111 carets",
"edit": "`e - l.column else 1` -> `e - l.column + 1 else 1`",
"count": 1
},
{
"id": "k046",
"file": "ErrorText",
"def": "contextRows",
"old": "if a = l.line then",
"new": "if a + 1 = l.line then",
"claim": "C111 under the right line",
"edit": "`if a = l.line then` -> `if a + 1 = l.line then`",
"count": 1
},
{
"id": "k047",
"file": "ErrorText",
"def": "contextRows",
"old": "lines[a - 1]?.getD []",
"new": "lines[a]?.getD []",
"claim": "C111 right line",
"edit": "`lines[a - 1]?.getD []` -> `lines[a]?.getD []`",
"count": 1
},
{
"id": "k048",
"file": "ErrorText",
"def": "formatError",
"old": "max 1 (l.line - context)",
"new": "max 1 (l.line - context - 1)",
"claim": "C111 context lines",
"edit": "`max 1 (l.line - context)` -> `max 1 (l.line - context - 1)`",
"count": 1
},
{
"id": "k049",
"file": "ErrorText",
"def": "formatError",
"old": "min lines.length (l.line + context)",
"new": "l.line + context",
"claim": "C111 context lines",
"edit": "`min lines.length (l.line + context)` -> `l.line + context`",
"count": 1
},
{
"id": "k050",
"file": "ErrorText",
"def": "formatError",
"old": "l.line \u2264 lines.length then",
"new": "l.line < lines.length then",
"claim": "C111 last line",
"edit": "`l.line \u2264 lines.length then` -> `l.line < lines.length then`",
"count": 1
},
{
"id": "k051",
"file": "ErrorText",
"def": "formatError",
"old": "++ helpRows e.suggestions\n",
"new": "",
"claim": "C111 help",
"edit": "`++ helpRows e.suggestions\n` -> ``",
"count": 1
},
{
"id": "k052",
"file": "ErrorText",
"def": "formatError",
"old": "++ e.notes.map",
"new": "++ (e.notes.take 1).map",
"claim": "C111 notes",
"edit": "`++ e.notes.map` -> `++ (e.notes.take 1).map`",
"count": 1
},
{
"id": "k053",
"file": "Pipeline",
"def": "argVal",
"old": "| .str s => some (.inr s)",
"new": "| .str _ => none",
"claim": "C112 parameters of priors",
"edit": "`| .str s => some (.inr s)` -> `| .str _ => none`",
"count": 1
},
{
"id": "k054",
"file": "Pipeline",
"def": "GDist.toDist",
"old": "  wrapper := d.wrapper\n",
"new": "  wrapper := none\n",
"claim": "C112 wrappers",
"edit": "`  wrapper := d.wrapper\n` -> `  wrapper := none\n`",
"count": 1
},
{
"id": "k055",
"file": "Pipeline",
"def": "GDist.toDist",
"old": "  initial := d.initial",
"new": "  initial := none",
"claim": "C112 initial values",
"edit": "`  initial := d.initial` -> `  initial := none`",
"count": 1
},
{
"id": "k056",
"file": "Pipeline",
"def": "GDist.toDist",
"old": "  param := d.param",
"new": "  param := d.dist",
"claim": "C112 name of the parameter",
"edit": "`  param := d.param` -> `  param := d.dist`",
"count": 1
},
{
"id": "k057",
"file": "Pipeline",
"def": "GCal.toCalib",
"old": "| .prior d => .dist d.toDist",
"new": "| .prior d => .dist { d.toDist with initial := none }",
"claim": "C112 initial values",
"edit": "`| .prior d => .dist d.toDist` -> `| .prior d => .dist { d.toDist with initial := none }`",
"count": 1
},
{
"id": "k058",
"file": "Pipeline",
"def": "GBlock.toBlk",
"old": "  definitions := b.definitions",
"new": "  definitions := []",
"claim": "C112 definitions",
"edit": "`  definitions := b.definitions` -> `  definitions := []`",
"count": 1
},
{
"id": "k059",
"file": "Pipeline",
"def": "GBlock.toBlk",
"old": "  identities := b.identities",
"new": "  identities := b.constraints",
"claim": "C112 identities",
"edit": "`  identities := b.identities` -> `  identities := b.constraints`",
"count": 1
},
{
"id": "k060",
"file": "Pipeline",
"def": "GBlock.toBlk",
"old": "  constraints := b.constraints",
"new": "  constraints := b.constraints.drop 1",
"claim": "C112 constraints",
"edit": "`  constraints := b.constraints` -> `  constraints := b.constraints.drop 1`",
"count": 1
},
{
"id": "k061",
"file": "Pipeline",
"def": "GBlock.toBlk",
"old": "  controls := b.controls",
"new": "  controls := b.controls.drop 1",
"claim": "C112 controls",
"edit": "`  controls := b.controls` -> `  controls := b.controls.drop 1`",
"count": 1
},
{
"id": "k062",
"file": "Pipeline",
"def": "GBlock.toBlk",
"old": "  objective := b.objective",
"new": "  objective := b.objective.take 0",
"claim": "C112 objective",
"edit": "`  objective := b.objective` -> `  objective := b.objective.take 0`",
"count": 1
},
{
"id": "k063",
"file": "Pipeline",
"def": "GBlock.toBlk",
"old": "  shocks := b.shocks\n",
"new": "  shocks := []\n",
"claim": "C112 shocks",
"edit": "`  shocks := b.shocks\n` -> `  shocks := []\n`",
"count": 1
},
{
"id": "k064",
"file": "Pipeline",
"def": "GBlock.toBlk",
"old": "b.shockDists.map GDist.toDist",
"new": "[]",
"claim": "C112 shock distributions",
"edit": "`b.shockDists.map GDist.toDist` -> `[]`",
"count": 1
},
{
"id": "k065",
"file": "Pipeline",
"def": "GBlock.toBlk",
"old": "b.calibration.map GCal.toCalib",
"new": "[]",
"claim": "C112 calibration",
"edit": "`b.calibration.map GCal.toCalib` -> `[]`",
"count": 1
},
{
"id": "k066",
"file": "Pipeline",
"def": "GFile.toMdl",
"old": "m.blocks.map GBlock.toBlk",
"new": "(m.blocks.drop 1).map GBlock.toBlk",
"claim": "C112 all blocks",
"edit": "`m.blocks.map GBlock.toBlk` -> `(m.blocks.drop 1).map GBlock.toBlk`",
"count": 1
},
{
"id": "k067",
"file": "Pipeline",
"def": "GFile.toMdl",
"old": "tryreduce := m.tryreduce",
"new": "tryreduce := []",
"claim": "C112 tryreduce",
"edit": "`tryreduce := m.tryreduce` -> `tryreduce := []`",
"count": 1
},
{
"id": "k068",
"file": "Pipeline",
"def": "GFile.toMdl",
"old": "assumptions := m.assumptions",
"new": "assumptions := []",
"claim": "C112 assumptions",
"edit": "`assumptions := m.assumptions` -> `assumptions := []`",
"count": 1
},
{
"id": "k069",
"file": "Plotting",
"def": "prepareGrid",
"old": "let extra := if 0 < remainder then 1 else 0",
"new": "let extra := if 1 < remainder then 1 else 0",
"claim": "C113 number of rows",
"edit": "`let extra := if 0 < remainder then 1 else 0` -> `let extra := if 1 < remainder then 1 else 0`",
"count": 1
},
{
"id": "k070",
"file": "Plotting",
"def": "prepareGrid",
"old": "(List.range (nRows - extra)).flatMap",
"new": "(List.range nRows).flatMap",
"claim": "C113 full rows",
"edit": "`(List.range (nRows - extra)).flatMap` -> `(List.range nRows).flatMap`",
"count": 1
},
{
"id": "k071",
"file": "Plotting",
"def": "prepareGrid",
"old": "(nCols - remainder) + j * 2, (nCols - remainder) + (j + 1) * 2",
"new": "j * 2, (j + 1) * 2",
"claim": "C113 centred",
"edit": "`(nCols - remainder) + j * 2, (nCols - remainder) + (j + 1) * 2` -> `j * 2, (j + 1) * 2`",
"count": 1
},
{
"id": "k072",
"file": "Plotting",
"def": "prepareGrid",
"old": "\u27e8(nRows - 1) * 2, nRows * 2,",
"new": "\u27e8nRows * 2, (nRows + 1) * 2,",
"claim": "C113 last row",
"edit": "`\u27e8(nRows - 1) * 2, nRows * 2,` -> `\u27e8nRows * 2, (nRows + 1) * 2,`",
"count": 1
},
{
"id": "k073",
"file": "Plotting",
"def": "prepareGrid",
"old": "\u27e8i * 2, (i + 1) * 2, j * 2, (j + 1) * 2\u27e9",
"new": "\u27e8i * 2, (i + 1) * 2, j * 2, (j + 2) * 2\u27e9",
"claim": "C113 disjoint",
"edit": "`\u27e8i * 2, (i + 1) * 2, j * 2, (j + 1) * 2\u27e9` -> `\u27e8i * 2, (i + 1) * 2, j * 2, (j + 2) * 2\u27e9`",
"count": 1
},
{
"id": "k074",
"file": "Plotting",
"def": "prepareGrid",
"old": "fun i => (List.range nCols).map fun j => \u27e8i * 2, (i + 1) * 2, j * 2, (j + 1) * 2\u27e9",
"new": "fun i => (List.range nCols).map fun j => \u27e8j * 2, (j + 1) * 2, i * 2, (i + 1) * 2\u27e9",
"claim": "C113 rows and columns",
"edit": "`fun i => (List.range nCols).map fun j => \u27e8i * 2, (i + 1) * 2, j * 2, (j + 1) * 2\u27e9` -> `fun i => (List.range nCols).map fun j => \u27e8j * 2, (j + 1) * 2, i * 2, (i + 1) * 2\u27e9`",
"count": 1
},
{
"id": "k075",
"file": "Plotting",
"def": "chosenCols",
"old": "min 4 nPlots",
"new": "4",
"claim": "equivalent for four or more panels; C113 default columns",
"edit": "`min 4 nPlots` -> `4`",
"count": 1
},
{
"id": "k076",
"file": "Plotting",
"def": "irfGrid",
"old": "l.bottom / 2 - 1",
"new": "l.top / 2 - 1",
"claim": "C113 rows of the panels",
"edit": "`l.bottom / 2 - 1` -> `l.top / 2 - 1`",
"count": 1
},
{
"id": "k077",
"file": "Plotting",
"def": "irfGrid",
"old": "rows.drop (rows.length - 2)",
"new": "rows.drop (rows.length - 1)",
"claim": "C113 labels above a gap",
"edit": "`rows.drop (rows.length - 2)` -> `rows.drop (rows.length - 1)`",
"count": 1
},
{
"id": "k078",
"file": "Plotting",
"def": "irfGrid",
"old": "rowIdxs.count i = c",
"new": "rowIdxs.count i \u2264 c",
"claim": "C113 labels above a gap",
"edit": "`rowIdxs.count i = c` -> `rowIdxs.count i \u2264 c`",
"count": 1
},
{
"id": "k079",
"file": "Plotting",
"def": "irfGrid",
"old": "match rows.getLast? with",
"new": "match rows.head? with",
"claim": "C113 labels at the bottom",
"edit": "`match rows.getLast? with` -> `match rows.head? with`",
"count": 1
},
{
"id": "k080",
"file": "Plotting",
"def": "resolveList",
"old": "if l.all fun v => v \u2208 available then .ok l",
"new": "if l.any fun v => v \u2208 available then .ok l",
"claim": "C114 unknown names",
"edit": "`if l.all fun v => v \u2208 available then .ok l` -> `if l.any fun v => v \u2208 available then .ok l`",
"count": 1
},
{
"id": "k081",
"file": "Plotting",
"def": "resolveList",
"old": "| .all => .ok available",
"new": "| .all => .ok (available.take 1)",
"claim": "C114 all by default",
"edit": "`| .all => .ok available` -> `| .all => .ok (available.take 1)`",
"count": 1
},
{
"id": "k082",
"file": "Plotting",
"def": "irfToMapping",
"old": "natStr p.2, p.1)",
"new": "natStr (p.2 + 1), p.1)",
"claim": "C114 scenario names",
"edit": "`natStr p.2, p.1)` -> `natStr (p.2 + 1), p.1)`",
"count": 1
},
{
"id": "k083",
"file": "Plotting",
"def": "resolveVarsShocks",
"old": "match resolveList vars a.vars with",
"new": "match resolveList shocks a.vars with",
"claim": "C114 swapped arguments",
"edit": "`match resolveList vars a.vars with` -> `match resolveList shocks a.vars with`",
"count": 1
},
{
"id": "k084",
"file": "Plotting",
"def": "resolveVarsShocks",
"old": "| .ok s => .ok (vs, some s)",
"new": "| .ok _ => .ok (vs, some ss)",
"claim": "C114 selected shocks",
"edit": "`| .ok s => .ok (vs, some s)` -> `| .ok _ => .ok (vs, some ss)`",
"count": 1
},
{
"id": "k085",
"file": "Plotting",
"def": "scenarioLines",
"old": "then .ok (s.map fun x => \u27e8name, idx % 4, some x\u27e9)",
"new": "then .ok (ss.map fun x => \u27e8name, idx % 4, some x\u27e9)",
"claim": "C114 selected shocks",
"edit": "`then .ok (s.map fun x => \u27e8name, idx % 4, some x\u27e9)` -> `then .ok (ss.map fun x => \u27e8name, idx % 4, some x\u27e9)`",
"count": 1
},
{
"id": "k086",
"file": "Plotting",
"def": "scenarioLines",
"old": "| none, none => .ok [\u27e8name, idx % 4, none\u27e9]",
"new": "| none, none => .ok [\u27e8name, 0, none\u27e9]",
"claim": "C114 styles",
"edit": "`| none, none => .ok [\u27e8name, idx % 4, none\u27e9]` -> `| none, none => .ok [\u27e8name, 0, none\u27e9]`",
"count": 1
},
{
"id": "k087",
"file": "Plotting",
"def": "panelLines",
"old": "| .ok ls => .ok (l ++ ls)",
"new": "| .ok ls => .ok (ls ++ l)",
"claim": "C114 order of scenarios",
"edit": "`| .ok ls => .ok (l ++ ls)` -> `| .ok ls => .ok (ls ++ l)`",
"count": 1
},
{
"id": "k088",
"file": "Plotting",
"def": "irfPanels",
"old": "\u27e8v, loc, ls, decide (r \u2208 lastRows)\u27e9",
"new": "\u27e8v, loc, ls, decide (r \u2209 lastRows)\u27e9",
"claim": "C114 tick labels",
"edit": "`\u27e8v, loc, ls, decide (r \u2208 lastRows)\u27e9` -> `\u27e8v, loc, ls, decide (r \u2209 lastRows)\u27e9`",
"count": 1
},
{
"id": "k089",
"file": "Plotting",
"def": "irfPanels",
"old": "match g.locs[i]?, rowIdxs[i]?,",
"new": "match g.locs[0]?, rowIdxs[i]?,",
"claim": "C114 places",
"edit": "`match g.locs[i]?, rowIdxs[i]?,` -> `match g.locs[0]?, rowIdxs[i]?,`",
"count": 1
},
{
"id": "k090",
"file": "Plotting",
"def": "plotIrf",
"old": "irfGrid vs.length nCols",
"new": "irfGrid (vs.length + 1) nCols",
"claim": "C114 grid",
"edit": "`irfGrid vs.length nCols` -> `irfGrid (vs.length + 1) nCols`",
"count": 1
},
{
"id": "k091",
"file": "Plotting",
"def": "simPanels",
"old": "    if v \u2208 available then\n      match locs[i]?",
"new": "    if v \u2208 available \u2228 i = 0 then\n      match locs[i]?",
"claim": "C114 unknown variables",
"edit": "`    if v \u2208 available then\n      match locs[i]?` -> `    if v \u2208 available \u2228 i = 0 then\n      match locs[i]?`",
"count": 1
},
{
"id": "k092",
"file": "Plotting",
"def": "plotSimulation",
"old": "vars.getD available",
"new": "available",
"claim": "C114 requested variables",
"edit": "`vars.getD available` -> `available`",
"count": 1
},
{
"id": "k093",
"file": "Plotting",
"def": "plotPriors",
"old": "dupdate priors hyper",
"new": "dupdate hyper priors",
"claim": "C114 hyper-priors replace",
"edit": "`dupdate priors hyper` -> `dupdate hyper priors`",
"count": 1
},
{
"id": "k094",
"file": "Plotting",
"def": "plotPriors",
"old": ".ok (all.zip g.locs)",
"new": ".ok (priors.zip g.locs)",
"claim": "C114 hyper-priors shown",
"edit": "`.ok (all.zip g.locs)` -> `.ok (priors.zip g.locs)`",
"count": 1
},
{
"id": "k095",
"file": "Plotting",
"def": "initialMark",
"old": "if mark = true \u2227 v \u2260 0 then",
"new": "if mark = true \u2227 v > 0 then",
"claim": "C114 negative initial values",
"edit": "`if mark = true \u2227 v \u2260 0 then` -> `if mark = true \u2227 v > 0 then`",
"count": 1
},
{
"id": "k096",
"file": "Plotting",
"def": "plotCorner",
"old": "decide (c.2 \u2264 r.2)",
"new": "decide (c.2 < r.2)",
"claim": "C114 diagonal",
"edit": "`decide (c.2 \u2264 r.2)` -> `decide (c.2 < r.2)`",
"count": 1
},
{
"id": "k097",
"file": "Plotting",
"def": "plotCorner",
"old": "fun c => (r.1, c.1)",
"new": "fun c => (c.1, r.1)",
"claim": "C114 which axis",
"edit": "`fun c => (r.1, c.1)` -> `fun c => (c.1, r.1)`",
"count": 1
},
{
"id": "k098",
"file": "Plotting",
"def": "kalmanGroup",
"old": "output ++ ['_'] ++ group",
"new": "group ++ ['_'] ++ output",
"claim": "C114 group name",
"edit": "`output ++ ['_'] ++ group` -> `group ++ ['_'] ++ output`",
"count": 1
},
{
"id": "k099",
"file": "Plotting",
"def": "F.above",
"old": "| .inf => True | .nan => False",
"new": "| .inf => False | .nan => False",
"claim": "C115 infinite eigenvalues",
"edit": "`| .inf => True | .nan => False` -> `| .inf => False | .nan => False`",
"count": 1
},
{
"id": "k100",
"file": "Plotting",
"def": "plotEigenvalues",
"old": "decide (p.1.above 1))",
"new": "decide (p.1.above 10))",
"claim": "C115 colour",
"edit": "`decide (p.1.above 1))` -> `decide (p.1.above 10))`",
"count": 1
},
{
"id": "k101",
"file": "Plotting",
"def": "plotEigenvalues",
"old": "decide (m.above 10)",
"new": "decide (m.above 9)",
"claim": "C115 count",
"edit": "`decide (m.above 10)` -> `decide (m.above 9)`",
"count": 1
},
{
"id": "k102",
"file": "Plotting",
"def": "finiteMods",
"old": "if x < 1000000 then",
"new": "if x < 1 then",
"claim": "C115 default tolerance",
"edit": "`if x < 1000000 then` -> `if x < 1 then`",
"count": 1
},
{
"id": "k103",
"file": "Plotting",
"def": "infTol",
"old": "max (10 * xs.foldl max x) 10",
"new": "10 * xs.foldl max x",
"claim": "C115 default tolerance",
"edit": "`max (10 * xs.foldl max x) 10` -> `10 * xs.foldl max x`",
"count": 1
},
{
"id": "k104",
"file": "Plotting",
"def": "infTol",
"old": "xs.foldl max x) 10",
"new": "xs.foldl min x) 10",
"claim": "C115 default tolerance",
"edit": "`xs.foldl max x) 10` -> `xs.foldl min x) 10`",
"count": 1
},
{
"id": "k105",
"file": "Plotting",
"def": "infTol",
"old": "| some t => t",
"new": "| some t => 10 * t",
"claim": "C115 given tolerance",
"edit": "`| some t => t` -> `| some t => 10 * t`",
"count": 1
},
{
"id": "k106",
"file": "Plotting",
"def": "filterEigenvalues",
"old": "(!infinite || decide (m.below t))",
"new": "(!infinite && decide (m.below t))",
"claim": "C115 filters",
"edit": "`(!infinite || decide (m.below t))` -> `(!infinite && decide (m.below t))`",
"count": 1
},
{
"id": "k107",
"file": "Plotting",
"def": "filterEigenvalues",
"old": "mods.length - kept.length",
"new": "kept.length",
"claim": "C115 count",
"edit": "`mods.length - kept.length` -> `kept.length`",
"count": 1
},
{
"id": "k108",
"file": "Plotting",
"def": "axisLimits",
"old": "let half := max (xlim.2 - xlim.1) (ylim.2 - ylim.1) / 2",
"new": "let half := min (xlim.2 - xlim.1) (ylim.2 - ylim.1) / 2",
"claim": "C115 axes contain all",
"edit": "`let half := max (xlim.2 - xlim.1) (ylim.2 - ylim.1) / 2` -> `let half := min (xlim.2 - xlim.1) (ylim.2 - ylim.1) / 2`",
"count": 1
},
{
"id": "k109",
"file": "Plotting",
"def": "axisLimits",
"old": "let y := (ylim.1 + ylim.2) / 2",
"new": "let y := (xlim.1 + xlim.2) / 2",
"claim": "C115 centre",
"edit": "`let y := (ylim.1 + ylim.2) / 2` -> `let y := (xlim.1 + xlim.2) / 2`",
"count": 1
},
{
"id": "k110",
"file": "Plotting",
"def": "axisLimits",
"old": "max (reMax - reMin) (1 / 10) * (3 / 10)",
"new": "(reMax - reMin) * (3 / 10)",
"claim": "C115 one point",
"edit": "`max (reMax - reMin) (1 / 10) * (3 / 10)` -> `(reMax - reMin) * (3 / 10)`",
"count": 1
},
{
"id": "k111",
"file": "Plotting",
"def": "arrows",
"old": "let delta := param * perturbation",
"new": "let delta := perturbation",
"claim": "C115 relative change",
"edit": "`let delta := param * perturbation` -> `let delta := perturbation`",
"count": 1
},
{
"id": "k112",
"file": "Plotting",
"def": "arrows",
"old": "p.1.1.2 + p.1.2.1.2 * delta",
"new": "p.1.1.2 + p.1.2.1.1 * delta",
"claim": "C115 imaginary part",
"edit": "`p.1.1.2 + p.1.2.1.2 * delta` -> `p.1.1.2 + p.1.2.1.1 * delta`",
"count": 1
},
{
"id": "k113",
"file": "Plotting",
"def": "arrows",
"old": "decide (maxGrad * minFrac < p.1.2.2)",
"new": "decide (maxGrad < p.1.2.2)",
"claim": "C115 fastest",
"edit": "`decide (maxGrad * minFrac < p.1.2.2)` -> `decide (maxGrad < p.1.2.2)`",
"count": 1
},
{
"id": "k114",
"file": "Plotting",
"def": "summaryOrder",
"old": "some \"perturbation\".toList, ",
"new": "",
"claim": "C116 all stages",
"edit": "`some \"perturbation\".toList, ` -> ``",
"count": 1
},
{
"id": "k115",
"file": "Plotting",
"def": "summaryBars",
"old": "summaryBars draws ls (left + frac)",
"new": "summaryBars draws ls frac",
"claim": "C116 side by side",
"edit": "`summaryBars draws ls (left + frac)` -> `summaryBars draws ls frac`",
"count": 1
},
{
"id": "k116",
"file": "Plotting",
"def": "summaryBars",
"old": "(draws.count l : Rat) / draws.length",
"new": "(draws.count l : Rat)",
"claim": "C116 shares",
"edit": "`(draws.count l : Rat) / draws.length` -> `(draws.count l : Rat)`",
"count": 1
},
{
"id": "k117",
"file": "Plotting",
"def": "summaryBars",
"old": "if frac = 0 then summaryBars draws ls left",
"new": "if frac = 1 then summaryBars draws ls left",
"claim": "C116 a single outcome",
"edit": "`if frac = 0 then summaryBars draws ls left` -> `if frac = 1 then summaryBars draws ls left`",
"count": 1
},
{
"id": "k118",
"file": "Plotting",
"def": "offDiagonal",
"old": "(failed.filter fun p => p.2 = r)",
"new": "failed",
"claim": "C116 series",
"edit": "`(failed.filter fun p => p.2 = r)` -> `failed`",
"count": 1
},
{
"id": "k119",
"file": "Plotting",
"def": "offDiagonal",
"old": ".eraseDups.flatMap fun r",
"new": ".flatMap fun r",
"claim": "C116 once",
"edit": "`.eraseDups.flatMap fun r` -> `.flatMap fun r`",
"count": 1
},
{
"id": "k120",
"file": "Plotting",
"def": "offDiagonal",
"old": "filter fun p => p.1.isNone).map fun p => (p.2, none)",
"new": "filter fun p => !p.1.isNone).map fun p => (p.2, none)",
"claim": "C116 successes",
"edit": "`filter fun p => p.1.isNone).map fun p => (p.2, none)` -> `filter fun p => !p.1.isNone).map fun p => (p.2, none)`",
"count": 1
},
{
"id": "k121",
"file": "Plotting",
"def": "diagonal",
"old": "filter fun p => !p.1.isNone).map Prod.snd].filter",
"new": "filter fun p => p.1.isNone).map Prod.snd].filter",
"claim": "C116 failures in a density",
"edit": "`filter fun p => !p.1.isNone).map Prod.snd].filter` -> `filter fun p => p.1.isNone).map Prod.snd].filter`",
"count": 1
},
{
"id": "k122",
"file": "Plotting",
"def": "diagonal",
"old": "2 \u2264 l.length",
"new": "1 \u2264 l.length",
"claim": "C116 two draws",
"edit": "`2 \u2264 l.length` -> `1 \u2264 l.length`",
"count": 1
},
{
"id": "k123",
"file": "Plotting",
"def": "diagonal",
"old": "[(draws.zipIdx.filter fun p => p.1.isNone).map Prod.snd, (draws",
"new": "[(draws",
"claim": "C116 both densities",
"edit": "`[(draws.zipIdx.filter fun p => p.1.isNone).map Prod.snd, (draws` -> `[(draws`",
"count": 1
}
]