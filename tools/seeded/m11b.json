[{"id": "k006", "file": "ErrorText", "def": "expandTabs", "old": "8 - k % 8", "new": "8", "claim": "C110 tabs", "edit": "`8 - k % 8` -> `8`", "count": 1}, {"id": "k009", "file": "ErrorText", "def": "stripQuotes", "old": "(((s.dropWhile q).reverse).dropWhile q).reverse", "new": "s.dropWhile q", "claim": "C110 end column", "edit": "`(((s.dropWhile q).reverse).dropWhile q).reverse` -> `s.dropWhile q`", "count": 1}, {"id": "k024", "file": "ErrorText", "def": "Loc.carets", "old": "(max 1 (e - l.column)).toNat", "new": "(e - l.column).toNat", "claim": "C111 at least one caret", "edit": "`(max 1 (e - l.column)).toNat` -> `(e - l.column).toNat`", "count": 1}, {"id": "k028", "file": "ErrorText", "def": "Loc.lsp", "old": "(l.endColumn.getD (l.column + 1)) - 1)", "new": "(l.endColumn.getD l.column) - 1)", "claim": "C110 lsp", "edit": "`(l.endColumn.getD (l.column + 1)) - 1)` -> `(l.endColumn.getD l.column) - 1)`", "count": 1}, {"id": "k029", "file": "ErrorText", "def": "Loc.text", "old": "intText l.column\n\n", "new": "intText (l.column - 1)\n\n", "claim": "C111 location text", "edit": "`intText l.column\n\n` -> `intText (l.column - 1)\n\n`", "count": 1}, {"id": "k030", "file": "ErrorText", "def": "grammarMessage", "old": "if expected \u2260 [] \u2227 found \u2260 [] then message ++ one expected ++", "new": "if expected \u2260 [] \u2227 found \u2260 [] then message ++", "claim": "C111 expected", "edit": "`if expected \u2260 [] \u2227 found \u2260 [] then message ++ one expected ++` -> `if expected \u2260 [] \u2227 found \u2260 [] then message ++`", "count": 1}, {"id": "k035", "file": "ErrorText", "def": "Error.lines", "old": "(if e.context \u2260 [] then [\"  in \".toList ++ e.context] else [])", "new": "[]", "claim": "C111 context shown", "edit": "`(if e.context \u2260 [] then [\"  in \".toList ++ e.context] else [])` -> `[]`", "count": 1}, {"id": "k036", "file": "ErrorText", "def": "Error.lines", "old": "++ l.pointer.map (\"    \".toList ++ \u00b7)", "new": "++ l.pointer", "claim": "C111 pointer aligned", "edit": "`++ l.pointer.map (\"    \".toList ++ \u00b7)` -> `++ l.pointer`", "count": 1}, {"id": "k053", "file": "Pipeline", "def": "argVal", "old": "| .str s => some (.inr s)", "new": "| .str _ => none", "claim": "C112 parameters of priors", "edit": "`| .str s => some (.inr s)` -> `| .str _ => none`", "count": 1}, {"id": "k054", "file": "Pipeline", "def": "GDist.toDist", "old": "  wrapper := d.wrapper\n", "new": "  wrapper := none\n", "claim": "C112 wrappers", "edit": "`  wrapper := d.wrapper\n` -> `  wrapper := none\n`", "count": 1}, {"id": "k055", "file": "Pipeline", "def": "GDist.toDist", "old": "  initial := d.initial", "new": "  initial := none", "claim": "C112 initial values", "edit": "`  initial := d.initial` -> `  initial := none`", "count": 1}, {"id": "k056", "file": "Pipeline", "def": "GDist.toDist", "old": "  param := d.param", "new": "  param := d.dist", "claim": "C112 name of the parameter", "edit": "`  param := d.param` -> `  param := d.dist`", "count": 1}, {"id": "k057", "file": "Pipeline", "def": "GCal.toCalib", "old": "| .prior d => .dist d.toDist", "new": "| .prior d => .dist { d.toDist with initial := none }", "claim": "C112 initial values", "edit": "`| .prior d => .dist d.toDist` -> `| .prior d => .dist { d.toDist with initial := none }`", "count": 1}, {"id": "k063", "file": "Pipeline", "def": "GBlock.toBlk", "old": "  shocks := b.shocks\n", "new": "  shocks := []\n", "claim": "C112 shocks", "edit": "`  shocks := b.shocks\n` -> `  shocks := []\n`", "count": 1}, {"id": "k064", "file": "Pipeline", "def": "GBlock.toBlk", "old": "b.shockDists.map GDist.toDist", "new": "[]", "claim": "C112 shock distributions", "edit": "`b.shockDists.map GDist.toDist` -> `[]`", "count": 1}, {"id": "k065", "file": "Pipeline", "def": "GBlock.toBlk", "old": "b.calibration.map GCal.toCalib", "new": "[]", "claim": "C112 calibration", "edit": "`b.calibration.map GCal.toCalib` -> `[]`", "count": 1}, {"id": "k067", "file": "Pipeline", "def": "GFile.toMdl", "old": "tryreduce := m.tryreduce", "new": "tryreduce := []", "claim": "C112 tryreduce", "edit": "`tryreduce := m.tryreduce` -> `tryreduce := []`", "count": 1}]