[
 {
  "id": "y000",
  "file": "Structural",
  "old": "dget catalog c",
  "new": "dget (catalog.take 20) c",
  "claim": "C145 catalog complete",
  "edit": "`dget catalog c` -> `dget (catalog.take 20) c`",
  "count": 1,
  "def": "errorInfo"
 },
 {
  "id": "y001",
  "file": "Structural",
  "old": "[[], \"How to fix:\".toList] ++ i.fixes.map",
  "new": "[[], \"How to fix:\".toList] ++ i.causes.map",
  "claim": "C145 help lists the fixes",
  "edit": "`[[], \"How to fix:\".toList] ++ i.fixes.map` -> `[[], \"How to fix:\".toList] ++ i.causes.map`",
  "count": 1,
  "def": "helpLines"
 },
 {
  "id": "y002",
  "file": "Structural",
  "old": "[name ++ \": \".toList ++ i.title",
  "new": "[i.title",
  "claim": "C145 help names the code",
  "edit": "`[name ++ \": \".toList ++ i.title` -> `[i.title`",
  "count": 1,
  "def": "helpLines"
 },
 {
  "id": "y003",
  "file": "Structural",
  "old": "joinText ['\\n'] (helpLines n i)",
  "new": "joinText [' '] (helpLines n i)",
  "claim": "C145 help lines",
  "edit": "`joinText ['\\n'] (helpLines n i)` -> `joinText [' '] (helpLines n i)`",
  "count": 1,
  "def": "help"
 },
 {
  "id": "y004",
  "file": "Structural",
  "old": "| _, _ => []",
  "new": "| _, _ => \"?\".toList",
  "claim": "C145 help of no code",
  "edit": "`| _, _ => []` -> `| _, _ => \"?\".toList`",
  "count": 1,
  "def": "help"
 },
 {
  "id": "y005",
  "file": "Structural",
  "old": "|| h.expected == \"';'\".toList",
  "new": "",
  "claim": "C145 which code: expected",
  "edit": "`|| h.expected == \"';'\".toList` -> ``",
  "count": 1,
  "def": "Handler.isSemicolon"
 },
 {
  "id": "y006",
  "file": "Structural",
  "old": "componentKeywords.contains (lowerStr h.clean)",
  "new": "componentKeywords.contains h.clean",
  "claim": "C145 component in capitals",
  "edit": "`componentKeywords.contains (lowerStr h.clean)` -> `componentKeywords.contains h.clean`",
  "count": 1,
  "def": "Handler.isSemicolon"
 },
 {
  "id": "y007",
  "file": "Structural",
  "old": " && !isIn \"end of text\".toList (lowerStr h.clean)",
  "new": "",
  "claim": "C145 unclosed brace at the end",
  "edit": "` && !isIn \"end of text\".toList (lowerStr h.clean)` -> ``",
  "count": 1,
  "def": "Handler.isSemicolon"
 },
 {
  "id": "y008",
  "file": "Structural",
  "old": "isIn \"Expected ')'\".toList h.msg ||",
  "new": "",
  "claim": "C145 unclosed parenthesis",
  "edit": "`isIn \"Expected ')'\".toList h.msg ||` -> ``",
  "count": 1,
  "def": "Handler.isParen"
 },
 {
  "id": "y009",
  "file": "Structural",
  "old": "h.clean == \")\".toList || ",
  "new": "",
  "claim": "C145 which code: parenthesis found",
  "edit": "`h.clean == \")\".toList || ` -> ``",
  "count": 1,
  "def": "Handler.isParen"
 },
 {
  "id": "y010",
  "file": "Structural",
  "old": "(h.clean.isEmpty || isIn",
  "new": "(isIn",
  "claim": "C145 unclosed brace, nothing found",
  "edit": "`(h.clean.isEmpty || isIn` -> `(isIn`",
  "count": 1,
  "def": "Handler.isBrace"
 },
 {
  "id": "y011",
  "file": "Structural",
  "old": "h.clean == \"{\".toList || ",
  "new": "",
  "claim": "C145 which code: brace found",
  "edit": "`h.clean == \"{\".toList || ` -> ``",
  "count": 1,
  "def": "Handler.isBrace"
 },
 {
  "id": "y012",
  "file": "Structural",
  "old": "isIn \"Expected '+'\".toList h.msg",
  "new": "isIn \"Expected '-'\".toList h.msg",
  "claim": "C145 which code: operand",
  "edit": "`isIn \"Expected '+'\".toList h.msg` -> `isIn \"Expected '-'\".toList h.msg`",
  "count": 1,
  "def": "Handler.isMissingRhs"
 },
 {
  "id": "y013",
  "file": "Structural",
  "old": "if h.isParen then \"E007\".toList\n  else if h.isSemicolon alpha then \"E001\".toList",
  "new": "if h.isSemicolon alpha then \"E001\".toList\n  else if h.isParen then \"E007\".toList",
  "claim": "C145 order of faults",
  "edit": "`if h.isParen then \"E007\".toList\n  else if h.isSemicolon alpha then \"E001\".toList` -> `if h.isSemicolon alpha then \"E001\".toList\n  else if h.isParen then \"E007\".toList`",
  "count": 1,
  "def": "Handler.code"
 },
 {
  "id": "y014",
  "file": "Structural",
  "old": "else if h.isBrace then \"E002\".toList",
  "new": "else if h.isBrace then \"E003\".toList",
  "claim": "C145 which code: brace",
  "edit": "`else if h.isBrace then \"E002\".toList` -> `else if h.isBrace then \"E003\".toList`",
  "count": 1,
  "def": "Handler.code"
 },
 {
  "id": "y015",
  "file": "Structural",
  "old": "\"Syntax error: \".toList ++ h.msg",
  "new": "\"Syntax error: \".toList ++ h.expected",
  "claim": "C145 keeps the message",
  "edit": "`\"Syntax error: \".toList ++ h.msg` -> `\"Syntax error: \".toList ++ h.expected`",
  "count": 1,
  "def": "Handler.message"
 },
 {
  "id": "y016",
  "file": "Structural",
  "old": " ++ \" after previous statement\".toList",
  "new": "",
  "claim": "C145 component message",
  "edit": "` ++ \" after previous statement\".toList` -> ``",
  "count": 1,
  "def": "Handler.message"
 },
 {
  "id": "y017",
  "file": "Structural",
  "old": "lowerStr (title (h.code alpha))",
  "new": "title (h.code alpha)",
  "claim": "C145 annotation",
  "edit": "`lowerStr (title (h.code alpha))` -> `title (h.code alpha)`",
  "count": 1,
  "def": "Handler.annotation"
 },
 {
  "id": "y018",
  "file": "Structural",
  "old": "fixes (h.code alpha) else []",
  "new": "fixes \"E000\".toList else []",
  "claim": "C145 notes",
  "edit": "`fixes (h.code alpha) else []` -> `fixes \"E000\".toList else []`",
  "count": 1,
  "def": "Handler.notes"
 },
 {
  "id": "y019",
  "file": "Structural",
  "old": "fixes (h.code alpha) else []",
  "new": "fixes (h.code alpha) else fixes \"E000\".toList",
  "claim": "C145 notes of E000",
  "edit": "`fixes (h.code alpha) else []` -> `fixes (h.code alpha) else fixes \"E000\".toList`",
  "count": 1,
  "def": "Handler.notes"
 },
 {
  "id": "y020",
  "file": "Structural",
  "old": "++ f.found ++ ['\\'']",
  "new": "++ f.msg ++ ['\\'']",
  "claim": "C145 annotation of an index",
  "edit": "`++ f.found ++ ['\\'']` -> `++ f.msg ++ ['\\'']`",
  "count": 1,
  "def": "semanticAnnotation"
 },
 {
  "id": "y021",
  "file": "Structural",
  "old": "f.code = \"E005\".toList \u2227 f.msg \u2260 []",
  "new": "f.code = \"E006\".toList \u2227 f.msg \u2260 []",
  "claim": "C145 annotation of E005",
  "edit": "`f.code = \"E005\".toList \u2227 f.msg \u2260 []` -> `f.code = \"E006\".toList \u2227 f.msg \u2260 []`",
  "count": 1,
  "def": "semanticAnnotation"
 },
 {
  "id": "y022",
  "file": "Structural",
  "old": "grammarMessage (h.message alpha) [] h.found",
  "new": "h.message alpha",
  "claim": "C145 offending text shown",
  "edit": "`grammarMessage (h.message alpha) [] h.found` -> `h.message alpha`",
  "count": 1,
  "def": "convertException"
 },
 {
  "id": "y023",
  "file": "Structural",
  "old": "if f.code = \"E000\".toList then",
  "new": "if f.code = \"E000\".toList \u2228 f.code = \"E010\".toList then",
  "claim": "C145 own codes kept",
  "edit": "`if f.code = \"E000\".toList then` -> `if f.code = \"E000\".toList \u2228 f.code = \"E010\".toList then`",
  "count": 1,
  "def": "convertException"
 },
 {
  "id": "y024",
  "file": "Structural",
  "old": "(splitSep \". E008\".toList msg)",
  "new": "(splitSep separator msg)",
  "claim": "C145 (repair) readable message",
  "edit": "`(splitSep \". E008\".toList msg)` -> `(splitSep separator msg)`",
  "count": 1,
  "def": "classify"
 },
 {
  "id": "y025",
  "file": "Structural",
  "old": "if found \u2208 [\"^\".toList",
  "new": "if stripQuotes found \u2208 [\"^\".toList",
  "claim": "C145 (repair) operator message",
  "edit": "`if found \u2208 [\"^\".toList` -> `if stripQuotes found \u2208 [\"^\".toList`",
  "count": 1,
  "def": "classify"
 },
 {
  "id": "y026",
  "file": "Structural",
  "old": "isIn \"E008\".toList msg || isIn \"Empty function call\".toList msg",
  "new": "isIn \"Empty function call\".toList msg",
  "claim": "C145 (repair) index of E008",
  "edit": "`isIn \"E008\".toList msg || isIn \"Empty function call\".toList msg` -> `isIn \"Empty function call\".toList msg`",
  "count": 1,
  "def": "expressionCode"
 },
 {
  "id": "y027",
  "file": "Structural",
  "old": "isIn \"E010\".toList msg || isIn \"Invalid time index\".toList msg",
  "new": "false",
  "claim": "C145 index code",
  "edit": "`isIn \"E010\".toList msg || isIn \"Invalid time index\".toList msg` -> `false`",
  "count": 1,
  "def": "expressionCode"
 },
 {
  "id": "y028",
  "file": "Structural",
  "old": "else if '(' \u2208 msg \u2228 ')' \u2208 msg then \"E007\".toList",
  "new": "else if '(' \u2208 msg \u2228 ')' \u2208 msg then \"E000\".toList",
  "claim": "C145 expression codes",
  "edit": "`else if '(' \u2208 msg \u2228 ')' \u2208 msg then \"E007\".toList` -> `else if '(' \u2208 msg \u2228 ')' \u2208 msg then \"E000\".toList`",
  "count": 1,
  "def": "expressionCode"
 },
 {
  "id": "y029",
  "file": "ErrorCatalog",
  "old": "title := \"Unbalanced braces\".toList",
  "new": "title := \"Missing semicolon\".toList",
  "claim": "C145 distinct titles",
  "edit": "`title := \"Unbalanced braces\".toList` -> `title := \"Missing semicolon\".toList`",
  "count": 1,
  "def": "infoE002"
 },
 {
  "id": "y030",
  "file": "ErrorCatalog",
  "old": "title := \"Missing block name\".toList",
  "new": "title := [].map id",
  "claim": "C145 titles",
  "edit": "`title := \"Missing block name\".toList` -> `title := [].map id`",
  "count": 1,
  "def": "infoE003"
 },
 {
  "id": "y031",
  "file": "Statistics",
  "old": "R * Q * R\u1d40",
  "new": "R * Q * (-R\u1d40)",
  "claim": "C143 covariance",
  "edit": "`R * Q * R\u1d40` -> `R * Q * (-R\u1d40)`",
  "count": 1,
  "def": "stationaryCov"
 },
 {
  "id": "y032",
  "file": "Statistics",
  "old": "lyap T (R",
  "new": "lyap T\u1d40 (R",
  "claim": "C143 responses",
  "edit": "`lyap T (R` -> `lyap T\u1d40 (R`",
  "count": 1,
  "def": "stationaryCov"
 },
 {
  "id": "y033",
  "file": "Statistics",
  "old": "std i * std j",
  "new": "std i * std i",
  "claim": "C143 correlations",
  "edit": "`std i * std j` -> `std i * std i`",
  "count": 1,
  "def": "computeAutocov"
 },
 {
  "id": "y034",
  "file": "Statistics",
  "old": "(T ^ l * Sigma) i j",
  "new": "(T ^ (l+1) * Sigma) i j",
  "claim": "C143 lag zero",
  "edit": "`(T ^ l * Sigma) i j` -> `(T ^ (l+1) * Sigma) i j`",
  "count": 1,
  "def": "computeAutocov"
 },
 {
  "id": "y035",
  "file": "Statistics",
  "old": "Real.sqrt (Sigma i i)",
  "new": "Sigma i i",
  "claim": "C143 correlations",
  "edit": "`Real.sqrt (Sigma i i)` -> `Sigma i i`",
  "count": 1,
  "def": "computeAutocov"
 },
 {
  "id": "y036",
  "file": "Statistics",
  "old": "T ^ l * Sigma",
  "new": "Sigma * T ^ l",
  "claim": "C143 correlations",
  "edit": "`T ^ l * Sigma` -> `Sigma * T ^ l`",
  "count": 1,
  "def": "computeAutocov"
 },
 {
  "id": "y037",
  "file": "Simulate",
  "old": "(R *\u1d65 e))",
  "new": "(R *\u1d65 e + fun _ => 1))",
  "claim": "C144 at rest",
  "edit": "`(R *\u1d65 e))` -> `(R *\u1d65 e + fun _ => 1))`",
  "count": 1,
  "def": "simulateOne"
 },
 {
  "id": "y038",
  "file": "Simulate",
  "old": "| e :: es => .ok (es.scanl",
  "new": "| e :: es => .ok ((es.drop 1).scanl",
  "claim": "C144 length",
  "edit": "`| e :: es => .ok (es.scanl` -> `| e :: es => .ok ((es.drop 1).scanl`",
  "count": 1,
  "def": "simulateOne"
 },
 {
  "id": "y039",
  "file": "PFSolve",
  "old": ".steady d => .ok (d, d)",
  "new": ".steady d => .ok (d, [])",
  "claim": "C144 boundary",
  "edit": "`.steady d => .ok (d, d)` -> `.steady d => .ok (d, [])`",
  "count": 1,
  "def": "steadyDicts"
 },
 {
  "id": "y040",
  "file": "PFSolve",
  "old": "[i % names.length]?).getD 0",
  "new": "[i / names.length]?).getD 0",
  "claim": "C144 starts at rest",
  "edit": "`[i % names.length]?).getD 0` -> `[i / names.length]?).getD 0`",
  "count": 1,
  "def": "guessVector"
 },
 {
  "id": "y041",
  "file": "PFSolve",
  "old": "(ssToArray init names)",
  "new": "(ssToArray init names).reverse",
  "claim": "C144 starts at rest",
  "edit": "`(ssToArray init names)` -> `(ssToArray init names).reverse`",
  "count": 1,
  "def": "guessVector"
 },
 {
  "id": "y042",
  "file": "BKReport",
  "old": "(if nForward = nUnstable then [] else \" NOT\".toList)",
  "new": "(if nForward \u2264 nUnstable then [] else \" NOT\".toList)",
  "claim": "C139 message verdict",
  "edit": "`(if nForward = nUnstable then [] else \" NOT\".toList)` -> `(if nForward \u2264 nUnstable then [] else \" NOT\".toList)`",
  "count": 1,
  "def": "bkMessage"
 },
 {
  "id": "y043",
  "file": "BKReport",
  "old": "else if nForward < nUnstable then",
  "new": "else if nUnstable < nForward then",
  "claim": "C139 message reason",
  "edit": "`else if nForward < nUnstable then` -> `else if nUnstable < nForward then`",
  "count": 1,
  "def": "bkMessage"
 }
]