[
{
"id": "j000",
"file": "Lexer",
"def": "isWs",
"old": "|| c = '\\t' || c = '\\r'",
"new": "|| c = '\\t'",
"claim": "C106 carriage returns",
"edit": "`|| c = '\\t' || c = '\\r'` -> `|| c = '\\t'`",
"count": 1
},
{
"id": "j001",
"file": "Lexer",
"def": "skipLay",
"old": "if c = '\\n' then skipLay false cs else skipLay true cs",
"new": "if c = ';' then skipLay false cs else skipLay true cs",
"claim": "C106 comment ends with the line",
"edit": "`if c = '\\n' then skipLay false cs else skipLay true cs` -> `if c = ';' then skipLay false cs else skipLay true cs`",
"count": 1
},
{
"id": "j002",
"file": "Lexer",
"def": "skipLay",
"old": "else if c = '#' then skipLay true cs else",
"new": "else if c = '%' then skipLay true cs else",
"claim": "C106 comment sign",
"edit": "`else if c = '#' then skipLay true cs else` -> `else if c = '%' then skipLay true cs else`",
"count": 1
},
{
"id": "j003",
"file": "Lexer",
"def": "isIdStart",
"old": "def isIdStart (c : Char) : Bool := c.isAlpha || c = '_'",
"new": "def isIdStart (c : Char) : Bool := c.isAlpha",
"claim": "C106 names with underscore first",
"edit": "`def isIdStart (c : Char) : Bool := c.isAlpha || c = '_'` -> `def isIdStart (c : Char) : Bool := c.isAlpha`",
"count": 1
},
{
"id": "j004",
"file": "Lexer",
"def": "isIdChar",
"old": "def isIdChar (c : Char) : Bool := c.isAlphanum || c = '_'",
"new": "def isIdChar (c : Char) : Bool := c.isAlphanum",
"claim": "C106 names with underscore",
"edit": "`def isIdChar (c : Char) : Bool := c.isAlphanum || c = '_'` -> `def isIdChar (c : Char) : Bool := c.isAlphanum`",
"count": 1
},
{
"id": "j005",
"file": "Lexer",
"def": "isIdChar",
"old": "def isIdChar (c : Char) : Bool := c.isAlphanum || c = '_'",
"new": "def isIdChar (c : Char) : Bool := c.isAlpha || c = '_'",
"claim": "C106 names with digits",
"edit": "`def isIdChar (c : Char) : Bool := c.isAlphanum || c = '_'` -> `def isIdChar (c : Char) : Bool := c.isAlpha || c = '_'`",
"count": 1
},
{
"id": "j006",
"file": "Lexer",
"def": "decVal",
"old": "10 * n + (d.toNat - '0'.toNat)",
"new": "n + 10 * (d.toNat - '0'.toNat)",
"claim": "C106 value of digits",
"edit": "`10 * n + (d.toNat - '0'.toNat)` -> `n + 10 * (d.toNat - '0'.toNat)`",
"count": 1
},
{
"id": "j007",
"file": "Lexer",
"def": "lexExponent",
"old": "  | 'E' :: cs => expDigits cs ('E' :: cs)\n",
"new": "",
"claim": "C106 capital exponent",
"edit": "`  | 'E' :: cs => expDigits cs ('E' :: cs)\n` -> ``",
"count": 1
},
{
"id": "j008",
"file": "Lexer",
"def": "lexExponent",
"old": "then (0, back) else (- (decVal (takeRun Char.isDigit ds).1 : Int)",
"new": "then (0, back) else ((decVal (takeRun Char.isDigit ds).1 : Int)",
"claim": "C106 negative exponents",
"edit": "`then (0, back) else (- (decVal (takeRun Char.isDigit ds).1 : Int)` -> `then (0, back) else ((decVal (takeRun Char.isDigit ds).1 : Int)`",
"count": 1
},
{
"id": "j009",
"file": "Lexer",
"def": "lexMantissa",
"old": "if i.1 = [] \u2227 f.1 = [] then none",
"new": "if i.1 = [] \u2228 f.1 = [] then none",
"claim": "C106 numbers like 1. and .5",
"edit": "`if i.1 = [] \u2227 f.1 = [] then none` -> `if i.1 = [] \u2228 f.1 = [] then none`",
"count": 1
},
{
"id": "j010",
"file": "Lexer",
"def": "lexMantissa",
"old": "/ 10 ^ f.1.length",
"new": "/ 10 ^ i.1.length",
"claim": "C106 decimals",
"edit": "`/ 10 ^ f.1.length` -> `/ 10 ^ i.1.length`",
"count": 1
},
{
"id": "j011",
"file": "Lexer",
"def": "numEnd",
"old": "!(c = '.' || isIdChar c)",
"new": "!(isIdChar c)",
"claim": "C106 1.2.3 is no number",
"edit": "`!(c = '.' || isIdChar c)` -> `!(isIdChar c)`",
"count": 1
},
{
"id": "j012",
"file": "Lexer",
"def": "numEnd",
"old": "!(c = '.' || isIdChar c)",
"new": "!(c = '.')",
"claim": "C106 2x is no number",
"edit": "`!(c = '.' || isIdChar c)` -> `!(c = '.')`",
"count": 1
},
{
"id": "j013",
"file": "Lexer",
"def": "tenPow",
"old": "else 1 / 10 ^ (-k).toNat",
"new": "else 10 ^ (-k).toNat",
"claim": "C106 negative exponents",
"edit": "`else 1 / 10 ^ (-k).toNat` -> `else 10 ^ (-k).toNat`",
"count": 1
},
{
"id": "j014",
"file": "Lexer",
"def": "lexTime",
"old": "| 's' :: 's' :: cs => if (takeRun isIdChar cs).1 = [] then some (.ss, cs) else none",
"new": "| 's' :: 's' :: cs => some (.ss, cs)",
"claim": "equivalent: anything after ss but ] is refused anyway",
"edit": "`| 's' :: 's' :: cs => if (takeRun isIdChar cs).1 = [] then some (.ss, cs) else none` -> `| 's' :: 's' :: cs => some (.ss, cs)`",
"count": 1
},
{
"id": "j015",
"file": "Lexer",
"def": "lexTime",
"old": "else some (.t (- (decVal",
"new": "else some (.t ((decVal",
"claim": "C106 lags",
"edit": "`else some (.t (- (decVal` -> `else some (.t ((decVal`",
"count": 1
},
{
"id": "j016",
"file": "Lexer",
"def": "lexTime",
"old": "then some (.t 0, cs)",
"new": "then some (.t 1, cs)",
"claim": "C106 empty index",
"edit": "`then some (.t 0, cs)` -> `then some (.t 1, cs)`",
"count": 1
},
{
"id": "j017",
"file": "Lexer",
"def": "lexIndex",
"old": "match skipLay false r with\n    | ']'",
"new": "match r with\n    | ']'",
"claim": "C106 space in indices",
"edit": "`match skipLay false r with\n    | ']'` -> `match r with\n    | ']'`",
"count": 1
},
{
"id": "j018",
"file": "Lexer",
"def": "tagOf",
"old": "else if lowerStr n = \"minimize\".toList then some .minimize",
"new": "else if lowerStr n = \"minimize\".toList then some .maximize",
"claim": "C106 tags",
"edit": "`else if lowerStr n = \"minimize\".toList then some .minimize` -> `else if lowerStr n = \"minimize\".toList then some .maximize`",
"count": 1
},
{
"id": "j019",
"file": "Lexer",
"def": "tagOf",
"old": "if lowerStr n = \"exclude\".toList",
"new": "if n = \"exclude\".toList",
"claim": "C106 tags in capitals",
"edit": "`if lowerStr n = \"exclude\".toList` -> `if n = \"exclude\".toList`",
"count": 1
},
{
"id": "j020",
"file": "Lexer",
"def": "lexWord",
"old": "| ['E'], '[' :: ']' :: '[' :: r => (.expectOpen, r)",
"new": "| ['E'], '[' :: ']' :: r => (.expectOpen, r)",
"claim": "C106 variable named E",
"edit": "`| ['E'], '[' :: ']' :: '[' :: r => (.expectOpen, r)` -> `| ['E'], '[' :: ']' :: r => (.expectOpen, r)`",
"count": 1
},
{
"id": "j021",
"file": "Lexer",
"def": "lexWord",
"old": "  | ['E'], '[' :: ']' :: '[' :: r => (.expectOpen, r)\n",
"new": "",
"claim": "C106 expectations",
"edit": "`  | ['E'], '[' :: ']' :: '[' :: r => (.expectOpen, r)\n` -> ``",
"count": 1
},
{
"id": "j022",
"file": "Lexer",
"def": "lexTok",
"old": "  | '*' :: '*' :: r => some (.op .pow, r)\n",
"new": "",
"claim": "C106 power as **",
"edit": "`  | '*' :: '*' :: r => some (.op .pow, r)\n` -> ``",
"count": 1
},
{
"id": "j023",
"file": "Lexer",
"def": "lexTok",
"old": "| '/' :: r => some (.op .div, r)",
"new": "| '/' :: r => some (.op .mul, r)",
"claim": "C106 division",
"edit": "`| '/' :: r => some (.op .div, r)` -> `| '/' :: r => some (.op .mul, r)`",
"count": 1
},
{
"id": "j024",
"file": "Lexer",
"def": "lexTok",
"old": "  | '-' :: '>' :: r => some (.arrow, r)\n",
"new": "",
"claim": "C106 arrows",
"edit": "`  | '-' :: '>' :: r => some (.arrow, r)\n` -> ``",
"count": 1
},
{
"id": "j025",
"file": "Lexer",
"def": "lexTok",
"old": "| ':' :: r => some (.colon, r)",
"new": "| ':' :: r => some (.semi, r)",
"claim": "C106 colons",
"edit": "`| ':' :: r => some (.colon, r)` -> `| ':' :: r => some (.semi, r)`",
"count": 1
},
{
"id": "j026",
"file": "Lexer",
"def": "lexTok",
"old": "    if isIdStart c then (tagOf",
"new": "    if isIdChar c then (tagOf",
"claim": "C106 tag begins with a letter",
"edit": "`    if isIdStart c then (tagOf` -> `    if isIdChar c then (tagOf`",
"count": 1
},
{
"id": "j027",
"file": "Lexer",
"def": "lexLoop",
"old": "| [] => some []\n    | c",
"new": "| [] => none\n    | c",
"claim": "C106 end of text",
"edit": "`| [] => some []\n    | c` -> `| [] => none\n    | c`",
"count": 1
},
{
"id": "j028",
"file": "Lexer",
"def": "lexText",
"old": "lexLoop (cs.length + 1) cs",
"new": "lexLoop cs.length cs",
"claim": "C106 text without spaces",
"edit": "`lexLoop (cs.length + 1) cs` -> `lexLoop cs.length cs`",
"count": 1
},
{
"id": "j029",
"file": "Grammar",
"def": "dists",
"old": "\"Normal\".toList, \"Pareto\"",
"new": "\"Pareto\"",
"claim": "C107 known distributions",
"edit": "`\"Normal\".toList, \"Pareto\"` -> `\"Pareto\"`",
"count": 1
},
{
"id": "j030",
"file": "Grammar",
"def": "wrappers",
"old": "\"Truncated\".toList, ",
"new": "",
"claim": "C107 wrappers",
"edit": "`\"Truncated\".toList, ` -> ``",
"count": 1
},
{
"id": "j031",
"file": "Grammar",
"def": "assumptionNames",
"old": "\"finite\".toList, ",
"new": "",
"claim": "C107 assumption names",
"edit": "`\"finite\".toList, ` -> ``",
"count": 1
},
{
"id": "j032",
"file": "Grammar",
"def": "nop",
"old": "| .mul => some .mul | .div",
"new": "| .mul => none | .div",
"claim": "C107 number expressions",
"edit": "`| .mul => some .mul | .div` -> `| .mul => none | .div`",
"count": 1
},
{
"id": "j033",
"file": "Grammar",
"def": "nop",
"old": "| .pow => none",
"new": "| .pow => some .mul",
"claim": "C107 number expressions have no powers",
"edit": "`| .pow => none` -> `| .pow => some .mul`",
"count": 1
},
{
"id": "j034",
"file": "Grammar",
"def": "pNAtom",
"old": "some (.num (-v), r)",
"new": "some (.num v, r)",
"claim": "C107 negative numbers in priors",
"edit": "`some (.num (-v), r)` -> `some (.num v, r)`",
"count": 1
},
{
"id": "j035",
"file": "Grammar",
"def": "pNAtom",
"old": "  | _ + 1, .op .add :: .num v :: r => some (.num v, r)\n",
"new": "",
"claim": "C107 signed numbers in priors",
"edit": "`  | _ + 1, .op .add :: .num v :: r => some (.num v, r)\n` -> ``",
"count": 1
},
{
"id": "j036",
"file": "Grammar",
"def": "pNAtom",
"old": "| some (c, .rpar :: r) => some (.paren c, r)",
"new": "| some (c, r) => some (.paren c, r)",
"claim": "C107 closing parenthesis",
"edit": "`| some (c, .rpar :: r) => some (.paren c, r)` -> `| some (c, r) => some (.paren c, r)`",
"count": 1
},
{
"id": "j037",
"file": "Grammar",
"def": "pNLoop",
"old": "| some (a, r) => pNLoop f (.snoc c o' a) r",
"new": "| some (a, r) => some (.snoc c o' a, r)",
"claim": "C107 long number expressions",
"edit": "`| some (a, r) => pNLoop f (.snoc c o' a) r` -> `| some (a, r) => some (.snoc c o' a, r)`",
"count": 1
},
{
"id": "j038",
"file": "Grammar",
"def": "pArgVal",
"old": "if n = \"None\".toList then some (.none, r) else some (.str n, r)",
"new": "some (.str n, r)",
"claim": "C107 None",
"edit": "`if n = \"None\".toList then some (.none, r) else some (.str n, r)` -> `some (.str n, r)`",
"count": 1
},
{
"id": "j039",
"file": "Grammar",
"def": "pArg",
"old": "some ((n, v), r)",
"new": "some ((['x'], v), r)",
"claim": "C107 argument names",
"edit": "`some ((n, v), r)` -> `some ((['x'], v), r)`",
"count": 1
},
{
"id": "j040",
"file": "Grammar",
"def": "pListed",
"old": "| some (as, r') => some (a :: as, r')\n      | none => none\n    | some (a, r)",
"new": "| some (as, r') => some (as, r')\n      | none => none\n    | some (a, r)",
"claim": "C107 lists",
"edit": "`| some (as, r') => some (a :: as, r')\n      | none => none\n    | some (a, r)` -> `| some (as, r') => some (as, r')\n      | none => none\n    | some (a, r)`",
"count": 1
},
{
"id": "j041",
"file": "Grammar",
"def": "pUntil",
"old": "| some (as, r') => some (a :: as, r')\n      | none => none\n    | none => none\n\n/-- `pp.Optional(pp",
"new": "| some (as, r') => some (as ++ [a], r')\n      | none => none\n    | none => none\n\n/-- `pp.Optional(pp",
"claim": "C107 order of statements",
"edit": "`| some (as, r') => some (a :: as, r')\n      | none => none\n    | none => none\n\n/-- `pp.Optional(pp` -> `| some (as, r') => some (as ++ [a], r')\n      | none => none\n    | none => none\n\n/-- `pp.Optional(pp`",
"count": 1
},
{
"id": "j042",
"file": "Grammar",
"def": "pOptArgs",
"old": "  | .rpar :: r => some ([], r)\n  | ts =>\n    match pListed",
"new": "  | ts =>\n    match pListed",
"claim": "C107 distributions without arguments",
"edit": "`  | .rpar :: r => some ([], r)\n  | ts =>\n    match pListed` -> `  | ts =>\n    match pListed`",
"count": 1
},
{
"id": "j043",
"file": "Grammar",
"def": "pDistCall",
"old": "if d \u2208 dists then",
"new": "if True then",
"claim": "C107 unknown distributions",
"edit": "`if d \u2208 dists then` -> `if True then`",
"count": 1
},
{
"id": "j044",
"file": "Grammar",
"def": "pDistExpr",
"old": "wrapper := some w, wargs := ws }",
"new": "wrapper := some w, wargs := as }",
"claim": "C107 wrapper arguments",
"edit": "`wrapper := some w, wargs := ws }` -> `wrapper := some w, wargs := as }`",
"count": 1
},
{
"id": "j045",
"file": "Grammar",
"def": "pDistExpr",
"old": "if w \u2208 wrappers then",
"new": "if w \u2208 dists then",
"claim": "C107 wrappers",
"edit": "`if w \u2208 wrappers then` -> `if w \u2208 dists then`",
"count": 1
},
{
"id": "j046",
"file": "Grammar",
"def": "evalVal",
"old": "| .ok (.str s) => some (.str s)",
"new": "| .ok (.str _) => some .none",
"claim": "C107 names as arguments",
"edit": "`| .ok (.str s) => some (.str s)` -> `| .ok (.str _) => some .none`",
"count": 1
},
{
"id": "j047",
"file": "Grammar",
"def": "dictOf",
"old": "dset d a.1 a.2) []",
"new": "if (dget d a.1).isSome then d else dset d a.1 a.2) []",
"claim": "C107 repeated keys: the last counts",
"edit": "`dset d a.1 a.2) []` -> `if (dget d a.1).isSome then d else dset d a.1 a.2) []`",
"count": 1
},
{
"id": "j048",
"file": "Grammar",
"def": "pInitial",
"old": "| .ok (.num q) => some (some q, r)",
"new": "| .ok (.num _) => some (none, r)",
"claim": "C107 initial values",
"edit": "`| .ok (.num q) => some (some q, r)` -> `| .ok (.num _) => some (none, r)`",
"count": 1
},
{
"id": "j049",
"file": "Grammar",
"def": "pPrior",
"old": "wrapper := x.wrapper, wrapperKwargs := ws, initial := i }, r')",
"new": "wrapper := none, wrapperKwargs := ws, initial := i }, r')",
"claim": "C107 wrapper of a prior",
"edit": "`wrapper := x.wrapper, wrapperKwargs := ws, initial := i }, r')` -> `wrapper := none, wrapperKwargs := ws, initial := i }, r')`",
"count": 1
},
{
"id": "j050",
"file": "Grammar",
"def": "pShockInitial",
"old": "| .eq :: .num v :: .semi :: r => some (some v, r)",
"new": "| .eq :: .num _ :: .semi :: r => some (none, r)",
"claim": "C107 initial value of a shock",
"edit": "`| .eq :: .num v :: .semi :: r => some (some v, r)` -> `| .eq :: .num _ :: .semi :: r => some (none, r)`",
"count": 1
},
{
"id": "j051",
"file": "Grammar",
"def": "pShock",
"old": "| .id n :: .tix _ :: .tilde :: ts =>",
"new": "| .id n :: .tix (.t 0) :: .tilde :: ts =>",
"claim": "C107 date of a shock with distribution",
"edit": "`| .id n :: .tix _ :: .tilde :: ts =>` -> `| .id n :: .tix (.t 0) :: .tilde :: ts =>`",
"count": 1
},
{
"id": "j052",
"file": "Grammar",
"def": "pShock",
"old": "some (.vars vs, r)",
"new": "some (.vars (vs.take 1), r)",
"claim": "C107 several shocks on a line",
"edit": "`some (.vars vs, r)` -> `some (.vars (vs.take 1), r)`",
"count": 1
},
{
"id": "j053",
"file": "Grammar",
"def": "shockVars",
"old": "| .dist d => [{ name := d.param }]",
"new": "| .dist _ => []",
"claim": "C107 a shock with distribution is a shock",
"edit": "`| .dist d => [{ name := d.param }]` -> `| .dist _ => []`",
"count": 1
},
{
"id": "j054",
"file": "Grammar",
"def": "shockDists",
"old": "| .dist d => [d]",
"new": "| .dist _ => []",
"claim": "C107 shock distributions",
"edit": "`| .dist d => [d]` -> `| .dist _ => []`",
"count": 1
},
{
"id": "j055",
"file": "Grammar",
"def": "startsDist",
"old": "d.isPrefixOf n",
"new": "d == n",
"claim": "C107 prefix rule",
"edit": "`d.isPrefixOf n` -> `d == n`",
"count": 1
},
{
"id": "j056",
"file": "Grammar",
"def": "pCal",
"old": "    if startsDist n then none\n    else\n",
"new": "    if n = n then\n",
"claim": "C107 missing tilde",
"edit": "`    if startsDist n then none\n    else\n` -> `    if n = n then\n`",
"count": 1
},
{
"id": "j057",
"file": "Grammar",
"def": "pVarBlock",
"old": "  | .lbrace :: .rbrace :: .semi :: r => some ([], r)\n",
"new": "",
"claim": "C107 empty lists",
"edit": "`  | .lbrace :: .rbrace :: .semi :: r => some ([], r)\n` -> ``",
"count": 1
},
{
"id": "j058",
"file": "Grammar",
"def": "pBraced",
"old": "| some (as, .semi :: r) => some (as, r)\n    | _ => none\n  | _ => none\n\n/-- `COMPONENT`",
"new": "| some (as, r) => some (as, r)\n    | _ => none\n  | _ => none\n\n/-- `COMPONENT`",
"claim": "C107 semicolon after the brace",
"edit": "`| some (as, .semi :: r) => some (as, r)\n    | _ => none\n  | _ => none\n\n/-- `COMPONENT`` -> `| some (as, r) => some (as, r)\n    | _ => none\n  | _ => none\n\n/-- `COMPONENT``",
"count": 1
},
{
"id": "j059",
"file": "Grammar",
"def": "pComp",
"old": "if lowerStr k = \"definitions\".toList",
"new": "if k = \"definitions\".toList",
"claim": "C107 caseless keywords",
"edit": "`if lowerStr k = \"definitions\".toList` -> `if k = \"definitions\".toList`",
"count": 1
},
{
"id": "j060",
"file": "Grammar",
"def": "pComp",
"old": "(.constraints p.1, p.2)",
"new": "(.identities p.1, p.2)",
"claim": "C107 components",
"edit": "`(.constraints p.1, p.2)` -> `(.identities p.1, p.2)`",
"count": 1
},
{
"id": "j061",
"file": "Grammar",
"def": "pComp",
"old": "(.shocks (shockVars p.1) (shockDists p.1), p.2)",
"new": "(.shocks (shockVars p.1) [], p.2)",
"claim": "C107 shock distributions",
"edit": "`(.shocks (shockVars p.1) (shockDists p.1), p.2)` -> `(.shocks (shockVars p.1) [], p.2)`",
"count": 1
},
{
"id": "j062",
"file": "Grammar",
"def": "addComp",
"old": "| .identities es => { b with identities := es }",
"new": "| .identities es => { b with identities := b.identities ++ es }",
"claim": "C107 the last component counts",
"edit": "`| .identities es => { b with identities := es }` -> `| .identities es => { b with identities := b.identities ++ es }`",
"count": 1
},
{
"id": "j063",
"file": "Grammar",
"def": "addComp",
"old": "| .controls vs => { b with controls := vs }",
"new": "| .controls vs => { b with controls := vs, objective := [] }",
"claim": "C107 components are independent",
"edit": "`| .controls vs => { b with controls := vs }` -> `| .controls vs => { b with controls := vs, objective := [] }`",
"count": 1
},
{
"id": "j064",
"file": "Grammar",
"def": "pBlock",
"old": "if lowerStr k = \"block\".toList",
"new": "if k = \"block\".toList",
"claim": "C107 caseless block",
"edit": "`if lowerStr k = \"block\".toList` -> `if k = \"block\".toList`",
"count": 1
},
{
"id": "j065",
"file": "Grammar",
"def": "joinWords",
"old": "w ++ ' ' :: joinWords ws",
"new": "w ++ joinWords ws",
"claim": "C107 option keys",
"edit": "`w ++ ' ' :: joinWords ws` -> `w ++ joinWords ws`",
"count": 1
},
{
"id": "j066",
"file": "Grammar",
"def": "optVal",
"old": "if lowerStr w = \"true\".toList then .bool true",
"new": "if w = \"true\".toList then .bool true",
"claim": "C107 TRUE",
"edit": "`if lowerStr w = \"true\".toList then .bool true` -> `if w = \"true\".toList then .bool true`",
"count": 1
},
{
"id": "j067",
"file": "Grammar",
"def": "pAsmItem",
"old": "  | .id n :: .tix _ :: r => some (n, r)\n",
"new": "",
"claim": "C107 dated names",
"edit": "`  | .id n :: .tix _ :: r => some (n, r)\n` -> ``",
"count": 1
},
{
"id": "j068",
"file": "Grammar",
"def": "pAsmSub",
"old": "if lowerStr n \u2208 assumptionNames",
"new": "if n \u2208 assumptionNames",
"claim": "C107 caseless assumptions",
"edit": "`if lowerStr n \u2208 assumptionNames` -> `if n \u2208 assumptionNames`",
"count": 1
},
{
"id": "j069",
"file": "Grammar",
"def": "isSpecial",
"old": " || lowerStr k = \"assumptions\".toList",
"new": "",
"claim": "C107 assumptions block",
"edit": "` || lowerStr k = \"assumptions\".toList` -> ``",
"count": 1
},
{
"id": "j070",
"file": "Grammar",
"def": "pSpecial",
"old": "(.options (dictOf p.1), p.2)",
"new": "(.options p.1, p.2)",
"claim": "C107 repeated options",
"edit": "`(.options (dictOf p.1), p.2)` -> `(.options p.1, p.2)`",
"count": 1
},
{
"id": "j071",
"file": "Grammar",
"def": "pSpecials",
"old": "| some (ss, r') => some (s :: ss, r')",
"new": "| some (ss, r') => some (ss ++ [s], r')",
"claim": "C107 the last special block counts",
"edit": "`| some (ss, r') => some (s :: ss, r')` -> `| some (ss, r') => some (ss ++ [s], r')`",
"count": 1
},
{
"id": "j072",
"file": "Grammar",
"def": "pBlocks",
"old": "| some bs => some (b :: bs)",
"new": "| some bs => some bs",
"claim": "C107 several blocks",
"edit": "`| some bs => some (b :: bs)` -> `| some bs => some bs`",
"count": 1
},
{
"id": "j073",
"file": "Grammar",
"def": "pBlocks",
"old": "| some (b, []) => some [b]",
"new": "| some (b, _) => some [b]",
"claim": "C107 text after the last block",
"edit": "`| some (b, []) => some [b]` -> `| some (b, _) => some [b]`",
"count": 1
},
{
"id": "j074",
"file": "Grammar",
"def": "addSpecial",
"old": "| .tryreduce l => { m with tryreduce := l }",
"new": "| .tryreduce l => { m with tryreduce := m.tryreduce ++ l }",
"claim": "C107 the last special block counts",
"edit": "`| .tryreduce l => { m with tryreduce := l }` -> `| .tryreduce l => { m with tryreduce := m.tryreduce ++ l }`",
"count": 1
},
{
"id": "j075",
"file": "Grammar",
"def": "addSpecial",
"old": "| .options l => { m with options := l }",
"new": "| .options l => { m with options := l, assumptions := [] }",
"claim": "C107 special blocks are independent",
"edit": "`| .options l => { m with options := l }` -> `| .options l => { m with options := l, assumptions := [] }`",
"count": 1
},
{
"id": "j076",
"file": "PrintText",
"def": "intText",
"old": "if n < 0 then '-' :: natStr n.natAbs",
"new": "if n < 0 then natStr n.natAbs",
"claim": "C108 lags",
"edit": "`if n < 0 then '-' :: natStr n.natAbs` -> `if n < 0 then natStr n.natAbs`",
"count": 1
},
{
"id": "j077",
"file": "PrintText",
"def": "indexText",
"old": "| .ss => \"[ss]\".toList",
"new": "| .ss => \"[SS]\".toList",
"claim": "C108 steady states",
"edit": "`| .ss => \"[ss]\".toList` -> `| .ss => \"[SS]\".toList`",
"count": 1
},
{
"id": "j078",
"file": "PrintText",
"def": "indexText",
"old": "if k = 0 then \"[]\".toList",
"new": "if k \u2264 0 then \"[]\".toList",
"claim": "C108 lags",
"edit": "`if k = 0 then \"[]\".toList` -> `if k \u2264 0 then \"[]\".toList`",
"count": 1
},
{
"id": "j079",
"file": "PrintText",
"def": "opText",
"old": "| .sub => '-'",
"new": "| .sub => '+'",
"claim": "C108 minus",
"edit": "`| .sub => '-'` -> `| .sub => '+'`",
"count": 1
},
{
"id": "j080",
"file": "PrintText",
"def": "exprText",
"old": "| .var n t => n ++ indexText t",
"new": "| .var n _ => n",
"claim": "C108 dates",
"edit": "`| .var n t => n ++ indexText t` -> `| .var n _ => n`",
"count": 1
},
{
"id": "j081",
"file": "PrintText",
"def": "exprText",
"old": "| .neg e => '-' :: exprText num negPrec e",
"new": "| .neg e => '-' :: exprText num 0 e",
"claim": "C108 minus before sums",
"edit": "`| .neg e => '-' :: exprText num negPrec e` -> `| .neg e => '-' :: exprText num 0 e`",
"count": 1
},
{
"id": "j082",
"file": "PrintText",
"def": "exprText",
"old": "exprText num (prec o) l ++ ' ' :: opText o :: ' ' :: exprText num (rightPrec o) r",
"new": "exprText num (prec o) l ++ opText o :: exprText num (rightPrec o) r",
"claim": "equivalent-looking: no spaces; harmless except * before * never happens",
"edit": "`exprText num (prec o) l ++ ' ' :: opText o :: ' ' :: exprText num (rightPrec o) r` -> `exprText num (prec o) l ++ opText o :: exprText num (rightPrec o) r`",
"count": 1
},
{
"id": "j083",
"file": "PrintText",
"def": "exprText",
"old": "' ' :: exprText num (rightPrec o) r",
"new": "' ' :: exprText num (prec o) r",
"claim": "C108 grouping",
"edit": "`' ' :: exprText num (rightPrec o) r` -> `' ' :: exprText num (prec o) r`",
"count": 1
},
{
"id": "j084",
"file": "PrintText",
"def": "exprText",
"old": "if prec o < p then '(' :: (body ++ [')']) else body",
"new": "body",
"claim": "C108 parentheses",
"edit": "`if prec o < p then '(' :: (body ++ [')']) else body` -> `body`",
"count": 1
},
{
"id": "j085",
"file": "PrintText",
"def": "exprText",
"old": "if v.den = 1 then intText v.num else num v",
"new": "intText v.num",
"claim": "C108 fractions",
"edit": "`if v.den = 1 then intText v.num else num v` -> `intText v.num`",
"count": 1
},
{
"id": "j086",
"file": "PrintText",
"def": "exprText",
"old": "'E' :: '[' :: ']' :: '[' :: (exprText num 0 e ++ [']'])",
"new": "'E' :: '[' :: ']' :: '[' :: exprText num 0 e",
"claim": "C108 expectation bracket",
"edit": "`'E' :: '[' :: ']' :: '[' :: (exprText num 0 e ++ [']'])` -> `'E' :: '[' :: ']' :: '[' :: exprText num 0 e`",
"count": 1
},
{
"id": "j087",
"file": "PrintText",
"def": "argsText",
"old": "exprText num 0 a ++ ',' :: ' ' :: argsText num as",
"new": "exprText num 0 a ++ ' ' :: argsText num as",
"claim": "C108 arguments",
"edit": "`exprText num 0 a ++ ',' :: ' ' :: argsText num as` -> `exprText num 0 a ++ ' ' :: argsText num as`",
"count": 1
},
{
"id": "j088",
"file": "PrintText",
"def": "eqnText",
"old": "| some n => \" -> \".toList ++ n | none",
"new": "| some n => \" = \".toList ++ n | none",
"claim": "C108 calibrated parameter",
"edit": "`| some n => \" -> \".toList ++ n | none` -> `| some n => \" = \".toList ++ n | none`",
"count": 1
},
{
"id": "j089",
"file": "PrintText",
"def": "eqnText",
"old": "| some n => \" : \".toList ++ n ++ \"[]\".toList | none",
"new": "| some n => \" : \".toList ++ n | none",
"claim": "C108 multipliers need a date",
"edit": "`| some n => \" : \".toList ++ n ++ \"[]\".toList | none` -> `| some n => \" : \".toList ++ n | none`",
"count": 1
},
{
"id": "j090",
"file": "PrintText",
"def": "valText",
"old": "| .none => \"None\".toList",
"new": "| .none => \"null\".toList",
"claim": "C108 None",
"edit": "`| .none => \"None\".toList` -> `| .none => \"null\".toList`",
"count": 1
},
{
"id": "j091",
"file": "PrintText",
"def": "kwText",
"old": "p.1 ++ '=' :: valText num p.2",
"new": "p.1 ++ ':' :: valText num p.2",
"claim": "C108 arguments of priors",
"edit": "`p.1 ++ '=' :: valText num p.2` -> `p.1 ++ ':' :: valText num p.2`",
"count": 1
},
{
"id": "j092",
"file": "PrintText",
"def": "kwText",
"old": "joinText \", \".toList (l.map fun p => p.1",
"new": "joinText \"; \".toList (l.map fun p => p.1",
"claim": "C108 arguments of priors",
"edit": "`joinText \", \".toList (l.map fun p => p.1` -> `joinText \"; \".toList (l.map fun p => p.1`",
"count": 1
},
{
"id": "j093",
"file": "PrintText",
"def": "distText",
"old": "if kwText num d.wrapperKwargs = [] then c :: w ++ '(' :: (inner ++ [')'])\n      else ",
"new": "",
"claim": "C108 wrapper without arguments",
"edit": "`if kwText num d.wrapperKwargs = [] then c :: w ++ '(' :: (inner ++ [')'])\n      else ` -> ``",
"count": 1
},
{
"id": "j094",
"file": "PrintText",
"def": "distText",
"old": "inner ++ \", \".toList ++ kwText",
"new": "inner ++ kwText",
"claim": "C108 wrapper arguments",
"edit": "`inner ++ \", \".toList ++ kwText` -> `inner ++ kwText`",
"count": 1
},
{
"id": "j095",
"file": "PrintText",
"def": "distText",
"old": "d.param ++ \" ~ \".toList",
"new": "d.param ++ \" = \".toList",
"claim": "C108 priors",
"edit": "`d.param ++ \" ~ \".toList` -> `d.param ++ \" = \".toList`",
"count": 1
},
{
"id": "j096",
"file": "PrintText",
"def": "distText",
"old": "| some v => \" = \".toList ++ num v | none => []",
"new": "| some _ => [] | none => []",
"claim": "C108 initial values",
"edit": "`| some v => \" = \".toList ++ num v | none => []` -> `| some _ => [] | none => []`",
"count": 1
},
{
"id": "j097",
"file": "PrintText",
"def": "compLines",
"old": "ind ++ ind ++ l ++ [';']",
"new": "ind ++ ind ++ l",
"claim": "C108 semicolons",
"edit": "`ind ++ ind ++ l ++ [';']` -> `ind ++ ind ++ l`",
"count": 1
},
{
"id": "j098",
"file": "PrintText",
"def": "compLines",
"old": "[ind ++ ['}', ';'], []]",
"new": "[ind ++ ['}'], []]",
"claim": "C108 closing of components",
"edit": "`[ind ++ ['}', ';'], []]` -> `[ind ++ ['}'], []]`",
"count": 1
},
{
"id": "j099",
"file": "PrintText",
"def": "eqnComp",
"old": "if es.isEmpty then [] else compLines",
"new": "compLines",
"claim": "equivalent: empty components parse as empty",
"edit": "`if es.isEmpty then [] else compLines` -> `compLines`",
"count": 1
},
{
"id": "j100",
"file": "PrintText",
"def": "varComp",
"old": "joinText \", \".toList (vs.map varText)",
"new": "joinText \" \".toList (vs.map varText)",
"claim": "C108 lists of variables",
"edit": "`joinText \", \".toList (vs.map varText)` -> `joinText \" \".toList (vs.map varText)`",
"count": 1
},
{
"id": "j101",
"file": "PrintText",
"def": "blockText",
"old": "eqnComp num ind \"constraints\" b.constraints",
"new": "eqnComp num ind \"constraints\" b.identities",
"claim": "C108 constraints",
"edit": "`eqnComp num ind \"constraints\" b.constraints` -> `eqnComp num ind \"constraints\" b.identities`",
"count": 1
},
{
"id": "j102",
"file": "PrintText",
"def": "blockText",
"old": "    ++ varComp ind \"shocks\" b.shocks\n",
"new": "",
"claim": "C108 shocks",
"edit": "`    ++ varComp ind \"shocks\" b.shocks\n` -> ``",
"count": 1
},
{
"id": "j103",
"file": "PrintText",
"def": "blockText",
"old": "\"block \".toList",
"new": "\"block\".toList",
"claim": "C108 block name",
"edit": "`\"block \".toList` -> `\"block\".toList`",
"count": 1
},
{
"id": "j104",
"file": "PrintText",
"def": "blockText",
"old": "\"objective\" b.objective",
"new": "\"objectives\" b.objective",
"claim": "C108 component keywords",
"edit": "`\"objective\" b.objective` -> `\"objectives\" b.objective`",
"count": 1
},
{
"id": "j105",
"file": "PrintText",
"def": "calText",
"old": "| .prior d => distText num d",
"new": "| .prior d => d.param",
"claim": "C108 priors",
"edit": "`| .prior d => distText num d` -> `| .prior d => d.param`",
"count": 1
},
{
"id": "j106",
"file": "PrintText",
"def": "optText",
"old": "| .bool true => \"TRUE\".toList",
"new": "| .bool true => \"1\".toList",
"claim": "C108 options",
"edit": "`| .bool true => \"TRUE\".toList` -> `| .bool true => \"1\".toList`",
"count": 1
},
{
"id": "j107",
"file": "PrintText",
"def": "optText",
"old": "| .bool false => \"FALSE\".toList",
"new": "| .bool false => \"TRUE\".toList",
"claim": "C108 options",
"edit": "`| .bool false => \"FALSE\".toList` -> `| .bool false => \"TRUE\".toList`",
"count": 1
},
{
"id": "j108",
"file": "PrintText",
"def": "optionsText",
"old": "optText p.2 ++ [';']",
"new": "optText p.2",
"claim": "C108 options end",
"edit": "`optText p.2 ++ [';']` -> `optText p.2`",
"count": 1
},
{
"id": "j109",
"file": "PrintText",
"def": "tryreduceText",
"old": "joinText \", \".toList l ++ [';']",
"new": "joinText \", \".toList (l.map fun n => n ++ ['[', ']']) ++ [';']",
"claim": "C108 tryreduce is printed without dates",
"edit": "`joinText \", \".toList l ++ [';']` -> `joinText \", \".toList (l.map fun n => n ++ ['[', ']']) ++ [';']`",
"count": 1
},
{
"id": "j110",
"file": "PrintText",
"def": "asmGroups",
"old": "if kv.2 then dset",
"new": "if true then dset",
"claim": "equivalent: on models that were parsed all assumptions are true",
"edit": "`if kv.2 then dset` -> `if true then dset`",
"count": 1
},
{
"id": "j111",
"file": "PrintText",
"def": "asmGroups",
"old": "(dget g kv.1).getD [] ++ [va.1]",
"new": "[va.1]",
"claim": "C108 assumptions of several variables",
"edit": "`(dget g kv.1).getD [] ++ [va.1]` -> `[va.1]`",
"count": 1
},
{
"id": "j112",
"file": "PrintText",
"def": "assumptionsText",
"old": "joinText \", \".toList (sortBy strLe p.2)",
"new": "joinText \", \".toList ((sortBy strLe p.2).drop 1)",
"claim": "C108 assumptions",
"edit": "`joinText \", \".toList (sortBy strLe p.2)` -> `joinText \", \".toList ((sortBy strLe p.2).drop 1)`",
"count": 1
},
{
"id": "j113",
"file": "PrintText",
"def": "modelText",
"old": "joinText ['\\n', '\\n'] (",
"new": "joinText [] (",
"claim": "equivalent: sections end with }; so need no separator",
"edit": "`joinText ['\\n', '\\n'] (` -> `joinText [] (`",
"count": 1
},
{
"id": "j114",
"file": "PrintText",
"def": "modelText",
"old": "    ++ m.blocks.map (blockText num ind))",
"new": "    ++ (m.blocks.take 1).map (blockText num ind))",
"claim": "C108 all blocks",
"edit": "`    ++ m.blocks.map (blockText num ind))` -> `    ++ (m.blocks.take 1).map (blockText num ind))`",
"count": 1
},
{
"id": "j115",
"file": "PrintText",
"def": "modelText",
"old": "(if m.options.isEmpty then [] else [optionsText ind m.options])",
"new": "[]",
"claim": "C108 options",
"edit": "`(if m.options.isEmpty then [] else [optionsText ind m.options])` -> `[]`",
"count": 1
}
]