[
{
"id": "i000",
"file": "Dynare",
"def": "ssSuffix",
"old": "def ssSuffix : Str := \"_ss\"",
"new": "def ssSuffix : Str := \"_SS\"",
"claim": "C101 steady state names",
"edit": "`def ssSuffix : Str := \"_ss\"` -> `def ssSuffix : Str := \"_SS\"`",
"count": 1
},
{
"id": "i001",
"file": "Dynare",
"def": "tsymToks",
"old": "else if k > 0 then [.name s.base, .lpar, .op .add, .num k, .rpar]",
"new": "else if k > 0 then [.name s.base, .lpar, .op .sub, .num k, .rpar]",
"claim": "C101 leads",
"edit": "`else if k > 0 then [.name s.base, .lpar, .op .add, .num k, .rpar]` -> `else if k > 0 then [.name s.base, .lpar, .op .sub, .num k, .rpar]`",
"count": 1
},
{
"id": "i002",
"file": "Dynare",
"def": "tsymToks",
"old": "else [.name s.base, .lpar, .op .sub, .num (-k), .rpar]",
"new": "else [.name s.base, .lpar, .op .sub, .num k, .rpar]",
"claim": "C101 lags",
"edit": "`else [.name s.base, .lpar, .op .sub, .num (-k), .rpar]` -> `else [.name s.base, .lpar, .op .sub, .num k, .rpar]`",
"count": 1
},
{
"id": "i003",
"file": "Dynare",
"def": "tsymToks",
"old": "if k = 0 then [.name s.base]",
"new": "if k \u2264 0 then [.name s.base]",
"claim": "C101 lags",
"edit": "`if k = 0 then [.name s.base]` -> `if k \u2264 0 then [.name s.base]`",
"count": 1
},
{
"id": "i004",
"file": "Dynare",
"def": "tsymToks",
"old": "| .ss => [.name (s.base ++ ssSuffix)]",
"new": "| .ss => [.name s.base]",
"claim": "C101 steady state names",
"edit": "`| .ss => [.name (s.base ++ ssSuffix)]` -> `| .ss => [.name s.base]`",
"count": 1
},
{
"id": "i005",
"file": "Dynare",
"def": "pMulLvl",
"old": "def pMulLvl : Nat := 50",
"new": "def pMulLvl : Nat := 40",
"claim": "C101 precedence of products",
"edit": "`def pMulLvl : Nat := 50` -> `def pMulLvl : Nat := 40`",
"count": 1
},
{
"id": "i006",
"file": "Dynare",
"def": "pPowLvl",
"old": "def pPowLvl : Nat := 60",
"new": "def pPowLvl : Nat := 50",
"claim": "C101 precedence of powers",
"edit": "`def pPowLvl : Nat := 60` -> `def pPowLvl : Nat := 50`",
"count": 1
},
{
"id": "i007",
"file": "Dynare",
"def": "pFuncLvl",
"old": "def pFuncLvl : Nat := 70",
"new": "def pFuncLvl : Nat := 30",
"claim": "equivalent: parentheses around function calls",
"edit": "`def pFuncLvl : Nat := 70` -> `def pFuncLvl : Nat := 30`",
"count": 1
},
{
"id": "i008",
"file": "Dynare",
"def": "pAtomLvl",
"old": "def pAtomLvl : Nat := 1000",
"new": "def pAtomLvl : Nat := 60",
"claim": "equivalent: superfluous parentheses around atoms",
"edit": "`def pAtomLvl : Nat := 1000` -> `def pAtomLvl : Nat := 60`",
"count": 1
},
{
"id": "i009",
"file": "Dynare",
"def": "precOf",
"old": "| .num v => if v < 0 then pAddLvl else if v.den = 1",
"new": "| .num v => if v.den = 1",
"claim": "C101 negative base or exponent",
"edit": "`| .num v => if v < 0 then pAddLvl else if v.den = 1` -> `| .num v => if v.den = 1`",
"count": 1
},
{
"id": "i010",
"file": "Dynare",
"def": "precOf",
"old": "if v.den = 1 then pAtomLvl else pMulLvl",
"new": "pAtomLvl",
"claim": "C101 fractional base or exponent",
"edit": "`if v.den = 1 then pAtomLvl else pMulLvl` -> `pAtomLvl`",
"count": 1
},
{
"id": "i011",
"file": "Dynare",
"def": "precOf",
"old": "| .flt v => if v < 0 then pAddLvl else pAtomLvl",
"new": "| .flt _ => pAtomLvl",
"claim": "C101 negative float base",
"edit": "`| .flt v => if v < 0 then pAddLvl else pAtomLvl` -> `| .flt _ => pAtomLvl`",
"count": 1
},
{
"id": "i012",
"file": "Dynare",
"def": "precOf",
"old": "| .add _ => pAddLvl",
"new": "| .add _ => pMulLvl",
"claim": "C101 sum as factor of negative product",
"edit": "`| .add _ => pAddLvl` -> `| .add _ => pMulLvl`",
"count": 1
},
{
"id": "i013",
"file": "Dynare",
"def": "precOf",
"old": "| .add _ => pAddLvl",
"new": "| .add _ => pAtomLvl",
"claim": "C101 sum as base",
"edit": "`| .add _ => pAddLvl` -> `| .add _ => pAtomLvl`",
"count": 1
},
{
"id": "i014",
"file": "Dynare",
"def": "precOf",
"old": "| .mul fs => if negCoeff fs then pAddLvl else pMulLvl",
"new": "| .mul _ => pMulLvl",
"claim": "C101 negative product inside a negative product",
"edit": "`| .mul fs => if negCoeff fs then pAddLvl else pMulLvl` -> `| .mul _ => pMulLvl`",
"count": 1
},
{
"id": "i015",
"file": "Dynare",
"def": "precOf",
"old": "| .mul fs => if negCoeff fs then pAddLvl else pMulLvl",
"new": "| .mul _ => pAtomLvl",
"claim": "C101 product as base",
"edit": "`| .mul fs => if negCoeff fs then pAddLvl else pMulLvl` -> `| .mul _ => pAtomLvl`",
"count": 1
},
{
"id": "i016",
"file": "Dynare",
"def": "precOf",
"old": "| .pow _ _ => pPowLvl",
"new": "| .pow _ _ => pFuncLvl",
"claim": "C101 power of power",
"edit": "`| .pow _ _ => pPowLvl` -> `| .pow _ _ => pFuncLvl`",
"count": 1
},
{
"id": "i017",
"file": "Dynare",
"def": "negCoeff",
"old": "| .flt c :: _ => c < 0\n  | _ => false",
"new": "| _ => false",
"claim": "C101 negative float coefficient",
"edit": "`| .flt c :: _ => c < 0\n  | _ => false` -> `| _ => false`",
"count": 1
},
{
"id": "i018",
"file": "Dynare",
"def": "paren",
"old": "if p \u2264 level then inPar",
"new": "if p < level then inPar",
"claim": "C101 parentheses at the same level",
"edit": "`if p \u2264 level then inPar` -> `if p < level then inPar`",
"count": 1
},
{
"id": "i019",
"file": "Dynare",
"def": "numToks",
"old": "if v < 0 then .op .sub :: body else body",
"new": "body",
"claim": "C101 sign of numbers",
"edit": "`if v < 0 then .op .sub :: body else body` -> `body`",
"count": 1
},
{
"id": "i020",
"file": "Dynare",
"def": "numToks",
"old": "else [.num v.num.natAbs, .op .div, .num v.den]",
"new": "else [.num v.den, .op .div, .num v.num.natAbs]",
"claim": "C101 fractions",
"edit": "`else [.num v.num.natAbs, .op .div, .num v.den]` -> `else [.num v.den, .op .div, .num v.num.natAbs]`",
"count": 1
},
{
"id": "i021",
"file": "Dynare",
"def": "fltToks",
"old": "if v < 0 then [.op .sub, .num (-v)] else [.num v]",
"new": "if v \u2264 0 then [.op .sub, .num v] else [.num v]",
"claim": "C101 sign of floats",
"edit": "`if v < 0 then [.op .sub, .num (-v)] else [.num v]` -> `if v \u2264 0 then [.op .sub, .num v] else [.num v]`",
"count": 1
},
{
"id": "i022",
"file": "Dynare",
"def": "multjoin",
"old": "| a :: as => a ++ .op .mul :: multjoin as",
"new": "| a :: as => a ++ multjoin as",
"claim": "C101 product sign",
"edit": "`| a :: as => a ++ .op .mul :: multjoin as` -> `| a :: as => a ++ multjoin as`",
"count": 1
},
{
"id": "i023",
"file": "Dynare",
"def": "quotient",
"old": "| b => top ++ .op .div :: inPar (multjoin b)",
"new": "| b => top ++ .op .div :: multjoin b",
"claim": "C101 several denominators",
"edit": "`| b => top ++ .op .div :: inPar (multjoin b)` -> `| b => top ++ .op .div :: multjoin b`",
"count": 1
},
{
"id": "i024",
"file": "Dynare",
"def": "quotient",
"old": "(if a = [] then [[.num 1]] else a)",
"new": "a",
"claim": "C101 empty numerator",
"edit": "`(if a = [] then [[.num 1]] else a)` -> `a`",
"count": 1
},
{
"id": "i025",
"file": "Dynare",
"def": "powToks",
"old": "if lit = some (1/2) then .fn \"sqrt\".toList :: inPar bt",
"new": "if lit = some (1/3) then .fn \"sqrt\".toList :: inPar bt",
"claim": "C101 square roots",
"edit": "`if lit = some (1/2) then .fn \"sqrt\".toList :: inPar bt` -> `if lit = some (1/3) then .fn \"sqrt\".toList :: inPar bt`",
"count": 1
},
{
"id": "i026",
"file": "Dynare",
"def": "powToks",
"old": "else if lit = some (-1/2) then .num 1 :: .op .div :: .fn",
"new": "else if lit = some (-1/2) then .fn",
"claim": "C101 reciprocal square roots",
"edit": "`else if lit = some (-1/2) then .num 1 :: .op .div :: .fn` -> `else if lit = some (-1/2) then .fn`",
"count": 1
},
{
"id": "i027",
"file": "Dynare",
"def": "powToks",
"old": "else if lit = some (-1) then .num 1 :: .op .div :: paren pPowLvl pb bt",
"new": "else if lit = some (-1) then .num 1 :: .op .div :: bt",
"claim": "C101 reciprocal of sums",
"edit": "`else if lit = some (-1) then .num 1 :: .op .div :: paren pPowLvl pb bt` -> `else if lit = some (-1) then .num 1 :: .op .div :: bt`",
"count": 1
},
{
"id": "i028",
"file": "Dynare",
"def": "powToks",
"old": "else paren pPowLvl pb bt ++ .op .pow :: paren pPowLvl pe et",
"new": "else bt ++ .op .pow :: paren pPowLvl pe et",
"claim": "C101 base of power",
"edit": "`else paren pPowLvl pb bt ++ .op .pow :: paren pPowLvl pe et` -> `else bt ++ .op .pow :: paren pPowLvl pe et`",
"count": 1
},
{
"id": "i029",
"file": "Dynare",
"def": "powToks",
"old": "else paren pPowLvl pb bt ++ .op .pow :: paren pPowLvl pe et",
"new": "else paren pPowLvl pb bt ++ .op .pow :: et",
"claim": "C101 exponent",
"edit": "`else paren pPowLvl pb bt ++ .op .pow :: paren pPowLvl pe et` -> `else paren pPowLvl pb bt ++ .op .pow :: et`",
"count": 1
},
{
"id": "i030",
"file": "Dynare",
"def": "powToks",
"old": "else paren pPowLvl pb bt ++ .op .pow :: paren pPowLvl pe et",
"new": "else paren pMulLvl pb bt ++ .op .pow :: paren pPowLvl pe et",
"claim": "C101 power of power",
"edit": "`else paren pPowLvl pb bt ++ .op .pow :: paren pPowLvl pe et` -> `else paren pMulLvl pb bt ++ .op .pow :: paren pPowLvl pe et`",
"count": 1
},
{
"id": "i031",
"file": "Dynare",
"def": "addTerms",
"old": "(if first then inPar t else .op .add :: inPar t)",
"new": "(if first then t else .op .add :: t)",
"claim": "equivalent: nested sum without parentheses, unless it starts with minus",
"edit": "`(if first then inPar t else .op .add :: inPar t)` -> `(if first then t else .op .add :: t)`",
"count": 1
},
{
"id": "i032",
"file": "Dynare",
"def": "addTerms",
"old": "| .op .sub :: t' => .op .sub :: t'",
"new": "| .op .sub :: t' => .op .add :: t'",
"claim": "C101 sign of terms",
"edit": "`| .op .sub :: t' => .op .sub :: t'` -> `| .op .sub :: t' => .op .add :: t'`",
"count": 1
},
{
"id": "i033",
"file": "Dynare",
"def": "addTerms",
"old": "| t => if first then t else .op .add :: t) ++",
"new": "| t => if first then t else .op .sub :: t) ++",
"claim": "C101 sign of terms",
"edit": "`| t => if first then t else .op .add :: t) ++` -> `| t => if first then t else .op .sub :: t) ++`",
"count": 1
},
{
"id": "i034",
"file": "Dynare",
"def": "addTerms",
"old": "++ addTerms false ts",
"new": "++ addTerms true ts",
"claim": "C101 plus signs",
"edit": "`++ addTerms false ts` -> `++ addTerms true ts`",
"count": 1
},
{
"id": "i035",
"file": "Dynare",
"def": "numFactor",
"old": "(if v.num = 1 then []",
"new": "(if v.num = 2 then []",
"claim": "C101 numerators",
"edit": "`(if v.num = 1 then []` -> `(if v.num = 2 then []`",
"count": 1
},
{
"id": "i036",
"file": "Dynare",
"def": "numFactor",
"old": "if v.den = 1 then [] else [[.num v.den]])",
"new": "[])",
"claim": "C101 denominators",
"edit": "`if v.den = 1 then [] else [[.num v.den]])` -> `[])`",
"count": 1
},
{
"id": "i037",
"file": "Dynare",
"def": "mulToks",
"old": "      .op .sub :: quotient (k.1 ++ r.1) (k.2 ++ r.2)",
"new": "      quotient (k.1 ++ r.1) (k.2 ++ r.2)",
"claim": "C101 sign of products",
"edit": "`      .op .sub :: quotient (k.1 ++ r.1) (k.2 ++ r.2)` -> `      quotient (k.1 ++ r.1) (k.2 ++ r.2)`",
"count": 1
},
{
"id": "i038",
"file": "Dynare",
"def": "mulToks",
"old": "let k := if c = -1 then ([], []) else numFactor pAddLvl (-c)",
"new": "let k := if c = -1 then ([], []) else numFactor pAddLvl c",
"claim": "C101 coefficient printed twice negative",
"edit": "`let k := if c = -1 then ([], []) else numFactor pAddLvl (-c)` -> `let k := if c = -1 then ([], []) else numFactor pAddLvl c`",
"count": 1
},
{
"id": "i039",
"file": "Dynare",
"def": "mulToks",
"old": "let k := if c = -1 then ([], []) else numFactor pAddLvl (-c)",
"new": "let k := (([], []) : List (List DTok) \u00d7 List (List DTok))",
"claim": "C101 coefficients",
"edit": "`let k := if c = -1 then ([], []) else numFactor pAddLvl (-c)` -> `let k := (([], []) : List (List DTok) \u00d7 List (List DTok))`",
"count": 1
},
{
"id": "i040",
"file": "Dynare",
"def": "mulToks",
"old": "      let r := factors pAddLvl fs\n      .op .sub :: quotient ([.num (-c)] :: r.1) r.2",
"new": "      let r := factors pAddLvl fs\n      .op .sub :: quotient r.1 r.2",
"claim": "C101 float coefficient",
"edit": "`      let r := factors pAddLvl fs\n      .op .sub :: quotient ([.num (-c)] :: r.1) r.2` -> `      let r := factors pAddLvl fs\n      .op .sub :: quotient r.1 r.2`",
"count": 1
},
{
"id": "i041",
"file": "Dynare",
"def": "mulToks",
"old": "let k := factor pMulLvl f",
"new": "let k := factor pAddLvl f",
"claim": "equivalent: products in products print the same without parentheses (as a first factor)",
"edit": "`let k := factor pMulLvl f` -> `let k := factor pAddLvl f`",
"count": 1
},
{
"id": "i042",
"file": "Dynare",
"def": "factor",
"old": "      if r = -1 then\n        let t",
"new": "      if r = -2 then\n        let t",
"claim": "C101 reciprocal factors",
"edit": "`      if r = -1 then\n        let t` -> `      if r = -2 then\n        let t`",
"count": 1
},
{
"id": "i043",
"file": "Dynare",
"def": "factor",
"old": "([], [if isLongMul b then inPar t else t])",
"new": "([], [t])",
"claim": "C101 denominators that are products",
"edit": "`([], [if isLongMul b then inPar t else t])` -> `([], [t])`",
"count": 1
},
{
"id": "i044",
"file": "Dynare",
"def": "factor",
"old": "(some (-r)) (precOf (.num (-r))) (numToks (-r))])",
"new": "(some r) (precOf (.num r)) (numToks r)])",
"claim": "C101 negative exponents in the denominator",
"edit": "`(some (-r)) (precOf (.num (-r))) (numToks (-r))])` -> `(some r) (precOf (.num r)) (numToks r)])`",
"count": 1
},
{
"id": "i045",
"file": "Dynare",
"def": "factor",
"old": "else ([], [powToks (precOf b) (toks b) (some (-r))",
"new": "else ([powToks (precOf b) (toks b) (some (-r))",
"claim": "C101 denominators",
"edit": "`else ([], [powToks (precOf b) (toks b) (some (-r))` -> `else ([powToks (precOf b) (toks b) (some (-r))`",
"count": 1
},
{
"id": "i046",
"file": "Dynare",
"def": "factor",
"old": "| .add ts => ([inPar (addTerms true (termToks ts))], [])",
"new": "| .add ts => ([addTerms true (termToks ts)], [])",
"claim": "C101 sums in products",
"edit": "`| .add ts => ([inPar (addTerms true (termToks ts))], [])` -> `| .add ts => ([addTerms true (termToks ts)], [])`",
"count": 1
},
{
"id": "i047",
"file": "Dynare",
"def": "factors",
"old": "    (k.1 ++ r.1, k.2 ++ r.2)\n/-- sympy's `string",
"new": "    (k.1 ++ r.1, r.2)\n/-- sympy's `string",
"claim": "C101 denominators",
"edit": "`    (k.1 ++ r.1, k.2 ++ r.2)\n/-- sympy's `string` -> `    (k.1 ++ r.1, r.2)\n/-- sympy's `string`",
"count": 1
},
{
"id": "i048",
"file": "Dynare",
"def": "argToks",
"old": "| a :: as => toks a ++ .comma :: argToks as",
"new": "| a :: as => toks a ++ argToks as",
"claim": "C101 arguments",
"edit": "`| a :: as => toks a ++ .comma :: argToks as` -> `| a :: as => toks a ++ argToks as`",
"count": 1
},
{
"id": "i049",
"file": "Dynare",
"def": "linesLoop",
"old": "addition.length + 1 > width",
"new": "addition.length > width",
"claim": "C102 room for the semicolon",
"edit": "`addition.length + 1 > width` -> `addition.length > width`",
"count": 1
},
{
"id": "i050",
"file": "Dynare",
"def": "linesLoop",
"old": "addition.length + 1 > width",
"new": "addition.length + 1 \u2265 width",
"claim": "C102 breaks only where needed",
"edit": "`addition.length + 1 > width` -> `addition.length + 1 \u2265 width`",
"count": 1
},
{
"id": "i051",
"file": "Dynare",
"def": "linesLoop",
"old": "linesLoop width start (start ++ ' ' :: item) items",
"new": "linesLoop width start start items",
"claim": "C102 name lost at a break",
"edit": "`linesLoop width start (start ++ ' ' :: item) items` -> `linesLoop width start start items`",
"count": 1
},
{
"id": "i052",
"file": "Dynare",
"def": "linesLoop",
"old": "(line ++ [';']) :: linesLoop",
"new": "line :: linesLoop",
"claim": "C102 statement ends",
"edit": "`(line ++ [';']) :: linesLoop` -> `line :: linesLoop`",
"count": 1
},
{
"id": "i053",
"file": "Dynare",
"def": "linesLoop",
"old": "(if line = start then [' '] else [',', ' '])",
"new": "[',', ' ']",
"claim": "C102 first name",
"edit": "`(if line = start then [' '] else [',', ' '])` -> `[',', ' ']`",
"count": 1
},
{
"id": "i054",
"file": "Dynare",
"def": "shockDecl",
"old": "writeLines width \"varexo\".toList (m.shocks",
"new": "writeLines width \"var\".toList (m.shocks",
"claim": "C102 shocks under varexo",
"edit": "`writeLines width \"varexo\".toList (m.shocks` -> `writeLines width \"var\".toList (m.shocks`",
"count": 1
},
{
"id": "i055",
"file": "Dynare",
"def": "paramDecl",
"old": "\"parameters\".toList m.params",
"new": "\"parameters\".toList (m.values.map Prod.fst)",
"claim": "C102 parameters declared (free ones): edit would fix the missing declarations",
"edit": "`\"parameters\".toList m.params` -> `\"parameters\".toList (m.values.map Prod.fst)`",
"count": 1
},
{
"id": "i056",
"file": "Dynare",
"def": "varDecl",
"old": "(m.vars.map TSym.base)",
"new": "(m.vars.map TSym.base).reverse",
"claim": "C102 order",
"edit": "`(m.vars.map TSym.base)` -> `(m.vars.map TSym.base).reverse`",
"count": 1
},
{
"id": "i057",
"file": "Dynare",
"def": "roundEven",
"old": "else if d > 1/2 then x.floor + 1 else if x.floor % 2 = 0 then x.floor else x.floor + 1",
"new": "else if d > 1/2 then x.floor + 2 else if x.floor % 2 = 0 then x.floor else x.floor + 1",
"claim": "C105 rounding",
"edit": "`else if d > 1/2 then x.floor + 1 else if x.floor % 2 = 0 then x.floor else x.floor + 1` -> `else if d > 1/2 then x.floor + 2 else if x.floor % 2 = 0 then x.floor else x.floor + 1`",
"count": 1
},
{
"id": "i058",
"file": "Dynare",
"def": "roundEven",
"old": "if x.floor % 2 = 0 then x.floor else x.floor + 1",
"new": "x.floor",
"claim": "equivalent for the claims: ties down instead of to even",
"edit": "`if x.floor % 2 = 0 then x.floor else x.floor + 1` -> `x.floor`",
"count": 1
},
{
"id": "i059",
"file": "Dynare",
"def": "shown",
"old": "roundEven (v * 10 ^ digits) / 10 ^ digits",
"new": "(v * 10 ^ digits).floor / 10 ^ digits",
"claim": "C105 rounding to nearest",
"edit": "`roundEven (v * 10 ^ digits) / 10 ^ digits` -> `(v * 10 ^ digits).floor / 10 ^ digits`",
"count": 1
},
{
"id": "i060",
"file": "Dynare",
"def": "writeValues",
"old": "shown 3 p.2",
"new": "shown 2 p.2",
"claim": "C105 three decimals",
"edit": "`shown 3 p.2` -> `shown 2 p.2`",
"count": 1
},
{
"id": "i061",
"file": "Dynare",
"def": "findSS",
"old": "fun s => s.idx = .ss)",
"new": "fun s => s.idx = .t 0)",
"claim": "C103 needed steady states",
"edit": "`fun s => s.idx = .ss)` -> `fun s => s.idx = .t 0)`",
"count": 1
},
{
"id": "i062",
"file": "Dynare",
"def": "hashDefs",
"old": "if required.all fun s",
"new": "if required.any fun s",
"claim": "C103 all closed forms needed",
"edit": "`if required.all fun s` -> `if required.any fun s`",
"count": 1
},
{
"id": "i063",
"file": "Dynare",
"def": "hashDefs",
"old": "    (m.ssRel.filter fun p => required.contains p.1).map fun p",
"new": "    m.ssRel.map fun p",
"claim": "C103 only needed ones defined (others may clash)",
"edit": "`    (m.ssRel.filter fun p => required.contains p.1).map fun p` -> `    m.ssRel.map fun p`",
"count": 1
},
{
"id": "i064",
"file": "Dynare",
"def": "hashDefs",
"old": "(ssName p.1, toks p.2)",
"new": "(p.1.base, toks p.2)",
"claim": "C103 names of definitions",
"edit": "`(ssName p.1, toks p.2)` -> `(p.1.base, toks p.2)`",
"count": 1
},
{
"id": "i065",
"file": "Dynare",
"def": "hashDefs",
"old": "some (ssName s, numText p.2)",
"new": "some (ssName s, numText (shown 3 p.2))",
"claim": "C103 numbers unrounded",
"edit": "`some (ssName s, numText p.2)` -> `some (ssName s, numText (shown 3 p.2))`",
"count": 1
},
{
"id": "i066",
"file": "Dynare",
"def": "hashDefs",
"old": "if required.contains s then some (ssName s, numText p.2) else none",
"new": "none",
"claim": "C103 numeric definitions",
"edit": "`if required.contains s then some (ssName s, numText p.2) else none` -> `none`",
"count": 1
},
{
"id": "i067",
"file": "Dynare",
"def": "modelBlock",
"old": "(hashDefs m, m.equations.map toks)",
"new": "(hashDefs m, m.equations.tail.map toks)",
"claim": "C103 every equation",
"edit": "`(hashDefs m, m.equations.map toks)` -> `(hashDefs m, m.equations.tail.map toks)`",
"count": 1
},
{
"id": "i068",
"file": "Dynare",
"def": "modelBlock",
"old": "(hashDefs m, m.equations.map toks)",
"new": "([], m.equations.map toks)",
"claim": "C103 definitions written",
"edit": "`(hashDefs m, m.equations.map toks)` -> `([], m.equations.map toks)`",
"count": 1
},
{
"id": "i069",
"file": "Dynare",
"def": "steadyBlock",
"old": "if m.ssRel.length = m.vars.length then",
"new": "if m.ssRel.length > m.vars.length then",
"claim": "C104 which block",
"edit": "`if m.ssRel.length = m.vars.length then` -> `if m.ssRel.length > m.vars.length then`",
"count": 1
},
{
"id": "i070",
"file": "Dynare",
"def": "steadyBlock",
"old": "((m.ssRel.map Prod.fst).zip r.2).map fun p => (p.1.base, toks p.2)",
"new": "((m.ssRel.map Prod.fst).zip r.2.reverse).map fun p => (p.1.base, toks p.2)",
"claim": "C104 right variable",
"edit": "`((m.ssRel.map Prod.fst).zip r.2).map fun p => (p.1.base, toks p.2)` -> `((m.ssRel.map Prod.fst).zip r.2.reverse).map fun p => (p.1.base, toks p.2)`",
"count": 1
},
{
"id": "i071",
"file": "Dynare",
"def": "steadyBlock",
"old": "some (.analytic ((r.1.map fun p => (p.1, toks p.2)) ++",
"new": "some (.analytic (",
"claim": "C104 temporaries written",
"edit": "`some (.analytic ((r.1.map fun p => (p.1, toks p.2)) ++` -> `some (.analytic (`",
"count": 1
},
{
"id": "i072",
"file": "Dynare",
"def": "steadyBlock",
"old": "some (.analytic ((r.1.map fun p => (p.1, toks p.2)) ++",
"new": "some (.analytic ((r.1.reverse.map fun p => (p.1, toks p.2)) ++",
"claim": "C104 order of temporaries",
"edit": "`some (.analytic ((r.1.map fun p => (p.1, toks p.2)) ++` -> `some (.analytic ((r.1.reverse.map fun p => (p.1, toks p.2)) ++`",
"count": 1
},
{
"id": "i073",
"file": "Dynare",
"def": "steadyBlock",
"old": ".zip r.2).map fun p => (p.1.base, toks p.2)",
"new": ".zip r.2).map fun p => (ssName p.1, toks p.2)",
"claim": "C104 names assigned",
"edit": "`.zip r.2).map fun p => (p.1.base, toks p.2)` -> `.zip r.2).map fun p => (ssName p.1, toks p.2)`",
"count": 1
},
{
"id": "i074",
"file": "Dynare",
"def": "steadyBlock",
"old": ".map fun l => .initval (writeValues l)",
"new": ".map fun l => .initval (writeValues l.tail)",
"claim": "C104 all variables",
"edit": "`.map fun l => .initval (writeValues l)` -> `.map fun l => .initval (writeValues l.tail)`",
"count": 1
},
{
"id": "i075",
"file": "Dynare",
"def": "baseNamed",
"old": "| (.inr _, _) => none",
"new": "| (.inr p, v) => some (p, v)",
"claim": "C104 calibrated parameters (the edit is the fix)",
"edit": "`| (.inr _, _) => none` -> `| (.inr p, v) => some (p, v)`",
"count": 1
},
{
"id": "i076",
"file": "Dynare",
"def": "baseNamed",
"old": "some (s.base, v)",
"new": "some (ssName s, v)",
"claim": "C104 initval names",
"edit": "`some (s.base, v)` -> `some (ssName s, v)`",
"count": 1
},
{
"id": "i077",
"file": "Dynare",
"def": "shockStd",
"old": "1/100",
"new": "1/10",
"claim": "C105 stderr",
"edit": "`1/100` -> `1/10`",
"count": 1
}
]