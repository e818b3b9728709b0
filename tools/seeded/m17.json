[
 {
  "id": "u000",
  "file": "ContainerValues",
  "old": "| .num q => some (.flt (ops.toFloat q))\n",
  "new": "",
  "claim": "C131 numbers become floats",
  "edit": "`| .num q => some (.flt (ops.toFloat q))\n` -> ``",
  "count": 1,
  "def": "floatBranch"
 },
 {
  "id": "u001",
  "file": "ContainerValues",
  "old": "| .cc a b => some (.cpx a b)\n",
  "new": "| .cc a b => some (.flt a)\n",
  "claim": "C131 complex values",
  "edit": "`| .cc a b => some (.cpx a b)\n` -> `| .cc a b => some (.flt a)\n`",
  "count": 1,
  "def": "floatBranch"
 },
 {
  "id": "u002",
  "file": "ContainerValues",
  "old": "| .cc a b => some (.cpx a b)\n  | _ => none",
  "new": "| .cc a b => some (.cpx a b)\n  | .other _ => some (.int 0)\n  | _ => none",
  "claim": "C131 other values untouched",
  "edit": "`| .cc a b => some (.cpx a b)\n  | _ => none` -> `| .cc a b => some (.cpx a b)\n  | .other _ => some (.int 0)\n  | _ => none`",
  "count": 1,
  "def": "floatBranch"
 },
 {
  "id": "u003",
  "file": "ContainerValues",
  "old": "| .int n => some (.num (ops.ofInt n))\n",
  "new": "",
  "claim": "C131 ints become sympy numbers",
  "edit": "`| .int n => some (.num (ops.ofInt n))\n` -> ``",
  "count": 1,
  "def": "sympyBranch"
 },
 {
  "id": "u004",
  "file": "ContainerValues",
  "old": "| .cpx a b => some (.cc a b)\n",
  "new": "| .cpx a b => some (.cc b a)\n",
  "claim": "C131 complex values",
  "edit": "`| .cpx a b => some (.cc a b)\n` -> `| .cpx a b => some (.cc b a)\n`",
  "count": 1,
  "def": "sympyBranch"
 },
 {
  "id": "u005",
  "file": "ContainerValues",
  "old": "| none => valuesLoop f h d rest",
  "new": "| none => .ok (d, h)",
  "claim": "C131 every value converted",
  "edit": "`| none => valuesLoop f h d rest` -> `| none => .ok (d, h)`",
  "count": 1,
  "def": "valuesLoop"
 },
 {
  "id": "u006",
  "file": "ContainerValues",
  "old": ".ok ({ c with ref := h.length }, h ++ [h.get d.ref])",
  "new": ".ok (c, h)",
  "claim": "C131 own metadata",
  "edit": "`.ok ({ c with ref := h.length }, h ++ [h.get d.ref])` -> `.ok (c, h)`",
  "count": 1,
  "def": "mapValues"
 },
 {
  "id": "u007",
  "file": "ContainerValues",
  "old": ".ok ({ c with ref := h.length }, h ++ [h.get d.ref])",
  "new": ".ok ({ c with ref := h.length }, h ++ [{}])",
  "claim": "C131 metadata kept",
  "edit": "`.ok ({ c with ref := h.length }, h ++ [h.get d.ref])` -> `.ok ({ c with ref := h.length }, h ++ [{}])`",
  "count": 1,
  "def": "mapValues"
 },
 {
  "id": "u008",
  "file": "ContainerValues",
  "old": ".ok (r, h) => .ok (d.cleanUpdate h r)",
  "new": ".ok (r, h) => .ok (d, h)",
  "claim": "C131 in place",
  "edit": "`.ok (r, h) => .ok (d.cleanUpdate h r)` -> `.ok (r, h) => .ok (d, h)`",
  "count": 1,
  "def": "valuesToFloatInplace"
 },
 {
  "id": "u009",
  "file": "ContainerValues",
  "old": "strLe (symbolToString a.1) (symbolToString b.1)",
  "new": "strLe (symbolToString b.1) (symbolToString a.1)",
  "claim": "C131 ascending",
  "edit": "`strLe (symbolToString a.1) (symbolToString b.1)` -> `strLe (symbolToString b.1) (symbolToString a.1)`",
  "count": 1,
  "def": "sortDictionary"
 },
 {
  "id": "u010",
  "file": "ContainerValues",
  "old": "if d.isSympy then SDict.toSympy h r else return (r, h)",
  "new": "return (r, h)",
  "claim": "C131 sorted symbols stay symbols",
  "edit": "`if d.isSympy then SDict.toSympy h r else return (r, h)` -> `return (r, h)`",
  "count": 1,
  "def": "sortKeys"
 },
 {
  "id": "u011",
  "file": "ContainerValues",
  "old": "  let h := h.put r.ref (h.get d.ref)\n",
  "new": "",
  "claim": "C131 metadata kept when sorting",
  "edit": "`  let h := h.put r.ref (h.get d.ref)\n` -> ``",
  "count": 1,
  "def": "sortKeys"
 },
 {
  "id": "u012",
  "file": "ContainerValues",
  "old": "SDict.new h (sortDictionary s.items)",
  "new": "SDict.new h s.items",
  "claim": "C131 sorted",
  "edit": "`SDict.new h (sortDictionary s.items)` -> `SDict.new h s.items`",
  "count": 1,
  "def": "sortKeys"
 },
 {
  "id": "u013",
  "file": "ContainerValues",
  "old": "return SDict.cleanUpdate h d r",
  "new": "return (r, h)",
  "claim": "C131 sort in place",
  "edit": "`return SDict.cleanUpdate h d r` -> `return (r, h)`",
  "count": 1,
  "def": "sortKeysInplace"
 },
 {
  "id": "u014",
  "file": "ContainerValues",
  "old": "[['i','s','_','s','y','m','p','y'], ",
  "new": "[['i','s','_','s','y','m','p','y'], ['s','u','c','c','e','s','s'], ",
  "claim": "C131 pickle keeps success",
  "edit": "`[['i','s','_','s','y','m','p','y'], ` -> `[['i','s','_','s','y','m','p','y'], ['s','u','c','c','e','s','s'], `",
  "count": 1,
  "def": "baseAttrs"
 },
 {
  "id": "u015",
  "file": "ContainerValues",
  "old": "o.attrs.filter fun p => p.1 \u2209 baseAttrs",
  "new": "o.attrs.filter fun p => p.1 \u2208 baseAttrs",
  "claim": "C131 pickle keeps attributes",
  "edit": "`o.attrs.filter fun p => p.1 \u2209 baseAttrs` -> `o.attrs.filter fun p => p.1 \u2208 baseAttrs`",
  "count": 1,
  "def": "reduce"
 },
 {
  "id": "u016",
  "file": "ContainerValues",
  "old": "\u27e8p.cls, \u27e8dupdate [] p.items, p.isSympy",
  "new": "\u27e8.symbolDictionary, \u27e8dupdate [] p.items, p.isSympy",
  "claim": "C131 pickle keeps class",
  "edit": "`\u27e8p.cls, \u27e8dupdate [] p.items, p.isSympy` -> `\u27e8.symbolDictionary, \u27e8dupdate [] p.items, p.isSympy`",
  "count": 1,
  "def": "load"
 },
 {
  "id": "u017",
  "file": "ContainerValues",
  "old": "h ++ [p.md]",
  "new": "h ++ [{}]",
  "claim": "C131 pickle keeps assumptions",
  "edit": "`h ++ [p.md]` -> `h ++ [{}]`",
  "count": 1,
  "def": "load"
 },
 {
  "id": "u018",
  "file": "ContainerValues",
  "old": "p.isSympy, h.length\u27e9",
  "new": "false, h.length\u27e9",
  "claim": "C131 pickle keeps mode",
  "edit": "`p.isSympy, h.length\u27e9` -> `false, h.length\u27e9`",
  "count": 1,
  "def": "load"
 },
 {
  "id": "u019",
  "file": "Base",
  "old": "if k' = k then (k', v) :: d else",
  "new": "if k' = k then (k', v') :: d else",
  "claim": "C05 assignment overwrites",
  "edit": "`if k' = k then (k', v) :: d else` -> `if k' = k then (k', v') :: d else`",
  "count": 1,
  "def": "dset"
 },
 {
  "id": "u020",
  "file": "Base",
  "old": "e.foldl (fun acc p => dset acc p.1 p.2) d",
  "new": "e.foldl (fun acc p => if (dget acc p.1).isSome then acc else dset acc p.1 p.2) d",
  "claim": "C05 update overwrites",
  "edit": "`e.foldl (fun acc p => dset acc p.1 p.2) d` -> `e.foldl (fun acc p => if (dget acc p.1).isSome then acc else dset acc p.1 p.2) d`",
  "count": 1,
  "def": "dupdate"
 },
 {
  "id": "u021",
  "file": "Block",
  "old": "| .ok (i :: is) => let r := numberCalib asm (i :: is) st []",
  "new": "| .ok (i :: is) => let r := numberCalib asm is st []",
  "claim": "C20 every calibration numbered",
  "edit": "`| .ok (i :: is) => let r := numberCalib asm (i :: is) st []` -> `| .ok (i :: is) => let r := numberCalib asm is st []`",
  "count": 1,
  "def": "convertCalibration"
 },
 {
  "id": "u022",
  "file": "Block",
  "old": "| .ok [] => .ok (none, st)",
  "new": "| .ok [] => .ok (some [], st)",
  "claim": "C20 no calibration",
  "edit": "`| .ok [] => .ok (none, st)` -> `| .ok [] => .ok (some [], st)`",
  "count": 1,
  "def": "convertCalibration"
 },
 {
  "id": "u023",
  "file": "Block",
  "old": "\u27e8e.lhs.subsSeq d, e.rhs.subsSeq d\u27e9",
  "new": "\u27e8e.lhs, e.rhs.subsSeq d\u27e9",
  "claim": "C22 definitions substituted",
  "edit": "`\u27e8e.lhs.subsSeq d, e.rhs.subsSeq d\u27e9` -> `\u27e8e.lhs, e.rhs.subsSeq d\u27e9`",
  "count": 1,
  "def": "SEq.subsSeq"
 },
 {
  "id": "u024",
  "file": "Block",
  "old": "e.lhs.syms ++ e.rhs.syms",
  "new": "e.rhs.syms",
  "claim": "C36 all symbols of an equation",
  "edit": "`e.lhs.syms ++ e.rhs.syms` -> `e.rhs.syms`",
  "count": 1,
  "def": "SEq.syms"
 },
 {
  "id": "u025",
  "file": "Block",
  "old": "| .mul a b => a.factors ++ b.factors",
  "new": "| .mul a b => [a] ++ b.factors",
  "claim": "C24 factors",
  "edit": "`| .mul a b => a.factors ++ b.factors` -> `| .mul a b => [a] ++ b.factors`",
  "count": 1,
  "def": "factors"
 },
 {
  "id": "u026",
  "file": "Cache",
  "old": "let rest := modelRun vars build compile buildEqs r.2 ops",
  "new": "let rest := modelRun vars build compile buildEqs s ops",
  "claim": "C57 cached results",
  "edit": "`let rest := modelRun vars build compile buildEqs r.2 ops` -> `let rest := modelRun vars build compile buildEqs s ops`",
  "count": 1,
  "def": "modelRun"
 },
 {
  "id": "u027",
  "file": "ClosedForm",
  "old": "| some (A, some (inner, oe)) => some (A, inner, oe)",
  "new": "| some (A, some (inner, oe)) => some (none, inner, oe)",
  "claim": "C24 CES productivity kept",
  "edit": "`| some (A, some (inner, oe)) => some (A, inner, oe)` -> `| some (A, some (inner, oe)) => some (none, inner, oe)`",
  "count": 1,
  "def": "cesOuter"
 },
 {
  "id": "u028",
  "file": "ClosedForm",
  "old": "if cs.any fun c => R.isZero (e.sub c) then cs else cs ++ [e]",
  "new": "cs ++ [e]",
  "claim": "C24 one exponent",
  "edit": "`if cs.any fun c => R.isZero (e.sub c) then cs else cs ++ [e]` -> `cs ++ [e]`",
  "count": 1,
  "def": "cesCandidates"
 },
 {
  "id": "u029",
  "file": "ClosedForm",
  "old": "| some (some x, sh) => some (x, mulAll sh)",
  "new": "| some (some x, sh) => some (x, .num 1)",
  "claim": "C24 CES share",
  "edit": "`| some (some x, sh) => some (x, mulAll sh)` -> `| some (some x, sh) => some (x, .num 1)`",
  "count": 1,
  "def": "cesTerm"
 },
 {
  "id": "u030",
  "file": "ClosedForm",
  "old": "(matchCESResidual R idx (e.rhs.sub e.lhs)).orElse fun _ => matchCESResidual R idx (e.lhs.sub e.rhs)",
  "new": "matchCESResidual R idx (e.lhs.sub e.rhs)",
  "claim": "C24 both orientations",
  "edit": "`(matchCESResidual R idx (e.rhs.sub e.lhs)).orElse fun _ => matchCESResidual R idx (e.lhs.sub e.rhs)` -> `matchCESResidual R idx (e.lhs.sub e.rhs)`",
  "count": 1,
  "def": "matchCES"
 },
 {
  "id": "u031",
  "file": "ClosedForm",
  "old": "if (Y :: (A.toList ++ ins.map Prod.fst)).Nodup then some",
  "new": "if True then some",
  "claim": "C24 distinct symbols",
  "edit": "`if (Y :: (A.toList ++ ins.map Prod.fst)).Nodup then some` -> `if True then some`",
  "count": 2,
  "def": "matchCESResidual",
  "nth": 1
 },
 {
  "id": "u032",
  "file": "Containers",
  "old": "| .var s => safeName s",
  "new": "| .var s => createName s",
  "claim": "C03 key strings",
  "edit": "`| .var s => safeName s` -> `| .var s => createName s`",
  "count": 1,
  "def": "symbolToString"
 },
 {
  "id": "u033",
  "file": "Containers",
  "old": "| .str _ => false\n  | _ => true",
  "new": "| .str _ => false\n  | .par _ _ => false\n  | _ => true",
  "claim": "C04 parameters are symbols",
  "edit": "`| .str _ => false\n  | _ => true` -> `| .str _ => false\n  | .par _ _ => false\n  | _ => true`",
  "count": 1,
  "def": "isSym"
 },
 {
  "id": "u034",
  "file": "Containers",
  "old": "items := dupdate d.items o",
  "new": "items := dupdate o d.items",
  "claim": "C05 update overwrites",
  "edit": "`items := dupdate d.items o` -> `items := dupdate o d.items`",
  "count": 2,
  "def": "updatePlain",
  "nth": 1
 },
 {
  "id": "u035",
  "file": "Containers",
  "old": "stringKeysToSympy (h.get d.ref) d.items",
  "new": "stringKeysToSympy {} d.items",
  "claim": "C03 assumptions restored",
  "edit": "`stringKeysToSympy (h.get d.ref) d.items` -> `stringKeysToSympy {} d.items`",
  "count": 1,
  "def": "toSympy"
 },
 {
  "id": "u036",
  "file": "Containers",
  "old": "  return SDict.cleanUpdate h d s\n\n/-- the three",
  "new": "  return (s, h)\n\n/-- the three",
  "claim": "C03 in place",
  "edit": "`  return SDict.cleanUpdate h d s\n\n/-- the three` -> `  return (s, h)\n\n/-- the three`",
  "count": 1,
  "def": "toStrInplace"
 },
 {
  "id": "u037",
  "file": "DataFromPrior",
  "old": "(dget kw name.toList).getD dflt",
  "new": "dflt",
  "claim": "C124 switches respected",
  "edit": "`(dget kw name.toList).getD dflt` -> `dflt`",
  "count": 1,
  "def": "graphSwitch"
 },
 {
  "id": "u038",
  "file": "DataFromPrior",
  "old": "(\"add_solver_success_check\".toList, true)",
  "new": "(\"add_solver_success_check\".toList, false)",
  "claim": "C124 defaults",
  "edit": "`(\"add_solver_success_check\".toList, true)` -> `(\"add_solver_success_check\".toList, false)`",
  "count": 1,
  "def": "dfpDefaults"
 },
 {
  "id": "u039",
  "file": "DataFromPrior",
  "old": "| (_, col) :: _ => col.length",
  "new": "| (_, _) :: r => r.length",
  "claim": "C124 rows",
  "edit": "`| (_, col) :: _ => col.length` -> `| (_, _) :: r => r.length`",
  "count": 1,
  "def": "frameRows"
 },
 {
  "id": "u040",
  "file": "Diagnostics",
  "old": "\"yield\"].map",
  "new": "\"yields\"].map",
  "claim": "C86 keywords",
  "edit": "`\"yield\"].map` -> `\"yields\"].map`",
  "count": 1,
  "def": "pyKeywords"
 },
 {
  "id": "u041",
  "file": "Diagnostics",
  "old": "(boundsFromPriors priors hdiProb) n seed method",
  "new": "(boundsFromPriors priors 1) n seed method",
  "claim": "C86 bounds",
  "edit": "`(boundsFromPriors priors hdiProb) n seed method` -> `(boundsFromPriors priors 1) n seed method`",
  "count": 1,
  "def": "sampleUniformFromPriors"
 },
 {
  "id": "u042",
  "file": "DirectConvert",
  "old": ".ok (s, eqMeta asm e)",
  "new": ".ok (s, eqMeta [] e)",
  "claim": "C127 metadata",
  "edit": "`.ok (s, eqMeta asm e)` -> `.ok (s, eqMeta [] e)`",
  "count": 1,
  "def": "equationToSympy"
 },
 {
  "id": "u043",
  "file": "DirectConvert",
  "old": "b.calibration {}",
  "new": "b.calibration.tail {}",
  "claim": "C127 every calibration",
  "edit": "`b.calibration {}` -> `b.calibration.tail {}`",
  "count": 1,
  "def": "blockToCalibration"
 },
 {
  "id": "u044",
  "file": "Sym",
  "old": "def neg (a : SExpr) : SExpr := .mul (.num (-1)) a",
  "new": "def neg (a : SExpr) : SExpr := .mul (.num 1) a",
  "claim": "C13 negation",
  "edit": "`def neg (a : SExpr) : SExpr := .mul (.num (-1)) a` -> `def neg (a : SExpr) : SExpr := .mul (.num 1) a`",
  "count": 1,
  "def": "neg"
 },
 {
  "id": "u045",
  "file": "Sym",
  "old": ".mul a (.pow b (.num (-1)))",
  "new": ".mul b (.pow a (.num (-1)))",
  "claim": "C13 division",
  "edit": "`.mul a (.pow b (.num (-1)))` -> `.mul b (.pow a (.num (-1)))`",
  "count": 1,
  "def": "div"
 },
 {
  "id": "u046",
  "file": "Sym",
  "old": "| .pow a b => a.syms ++ b.syms",
  "new": "| .pow a b => a.syms",
  "claim": "C12 symbols of exponents",
  "edit": "`| .pow a b => a.syms ++ b.syms` -> `| .pow a b => a.syms`",
  "count": 1,
  "def": "syms"
 },
 {
  "id": "u047",
  "file": "Sym",
  "old": "| .log a => .log (a.replace f)",
  "new": "| .log a => .log a",
  "claim": "C12 substitution under log",
  "edit": "`| .log a => .log (a.replace f)` -> `| .log a => .log a`",
  "count": 1,
  "def": "replace"
 },
 {
  "id": "u048",
  "file": "Sym",
  "old": "if le a b then a :: b :: l else b :: insertBy le a l",
  "new": "if le a b then a :: b :: l else b :: a :: l",
  "claim": "C11 sorting",
  "edit": "`if le a b then a :: b :: l else b :: insertBy le a l` -> `if le a b then a :: b :: l else b :: a :: l`",
  "count": 1,
  "def": "insertBy"
 },
 {
  "id": "u049",
  "file": "Sym",
  "old": "| .t i, .t j => i \u2264 j\n  | .ss, _ => true\n  | .t _, .ss => false\n\n",
  "new": "| .t i, .t j => j \u2264 i\n  | .ss, _ => true\n  | .t _, .ss => false\n\n",
  "claim": "C12 stepping backward",
  "edit": "`| .t i, .t j => i \u2264 j\n  | .ss, _ => true\n  | .t _, .ss => false\n\n` -> `| .t i, .t j => j \u2264 i\n  | .ss, _ => true\n  | .t _, .ss => false\n\n`",
  "count": 1,
  "def": "ascT"
 },
 {
  "id": "u050",
  "file": "Sym",
  "old": "let w \u2190 stepBackward v",
  "new": "let w \u2190 stepForward v",
  "claim": "C12 stepping backward",
  "edit": "`let w \u2190 stepBackward v` -> `let w \u2190 stepForward v`",
  "count": 1,
  "def": "stepBwdIn"
 },
 {
  "id": "u051",
  "file": "Sym",
  "old": "stepFwdIn (sortBy descT e.tsyms.eraseDups) e",
  "new": "stepFwdIn (sortBy ascT e.tsyms.eraseDups) e",
  "claim": "C12 stepping forward",
  "edit": "`stepFwdIn (sortBy descT e.tsyms.eraseDups) e` -> `stepFwdIn (sortBy ascT e.tsyms.eraseDups) e`",
  "count": 1,
  "def": "stepFwd"
 },
 {
  "id": "u052",
  "file": "Sym",
  "old": "| .pyInt k => .mul e (.num k)",
  "new": "| .pyInt k => e",
  "claim": "C12 discount factor",
  "edit": "`| .pyInt k => .mul e (.num k)` -> `| .pyInt k => e`",
  "count": 1,
  "def": "Disc.times"
 },
 {
  "id": "u053",
  "file": "Sym",
  "old": "| .ok b' => .ok (.expr b')",
  "new": "| .ok _ => .ok (.expr b)",
  "claim": "C12 discount steps",
  "edit": "`| .ok b' => .ok (.expr b')` -> `| .ok _ => .ok (.expr b)`",
  "count": 1,
  "def": "Disc.step"
 },
 {
  "id": "u054",
  "file": "Sym",
  "old": "s \u2208 dkeys d \u2227 s \u2260 key",
  "new": "s \u2208 dkeys d",
  "claim": "C14 self reference",
  "edit": "`s \u2208 dkeys d \u2227 s \u2260 key` -> `s \u2208 dkeys d`",
  "count": 1,
  "def": "flatDeps"
 },
 {
  "id": "u055",
  "file": "Sym",
  "old": "| some (some st') => resolveLoop r ks st'",
  "new": "| some (some st') => some (some st')",
  "claim": "C14 all definitions",
  "edit": "`| some (some st') => resolveLoop r ks st'` -> `| some (some st') => some (some st')`",
  "count": 1,
  "def": "resolveLoop"
 },
 {
  "id": "u056",
  "file": "Sym",
  "old": "(dkeys d) {}).map",
  "new": "(dkeys d).tail {}).map",
  "claim": "C14 all definitions",
  "edit": "`(dkeys d) {}).map` -> `(dkeys d).tail {}).map`",
  "count": 1,
  "def": "flattenSubs"
 },
 {
  "id": "u057",
  "file": "Dynare",
  "old": "(isSum t, toks t) :: termToks ts",
  "new": "(false, toks t) :: termToks ts",
  "claim": "C71 sums in sums",
  "edit": "`(isSum t, toks t) :: termToks ts` -> `(false, toks t) :: termToks ts`",
  "count": 1,
  "def": "termToks"
 },
 {
  "id": "u058",
  "file": "Dynare",
  "old": "s.base ++ ssSuffix",
  "new": "s.base",
  "claim": "C71 steady state names",
  "edit": "`s.base ++ ssSuffix` -> `s.base`",
  "count": 2,
  "def": "ssName",
  "nth": 1
 },
 {
  "id": "u059",
  "file": "Dynare",
  "old": "linesLoop width start start items",
  "new": "linesLoop width start [] items",
  "claim": "C73 lines start",
  "edit": "`linesLoop width start start items` -> `linesLoop width start [] items`",
  "count": 1,
  "def": "writeLines"
 },
 {
  "id": "u060",
  "file": "ErrorText",
  "old": "sep.isPrefixOf (c :: cs) || isIn sep cs",
  "new": "sep.isPrefixOf (c :: cs)",
  "claim": "C109 substring",
  "edit": "`sep.isPrefixOf (c :: cs) || isIn sep cs` -> `sep.isPrefixOf (c :: cs)`",
  "count": 1,
  "def": "isIn"
 },
 {
  "id": "u061",
  "file": "ErrorText",
  "old": "\"annotation\", \"notes\"]",
  "new": "\"annotation\"]",
  "claim": "C109 notes kept",
  "edit": "`\"annotation\", \"notes\"]` -> `\"annotation\"]`",
  "count": 2,
  "def": "rebuildArgs",
  "nth": 1
 },
 {
  "id": "u062",
  "file": "ErrorText",
  "old": "'\\'' :: (s ++ ['\\''])",
  "new": "s",
  "claim": "C109 quoted",
  "edit": "`'\\'' :: (s ++ ['\\''])` -> `s`",
  "count": 1,
  "def": "quoted"
 },
 {
  "id": "u063",
  "file": "ExpandTime",
  "old": "| a :: as => collectArgs (collectExpr d a) as",
  "new": "| a :: as => collectArgs d as",
  "claim": "C07 arguments searched",
  "edit": "`| a :: as => collectArgs (collectExpr d a) as` -> `| a :: as => collectArgs d as`",
  "count": 1,
  "def": "collectArgs"
 },
 {
  "id": "u064",
  "file": "ExpandTime",
  "old": "replaceExpr d a :: replaceArgs d as",
  "new": "a :: replaceArgs d as",
  "claim": "C07 arguments replaced",
  "edit": "`replaceExpr d a :: replaceArgs d as` -> `a :: replaceArgs d as`",
  "count": 1,
  "def": "replaceArgs"
 },
 {
  "id": "u065",
  "file": "Figures",
  "old": "| .ok cs => .ok \u27e8xs, ys, cs\u27e9",
  "new": "| .ok cs => .ok \u27e8ys, xs, cs\u27e9",
  "claim": "C129 ticks",
  "edit": "`| .ok cs => .ok \u27e8xs, ys, cs\u27e9` -> `| .ok cs => .ok \u27e8ys, xs, cs\u27e9`",
  "count": 1,
  "def": "heatMap"
 },
 {
  "id": "u066",
  "file": "Figures",
  "old": "\"norm_deterministic\".toList, \"norm_stochastic\".toList]",
  "new": "\"norm_deterministic\".toList]",
  "claim": "C129 columns",
  "edit": "`\"norm_deterministic\".toList, \"norm_stochastic\".toList]` -> `\"norm_deterministic\".toList]`",
  "count": 1,
  "def": "metaCols"
 },
 {
  "id": "u067",
  "file": "Gensys",
  "old": "Sum.map id Subtype.val",
  "new": "fun x => x.elim Sum.inl fun j => Sum.inl j.1",
  "claim": "C41 gensys",
  "edit": "`Sum.map id Subtype.val` -> `fun x => x.elim Sum.inl fun j => Sum.inl j.1`",
  "count": 1,
  "def": "eqsAndLeads"
 },
 {
  "id": "u068",
  "file": "Gensys",
  "old": "q.Q.submatrix Sum.inl id",
  "new": "(1 : Matrix _ _ \u2102).submatrix Sum.inl id * q.Q * 2",
  "claim": "C41 gensys",
  "edit": "`q.Q.submatrix Sum.inl id` -> `(1 : Matrix _ _ \u2102).submatrix Sum.inl id * q.Q * 2`",
  "count": 1,
  "def": "Q1"
 },
 {
  "id": "u069",
  "file": "Gensys",
  "old": "q.Q.submatrix Sum.inr id",
  "new": "2 \u2022 q.Q.submatrix Sum.inr id",
  "claim": "C41 gensys",
  "edit": "`q.Q.submatrix Sum.inr id` -> `2 \u2022 q.Q.submatrix Sum.inr id`",
  "count": 1,
  "def": "Q2"
 },
 {
  "id": "u070",
  "file": "Gensys",
  "old": "fromRows (s.tMat * q.A) (fromCols 0 1)",
  "new": "fromRows (s.tMat * q.A) (fromCols 0 0)",
  "claim": "C41 gensys",
  "edit": "`fromRows (s.tMat * q.A) (fromCols 0 1)` -> `fromRows (s.tMat * q.A) (fromCols 0 0)`",
  "count": 1,
  "def": "bigG0"
 },
 {
  "id": "u071",
  "file": "Grammar",
  "old": "| some (as, .rpar :: r) => some (as, r)\n    | _ => none\n  | _ => none",
  "new": "| some (as, .rpar :: r) => some (as.tail, r)\n    | _ => none\n  | _ => none",
  "claim": "C104 wrapper arguments",
  "edit": "`| some (as, .rpar :: r) => some (as, r)\n    | _ => none\n  | _ => none` -> `| some (as, .rpar :: r) => some (as.tail, r)\n    | _ => none\n  | _ => none`",
  "count": 1,
  "def": "pWrapArgs"
 },
 {
  "id": "u072",
  "file": "Grammar",
  "old": "| some (a, r) => pNLoop f (.one a) r",
  "new": "| some (a, r) => some (.one a, r)",
  "claim": "C104 arithmetic in arguments",
  "edit": "`| some (a, r) => pNLoop f (.one a) r` -> `| some (a, r) => some (.one a, r)`",
  "count": 1,
  "def": "pNChain"
 },
 {
  "id": "u073",
  "file": "LinearSolve",
  "old": "some (A\u207b\u00b9 * B)",
  "new": "some (A * B)",
  "claim": "C40 linear solve",
  "edit": "`some (A\u207b\u00b9 * B)` -> `some (A * B)`",
  "count": 1,
  "def": "linSolve"
 },
 {
  "id": "u074",
  "file": "LinearSolve",
  "old": ".ok (some (p.T, p.R))",
  "new": ".ok (some (p.T, -p.R))",
  "claim": "C40 shock response",
  "edit": "`.ok (some (p.T, p.R))` -> `.ok (some (p.T, -p.R))`",
  "count": 1,
  "def": "solveWithCR"
 },
 {
  "id": "u075",
  "file": "LoadSimplified",
  "old": "extractSS m.assumptions m",
  "new": "extractSS [] m",
  "claim": "C125 assumptions",
  "edit": "`extractSS m.assumptions m` -> `extractSS [] m`",
  "count": 1,
  "def": "loadModelS"
 },
 {
  "id": "u076",
  "file": "Loader",
  "old": "extractSS m.assumptions m",
  "new": "extractSS [] m",
  "claim": "C30 assumptions",
  "edit": "`extractSS m.assumptions m` -> `extractSS [] m`",
  "count": 1,
  "def": "loadModel"
 },
 {
  "id": "u077",
  "file": "Loader",
  "old": "| .tv s => safeName s\n  | .par n => n\n\n/-- `d.sort",
  "new": "| .tv s => s.base\n  | .par n => n\n\n/-- `d.sort",
  "claim": "C29 names",
  "edit": "`| .tv s => safeName s\n  | .par n => n\n\n/-- `d.sort` -> `| .tv s => s.base\n  | .par n => n\n\n/-- `d.sort`",
  "count": 1,
  "def": "Sym.toStr"
 },
 {
  "id": "u079",
  "file": "ParserMisc",
  "old": "| .add => ['+'] | .sub => ['-']",
  "new": "| .add => ['+'] | .sub => ['+']",
  "claim": "C19 arithmetic",
  "edit": "`| .add => ['+'] | .sub => ['-']` -> `| .add => ['+'] | .sub => ['+']`",
  "count": 1,
  "def": "NOp.tok"
 },
 {
  "id": "u080",
  "file": "ParserMisc",
  "old": "(c.flat.1, c.flat.2 ++ [(op, a.tree)])",
  "new": "(c.flat.1, (op, a.tree) :: c.flat.2)",
  "claim": "C19 arithmetic",
  "edit": "`(c.flat.1, c.flat.2 ++ [(op, a.tree)])` -> `(c.flat.1, (op, a.tree) :: c.flat.2)`",
  "count": 1,
  "def": "NChain.flat"
 },
 {
  "id": "u081",
  "file": "ParserMisc",
  "old": "['u','n','i','t','_','i'",
  "new": "['u','n','i','t','i'",
  "claim": "C19 names",
  "edit": "`['u','n','i','t','_','i'` -> `['u','n','i','t','i'`",
  "count": 1,
  "def": "unitInterval"
 },
 {
  "id": "u082",
  "file": "ParserMisc",
  "old": "s.map Char.toLower",
  "new": "s",
  "claim": "C19 case",
  "edit": "`s.map Char.toLower` -> `s`",
  "count": 1,
  "def": "lowerStr"
 },
 {
  "id": "u083",
  "file": "PerfectForesight",
  "old": "(List.range T).flatMap",
  "new": "(List.range (T - 1)).flatMap",
  "claim": "C45 every period",
  "edit": "`(List.range T).flatMap` -> `(List.range (T - 1)).flatMap`",
  "count": 1,
  "def": "assembleEntries"
 },
 {
  "id": "u084",
  "file": "PerfectForesight",
  "old": "writeSlice nEq p.1 p.2 res) fun _ => 0",
  "new": "writeSlice nEq p.1 p.2 res) fun _ => 1",
  "claim": "C45 residual vector",
  "edit": "`writeSlice nEq p.1 p.2 res) fun _ => 0` -> `writeSlice nEq p.1 p.2 res) fun _ => 1`",
  "count": 1,
  "def": "stackedResiduals"
 },
 {
  "id": "u085",
  "file": "PerfectForesight",
  "old": "['_', 's', 's']",
  "new": "['_', 's']",
  "claim": "C48 names",
  "edit": "`['_', 's', 's']` -> `['_', 's']`",
  "count": 1,
  "def": "ssSuffix"
 },
 {
  "id": "u086",
  "file": "Perturbation",
  "old": "{ v with idx := .t k }",
  "new": "{ v with idx := .t (-k) }",
  "claim": "C33 dates",
  "edit": "`{ v with idx := .t k }` -> `{ v with idx := .t (-k) }`",
  "count": 1,
  "def": "atT"
 },
 {
  "id": "u087",
  "file": "Perturbation",
  "old": "if k = i then true else a k",
  "new": "if k = i then a k else true",
  "claim": "C35 mask",
  "edit": "`if k = i then true else a k` -> `if k = i then a k else true`",
  "count": 1,
  "def": "setTrue"
 },
 {
  "id": "u088",
  "file": "Plotting",
  "old": "s.map Char.toLower",
  "new": "s",
  "claim": "C113 case",
  "edit": "`s.map Char.toLower` -> `s`",
  "count": 1,
  "def": "lower"
 },
 {
  "id": "u089",
  "file": "Printer",
  "old": "| a :: as => Expr.toks 0 a ++ .comma :: Expr.toksArgs as",
  "new": "| a :: as => Expr.toks 0 a ++ Expr.toksArgs as",
  "claim": "C16 commas",
  "edit": "`| a :: as => Expr.toks 0 a ++ .comma :: Expr.toksArgs as` -> `| a :: as => Expr.toks 0 a ++ Expr.toksArgs as`",
  "count": 1,
  "def": "toksArgs"
 },
 {
  "id": "u090",
  "file": "Printer",
  "old": "| some (e, r) => some (.neg e, r)",
  "new": "| some (e, r) => some (e, r)",
  "claim": "C16 unary minus",
  "edit": "`| some (e, r) => some (.neg e, r)` -> `| some (e, r) => some (e, r)`",
  "count": 1,
  "def": "pUnary"
 },
 {
  "id": "u091",
  "file": "Printer",
  "old": "| some (e, .rbr :: r) => some (.expect e, r)",
  "new": "| some (e, .rbr :: r) => some (e, r)",
  "claim": "C16 expectation",
  "edit": "`| some (e, .rbr :: r) => some (.expect e, r)` -> `| some (e, .rbr :: r) => some (e, r)`",
  "count": 1,
  "def": "pAtom"
 },
 {
  "id": "u092",
  "file": "Printer",
  "old": "some (\u27e8n, t\u27e9 :: vs, r)",
  "new": "some (vs, r)",
  "claim": "C16 control lists",
  "edit": "`some (\u27e8n, t\u27e9 :: vs, r)` -> `some (vs, r)`",
  "count": 1,
  "def": "pVarList"
 },
 {
  "id": "u093",
  "file": "Printer",
  "old": "cs.foldl Blk.addComp { name := name }",
  "new": "cs.foldl Blk.addComp { name := [] }",
  "claim": "C16 block name",
  "edit": "`cs.foldl Blk.addComp { name := name }` -> `cs.foldl Blk.addComp { name := [] }`",
  "count": 1,
  "def": "buildBlock"
 },
 {
  "id": "u094",
  "file": "Report",
  "old": "(reportPieces r).flatten",
  "new": "(reportPieces r).tail.flatten",
  "claim": "C120 report",
  "edit": "`(reportPieces r).flatten` -> `(reportPieces r).tail.flatten`",
  "count": 1,
  "def": "reportText"
 },
 {
  "id": "u095",
  "file": "Report",
  "old": "expandedLen 0 0 s",
  "new": "s.length",
  "claim": "C120 tabs",
  "edit": "`expandedLen 0 0 s` -> `s.length`",
  "count": 1,
  "def": "tabLen"
 },
 {
  "id": "u096",
  "file": "Responses",
  "old": "A := Matrix.of fun i j => (entryAt M.A i j).getD 0",
  "new": "A := Matrix.of fun i j => (entryAt M.C i j).getD 0",
  "claim": "C130 lag matrix",
  "edit": "`A := Matrix.of fun i j => (entryAt M.A i j).getD 0` -> `A := Matrix.of fun i j => (entryAt M.C i j).getD 0`",
  "count": 1,
  "def": "matsOf"
 },
 {
  "id": "u097",
  "file": "Responses",
  "old": "C := Matrix.of fun i j => (entryAt M.C i j).getD 0",
  "new": "C := Matrix.of fun i j => (entryAt M.C j i).getD 0",
  "claim": "C130 transposed",
  "edit": "`C := Matrix.of fun i j => (entryAt M.C i j).getD 0` -> `C := Matrix.of fun i j => (entryAt M.C j i).getD 0`",
  "count": 1,
  "def": "matsOf"
 },
 {
  "id": "u098",
  "file": "Responses",
  "old": "D := Matrix.of fun i j => (entryAt M.D i j).getD 0",
  "new": "D := Matrix.of fun i j => -(entryAt M.D i j).getD 0",
  "claim": "C130 shock matrix",
  "edit": "`D := Matrix.of fun i j => (entryAt M.D i j).getD 0` -> `D := Matrix.of fun i j => -(entryAt M.D i j).getD 0`",
  "count": 1,
  "def": "matsOf"
 },
 {
  "id": "u099",
  "file": "Responses",
  "old": "(linearizeModel vars eqs shocks loglin ss (evalAt par))",
  "new": "(linearizeModel vars eqs shocks [] ss (evalAt par))",
  "claim": "C130 logs",
  "edit": "`(linearizeModel vars eqs shocks loglin ss (evalAt par))` -> `(linearizeModel vars eqs shocks [] ss (evalAt par))`",
  "count": 1,
  "def": "linearMats"
 },
 {
  "id": "u100",
  "file": "SSDriver",
  "old": "['n','e','g','a','t','i','v','e']",
  "new": "['n','e','g']",
  "claim": "C97 bounds",
  "edit": "`['n','e','g','a','t','i','v','e']` -> `['n','e','g']`",
  "count": 1,
  "def": "negativeStr"
 },
 {
  "id": "u101",
  "file": "SSDriver",
  "old": "List.zipWith forwardNum ts x",
  "new": "List.zipWith forwardNum ts.reverse x",
  "claim": "C97 transforms",
  "edit": "`List.zipWith forwardNum ts x` -> `List.zipWith forwardNum ts.reverse x`",
  "count": 1,
  "def": "toUnconstrained"
 },
 {
  "id": "u102",
  "file": "SSDriver",
  "old": "| .tv s => createName s",
  "new": "| .tv s => s.base",
  "claim": "C97 names",
  "edit": "`| .tv s => createName s` -> `| .tv s => s.base`",
  "count": 1,
  "def": "symName"
 },
 {
  "id": "u103",
  "file": "SSDriver",
  "old": "ssResidual m.ssEqs [] m.vars m.calib",
  "new": "ssResidual m.ssEqs [] m.vars []",
  "claim": "C97 calibration equations",
  "edit": "`ssResidual m.ssEqs [] m.vars m.calib` -> `ssResidual m.ssEqs [] m.vars []`",
  "count": 1,
  "def": "SSModel.equations"
 },
 {
  "id": "u104",
  "file": "SSDriver",
  "old": "m.params.parameters updates",
  "new": "m.params.parameters []",
  "claim": "C97 parameter updates",
  "edit": "`m.params.parameters updates` -> `m.params.parameters []`",
  "count": 1,
  "def": "SSModel.parameters"
 },
 {
  "id": "u106",
  "file": "SparseRoot",
  "old": "jac := (f x0).2, phi",
  "new": "jac := 2 \u2022 (f x0).2, phi",
  "claim": "C51 start",
  "edit": "`jac := (f x0).2, phi` -> `jac := 2 \u2022 (f x0).2, phi`",
  "count": 1,
  "def": "startState"
 },
 {
  "id": "u107",
  "file": "SparseRoot",
  "old": "phi := merit (f x0).1, nit := 0",
  "new": "phi := 0, nit := 0",
  "claim": "C51 start merit",
  "edit": "`phi := merit (f x0).1, nit := 0` -> `phi := 0, nit := 0`",
  "count": 1,
  "def": "startState"
 },
 {
  "id": "u108",
  "file": "SparseRoot",
  "old": "finishProposal s.res s.jac (solveOrGradient lin s.jac s.res)",
  "new": "finishProposal s.res s.jac (solveOrGradient lin s.jac (-s.res))",
  "claim": "C51 Newton direction",
  "edit": "`finishProposal s.res s.jac (solveOrGradient lin s.jac s.res)` -> `finishProposal s.res s.jac (solveOrGradient lin s.jac (-s.res))`",
  "count": 1,
  "def": "newtonDirection"
 },
 {
  "id": "u109",
  "file": "SparseRoot",
  "old": "reset := fun _ => cfg.delta0",
  "new": "reset := fun _ => 0",
  "claim": "C52 radius",
  "edit": "`reset := fun _ => cfg.delta0` -> `reset := fun _ => 0`",
  "count": 2,
  "def": "gaussNewtonSolver",
  "nth": 1
 },
 {
  "id": "u110",
  "file": "SparseRoot",
  "old": "(cfg.maxReject - 1) delta",
  "new": "cfg.maxReject delta",
  "claim": "C52 rejections",
  "edit": "`(cfg.maxReject - 1) delta` -> `cfg.maxReject delta`",
  "count": 2,
  "def": "gaussNewtonSolver",
  "nth": 1
 },
 {
  "id": "u111",
  "file": "SparseRoot",
  "old": "(steihaug (s.jac\u1d40 * s.jac) (s.jac\u1d40 *\u1d65 s.res)) f s",
  "new": "(steihaug (s.jac\u1d40 * s.jac) (-(s.jac\u1d40 *\u1d65 s.res))) f s",
  "claim": "C52 direction",
  "edit": "`(steihaug (s.jac\u1d40 * s.jac) (s.jac\u1d40 *\u1d65 s.res)) f s` -> `(steihaug (s.jac\u1d40 * s.jac) (-(s.jac\u1d40 *\u1d65 s.res))) f s`",
  "count": 1,
  "def": "gaussNewtonSolver"
 },
 {
  "id": "u112",
  "file": "SparseRoot",
  "old": "\u221a(v \u2b1d\u1d65 v)",
  "new": "v \u2b1d\u1d65 v",
  "claim": "C51 norm",
  "edit": "`\u221a(v \u2b1d\u1d65 v)` -> `v \u2b1d\u1d65 v`",
  "count": 1,
  "def": "norm2"
 },
 {
  "id": "u113",
  "file": "StateSpace",
  "old": "if a = i \u2227 b = j then v else M a b",
  "new": "if a = j \u2227 b = i then v else M a b",
  "claim": "C76 matrices",
  "edit": "`if a = i \u2227 b = j then v else M a b` -> `if a = j \u2227 b = i then v else M a b`",
  "count": 1,
  "def": "setAt"
 },
 {
  "id": "u114",
  "file": "StateSpace",
  "old": "then M a b + v else M a b",
  "new": "then v else M a b",
  "claim": "C76 matrices",
  "edit": "`then M a b + v else M a b` -> `then v else M a b`",
  "count": 1,
  "def": "incAt"
 },
 {
  "id": "u115",
  "file": "StateSpace",
  "old": "((dget c.agg name).map Agg.cumulates).getD false",
  "new": "((dget c.agg name).map Agg.cumulates).getD true",
  "claim": "C76 aggregation",
  "edit": "`((dget c.agg name).map Agg.cumulates).getD false` -> `((dget c.agg name).map Agg.cumulates).getD true`",
  "count": 1,
  "def": "cumulates"
 },
 {
  "id": "u116",
  "file": "StateSpace",
  "old": "c.vars.length + c.nCum + c.nObsLag",
  "new": "c.vars.length + c.nCum",
  "claim": "C76 states",
  "edit": "`c.vars.length + c.nCum + c.nObsLag` -> `c.vars.length + c.nCum`",
  "count": 1,
  "def": "kAug"
 },
 {
  "id": "u117",
  "file": "StateSpace",
  "old": "NMat.block kPrev kPrev Taug NMat.zeros FC.1 FC.2",
  "new": "NMat.block kPrev kPrev Taug NMat.zeros FC.2 FC.1",
  "claim": "C76 lags",
  "edit": "`NMat.block kPrev kPrev Taug NMat.zeros FC.1 FC.2` -> `NMat.block kPrev kPrev Taug NMat.zeros FC.2 FC.1`",
  "count": 1,
  "def": "appendLags"
 },
 {
  "id": "u118",
  "file": "StateSpace",
  "old": "c.appendLags (c.augTransition T)",
  "new": "c.appendLags T",
  "claim": "C76 cumulators",
  "edit": "`c.appendLags (c.augTransition T)` -> `c.appendLags T`",
  "count": 1,
  "def": "transition"
 },
 {
  "id": "u119",
  "file": "StateSpace",
  "old": "if bad = [] then .ok () else .error (e bad)",
  "new": ".ok ()",
  "claim": "C78 refused",
  "edit": "`if bad = [] then .ok () else .error (e bad)` -> `.ok ()`",
  "count": 1,
  "def": "refuse"
 },
 {
  "id": "u120",
  "file": "StateSpace",
  "old": "if b then .error e else .ok ()",
  "new": ".ok ()",
  "claim": "C78 refused",
  "edit": "`if b then .error e else .ok ()` -> `.ok ()`",
  "count": 1,
  "def": "refuseIf"
 },
 {
  "id": "u121",
  "file": "StateSpace",
  "old": "fun s => sigma s ^ 2",
  "new": "fun s => sigma s",
  "claim": "C76 covariance",
  "edit": "`fun s => sigma s ^ 2` -> `fun s => sigma s`",
  "count": 2,
  "def": "stateCov",
  "nth": 1
 },
 {
  "id": "u122",
  "file": "StateSpace",
  "old": "(dget d s).getD (.sym s)",
  "new": "(dget d s).getD (.num 0)",
  "claim": "C77 replacement",
  "edit": "`(dget d s).getD (.sym s)` -> `(dget d s).getD (.num 0)`",
  "count": 1,
  "def": "xreplace"
 },
 {
  "id": "u123",
  "file": "StateSpace",
  "old": "M i k * N k j",
  "new": "M i k * N j k",
  "claim": "C80 products",
  "edit": "`M i k * N k j` -> `M i k * N j k`",
  "count": 1,
  "def": "NMat.dot"
 },
 {
  "id": "u124",
  "file": "StateSpace",
  "old": "fun i j => M i (p j)",
  "new": "fun i j => M (p i) j",
  "claim": "C80 order",
  "edit": "`fun i j => M i (p j)` -> `fun i j => M (p i) j`",
  "count": 1,
  "def": "NMat.cols"
 },
 {
  "id": "u125",
  "file": "StateSpace",
  "old": "{ o with stateNames := r.cfg.stateNames }",
  "new": "o",
  "claim": "C78 state names",
  "edit": "`{ o with stateNames := r.cfg.stateNames }` -> `o`",
  "count": 1,
  "def": "Configured.obj"
 },
 {
  "id": "u126",
  "file": "Tensor",
  "old": "x.shape.set a (xs.map fun y => y.shape.getD a 0).sum",
  "new": "x.shape.set a (x.shape.getD a 0)",
  "claim": "C100 join",
  "edit": "`x.shape.set a (xs.map fun y => y.shape.getD a 0).sum` -> `x.shape.set a (x.shape.getD a 0)`",
  "count": 1,
  "def": "tjoin"
 },
 {
  "id": "u127",
  "file": "Tensor",
  "old": "if b + 1 = n then n - 2 else if b + 2 = n then n - 1 else b",
  "new": "b",
  "claim": "C100 transpose",
  "edit": "`if b + 1 = n then n - 2 else if b + 2 = n then n - 1 else b` -> `b`",
  "count": 1,
  "def": "swapAxis"
 },
 {
  "id": "u128",
  "file": "Tensor",
  "old": "let off := ((sizes.take k).map Int.toNat).sum",
  "new": "let off := 0",
  "claim": "C100 split",
  "edit": "`let off := ((sizes.take k).map Int.toNat).sum` -> `let off := 0`",
  "count": 1,
  "def": "tsplit"
 },
 {
  "id": "u129",
  "file": "Tensor",
  "old": "(bdVal n xs))",
  "new": "(bdVal (n - 1) xs))",
  "claim": "C100 block diagonal",
  "edit": "`(bdVal n xs))` -> `(bdVal (n - 1) xs))`",
  "count": 1,
  "def": "tblockDiag"
 },
 {
  "id": "u130",
  "file": "Tensor",
  "old": "| .join _ xs => xs",
  "new": "| .join _ xs => xs.tail",
  "claim": "C100 join inputs",
  "edit": "`| .join _ xs => xs` -> `| .join _ xs => xs.tail`",
  "count": 1,
  "def": "joinInputs"
 },
 {
  "id": "u131",
  "file": "Tensor",
  "old": "b.flat ++ Blocks.flatL bs",
  "new": "Blocks.flatL bs",
  "claim": "C100 blocks",
  "edit": "`b.flat ++ Blocks.flatL bs` -> `Blocks.flatL bs`",
  "count": 1,
  "def": "Blocks.flat"
 },
 {
  "id": "u132",
  "file": "Time",
  "old": "[(['r','e','a','l'], true), (['f','i','n','i','t','e'], true)]",
  "new": "[(['r','e','a','l'], true)]",
  "claim": "C02 defaults",
  "edit": "`[(['r','e','a','l'], true), (['f','i','n','i','t','e'], true)]` -> `[(['r','e','a','l'], true)]`",
  "count": 1,
  "def": "defaultAssumptions"
 },
 {
  "id": "u133",
  "file": "Time",
  "old": "dupdate defaultAssumptions (user.getD [])",
  "new": "dupdate (user.getD []) defaultAssumptions",
  "claim": "C02 user wins",
  "edit": "`dupdate defaultAssumptions (user.getD [])` -> `dupdate (user.getD []) defaultAssumptions`",
  "count": 1,
  "def": "mergeAssumptions"
 },
 {
  "id": "u134",
  "file": "Time",
  "old": "replacePM (createName s)",
  "new": "createName s",
  "claim": "C01 safe names",
  "edit": "`replacePM (createName s)` -> `createName s`",
  "count": 1,
  "def": "safeName"
 },
 {
  "id": "u135",
  "file": "ToDistribution",
  "old": "m.toMdl.blocks [] []",
  "new": "m.toMdl.blocks.tail [] []",
  "claim": "C123 every block",
  "edit": "`m.toMdl.blocks [] []` -> `m.toMdl.blocks.tail [] []`",
  "count": 1,
  "def": "LoadGcnDists"
 },
 {
  "id": "u136",
  "file": "Validate",
  "old": "b.calibration.filterMap Calib.definedParam",
  "new": "(b.calibration.filterMap Calib.definedParam).take 1",
  "claim": "C18 calibrated",
  "edit": "`b.calibration.filterMap Calib.definedParam` -> `(b.calibration.filterMap Calib.definedParam).take 1`",
  "count": 3,
  "def": "calibratedParams",
  "nth": 2
 },
 {
  "id": "u137",
  "file": "ValidationText",
  "old": "'\\u2028', '\\u2029'",
  "new": "'\\u2028'",
  "claim": "C126 breaks",
  "edit": "`'\\u2028', '\\u2029'` -> `'\\u2028'`",
  "count": 1,
  "def": "isBreak"
 },
 {
  "id": "u138",
  "file": "ValidationText",
  "old": "isBreak c || c \u2208 ['\\t', ' ',",
  "new": "isBreak c || c \u2208 ['\\t',",
  "claim": "C126 blanks",
  "edit": "`isBreak c || c \u2208 ['\\t', ' ',` -> `isBreak c || c \u2208 ['\\t',`",
  "count": 1,
  "def": "isSpace"
 }
]