[
{
"id": "q000",
"file": "Validate",
"old": "((dget d p.1).getD [] ++ [p.2])",
"new": "[p.2]",
"claim": "duplicate parameter across blocks reported",
"edit": "`((dget d p.1).getD [] ++ [p.2])` -> `[p.2]`",
"count": 1,
"def": "paramDefinitions"
},
{
"id": "q001",
"file": "Validate",
"old": "| .var n _ => some n | _ => none",
"new": "| .var n (.t 0) => some n | _ => none",
"claim": "variable defined at another date is defined",
"edit": "`| .var n _ => some n | _ => none` -> `| .var n (.t 0) => some n | _ => none`",
"count": 1,
"def": "Eqn.definedVar"
},
{
"id": "q002",
"file": "Validate",
"old": "(sortedMissing (usedVars m) (definedVars m) ext)",
"new": "(sortedMissing (usedVars m) ext (definedVars m))",
"claim": "(probably equivalent)",
"edit": "`(sortedMissing (usedVars m) (definedVars m) ext)` -> `(sortedMissing (usedVars m) ext (definedVars m))`",
"count": 1,
"def": "checkUndefinedVars"
},
{
"id": "q003",
"file": "Validate",
"old": "(sortedMissing (usedVars m) (definedVars m) ext)",
"new": "(sortedMissing (definedVars m) (usedVars m) ext)",
"claim": "undefined variables",
"edit": "`(sortedMissing (usedVars m) (definedVars m) ext)` -> `(sortedMissing (definedVars m) (usedVars m) ext)`",
"count": 1,
"def": "checkUndefinedVars"
},
{
"id": "q004",
"file": "Validate",
"old": "(sortedMissing (usedParams m) (calibratedParams m) ext).map .undefParam",
"new": "(sortedMissing (usedParams m) (calibratedParams m) []).map .undefParam",
"claim": "external parameters accepted",
"edit": "`(sortedMissing (usedParams m) (calibratedParams m) ext).map .undefParam` -> `(sortedMissing (usedParams m) (calibratedParams m) []).map .undefParam`",
"count": 1,
"def": "checkUndefinedParams"
},
{
"id": "q005",
"file": "Validate",
"old": "validateModel m ++ checkUndefinedVars m extV ++ checkUndefinedParams m extP",
"new": "validateModel m ++ checkUndefinedVars m extP ++ checkUndefinedParams m extV",
"claim": "external lists swapped",
"edit": "`validateModel m ++ checkUndefinedVars m extV ++ checkUndefinedParams m extP` -> `validateModel m ++ checkUndefinedVars m extP ++ checkUndefinedParams m extV`",
"count": 1,
"def": "fullValidation"
},
{
"id": "q006",
"file": "Validate",
"old": "validateModel m ++ checkUndefinedVars m extV ++ checkUndefinedParams m extP",
"new": "validateModel m ++ checkUndefinedVars m extV",
"claim": "undefined parameters reported",
"edit": "`validateModel m ++ checkUndefinedVars m extV ++ checkUndefinedParams m extP` -> `validateModel m ++ checkUndefinedVars m extV`",
"count": 1,
"def": "fullValidation"
},
{
"id": "q007",
"file": "Validate",
"old": "es.any VErr.isError",
"new": "es.all VErr.isError",
"claim": "has_errors",
"edit": "`es.any VErr.isError` -> `es.all VErr.isError`",
"count": 1,
"def": "hasErrors"
},
{
"id": "q008",
"file": "ToSympy",
"old": "\u27e8.sym (.par (c :: p)), l.sub r\u27e9",
"new": "\u27e8.sym (.par (c :: p)), r.sub l\u27e9",
"claim": "sign of the calibrating equation (residual)",
"edit": "`\u27e8.sym (.par (c :: p)), l.sub r\u27e9` -> `\u27e8.sym (.par (c :: p)), r.sub l\u27e9`",
"count": 1,
"def": "equationToSympyMeta"
},
{
"id": "q009",
"file": "ToSympy",
"old": "| _ => .ok \u27e8l, r\u27e9",
"new": "| _ => .ok \u27e8r, l\u27e9",
"claim": "sides of an equation",
"edit": "`| _ => .ok \u27e8l, r\u27e9` -> `| _ => .ok \u27e8r, l\u27e9`",
"count": 2,
"def": "equationToSympyMeta",
"nth": 1
},
{
"id": "q010",
"file": "ToSympy",
"old": "| .ok as' => .ok (a' :: as')",
"new": "| .ok as' => .ok (as' ++ [a'])",
"claim": "order of arguments",
"edit": "`| .ok as' => .ok (a' :: as')` -> `| .ok as' => .ok (as' ++ [a'])`",
"count": 1,
"def": "toSympyArgs"
},
{
"id": "q011",
"file": "Block",
"old": "| .ok (d, st') => .ok (some d, st')",
"new": "| .ok (d, st') => .ok (some d, st)",
"claim": "equation numbers unique",
"edit": "`| .ok (d, st') => .ok (some d, st')` -> `| .ok (d, st') => .ok (some d, st)`",
"count": 1,
"def": "convertComponent"
},
{
"id": "q012",
"file": "Block",
"old": "{ eqNum := st.eqNum + 1\n        flags := dset st.flags st.eqNum (match a with",
"new": "{ eqNum := st.eqNum\n        flags := dset st.flags st.eqNum (match a with",
"claim": "numbers of calibration equations",
"edit": "`{ eqNum := st.eqNum + 1\n        flags := dset st.flags st.eqNum (match a with` -> `{ eqNum := st.eqNum\n        flags := dset st.flags st.eqNum (match a with`",
"count": 1,
"def": "numberCalib"
},
{
"id": "q013",
"file": "Block",
"old": "(dset acc st.eqNum s)",
"new": "(dset acc (st.eqNum + 1) s)",
"claim": "numbers of calibration equations",
"edit": "`(dset acc st.eqNum s)` -> `(dset acc (st.eqNum + 1) s)`",
"count": 2,
"def": "numberCalib",
"nth": 1
},
{
"id": "q014",
"file": "Block",
"old": "some (vs.map fun v => convVar asm v.name v.t)",
"new": "some (vs.map fun v => convVar asm v.name (.t 0))",
"claim": "date of controls",
"edit": "`some (vs.map fun v => convVar asm v.name v.t)` -> `some (vs.map fun v => convVar asm v.name (.t 0))`",
"count": 1,
"def": "convertVars"
},
{
"id": "q015",
"file": "Block",
"old": "some (vs.map fun v => convVar asm v.name v.t)",
"new": "some (vs.map fun v => convVar [] v.name v.t)",
"claim": "assumptions of the controls",
"edit": "`some (vs.map fun v => convVar asm v.name v.t)` -> `some (vs.map fun v => convVar [] v.name v.t)`",
"count": 1,
"def": "convertVars"
},
{
"id": "q016",
"file": "Block",
"old": "| .sym s => dset d s e.rhs",
"new": "| .sym s => dset d s e.lhs",
"claim": "definition rhs",
"edit": "`| .sym s => dset d s e.rhs` -> `| .sym s => dset d s e.lhs`",
"count": 1,
"def": "defDict"
},
{
"id": "q017",
"file": "Block",
"old": "if r.duplicates.isEmpty then .ok r else .error (.duplicateParameter r.duplicates)",
"new": ".ok r",
"claim": "duplicate parameters refused",
"edit": "`if r.duplicates.isEmpty then .ok r else .error (.duplicateParameter r.duplicates)` -> `.ok r`",
"count": 1,
"def": "paramDicts"
},
{
"id": "q018",
"file": "Block",
"old": "(splitUnderscore name).mapM List.head?",
"new": "(splitUnderscore name).mapM List.getLast?",
"claim": "multiplier name",
"edit": "`(splitUnderscore name).mapM List.head?` -> `(splitUnderscore name).mapM List.getLast?`",
"count": 1,
"def": "shortName"
},
{
"id": "q019",
"file": "Block",
"old": "if c = '_' then [] :: w :: ws",
"new": "if c = '_' then w :: ws",
"claim": "multiplier name",
"edit": "`if c = '_' then [] :: w :: ws` -> `if c = '_' then w :: ws`",
"count": 1,
"def": "splitUnderscore"
},
{
"id": "q020",
"file": "Block",
"old": "lagrangianSubs es (dupdate acc d)",
"new": "lagrangianSubs es (dupdate d acc)",
"claim": "definitions: last wins",
"edit": "`lagrangianSubs es (dupdate acc d)` -> `lagrangianSubs es (dupdate d acc)`",
"count": 1,
"def": "lagrangianSubs"
},
{
"id": "q021",
"file": "Block",
"old": "| .add a b => a.summands ++ b.summands\n",
"new": "| .add a b => a.summands ++ [b]\n",
"claim": "summands",
"edit": "`| .add a b => a.summands ++ b.summands\n` -> `| .add a b => a.summands ++ [b]\n`",
"count": 1,
"def": "summands"
},
{
"id": "q022",
"file": "Block",
"old": "| .sym (.tv y) => .sym (.tv { y with idx := i })",
"new": "| .sym (.tv y) => .sym (.tv y)",
"claim": "date",
"edit": "`| .sym (.tv y) => .sym (.tv { y with idx := i })` -> `| .sym (.tv y) => .sym (.tv y)`",
"count": 1,
"def": "SExpr.setDate"
},
{
"id": "q023",
"file": "Block",
"old": "(d.getD []).map Prod.snd",
"new": "((d.getD []).map Prod.snd).reverse",
"claim": "order of equations",
"edit": "`(d.getD []).map Prod.snd` -> `((d.getD []).map Prod.snd).reverse`",
"count": 1,
"def": "dvals"
},
{
"id": "q024",
"file": "Block",
"old": "e.syms.isEmpty",
"new": "e.tsyms.isEmpty",
"claim": "parameter with a parameter rhs is deterministic",
"edit": "`e.syms.isEmpty` -> `e.tsyms.isEmpty`",
"count": 1,
"def": "SExpr.isNumber"
},
{
"id": "q025",
"file": "Build",
"old": "p.2.names.map Prod.snd",
"new": "p.2.names.map Prod.fst",
"claim": "hyper-parameters",
"edit": "`p.2.names.map Prod.snd` -> `p.2.names.map Prod.fst`",
"count": 1,
"def": "hyperNames"
},
{
"id": "q026",
"file": "Build",
"old": "(hyperStep param) (param, [])",
"new": "(hyperStep []) (param, [])",
"claim": "hyper-parameters moved",
"edit": "`(hyperStep param) (param, [])` -> `(hyperStep []) (param, [])`",
"count": 1,
"def": "splitOutHyper"
},
{
"id": "q027",
"file": "Build",
"old": ".sub (.sym p.1) p.2",
"new": ".sub p.2 (.sym p.1)",
"claim": "sign of ss relations",
"edit": "`.sub (.sym p.1) p.2` -> `.sub p.2 (.sym p.1)`",
"count": 1,
"def": "ssRelations"
},
{
"id": "q028",
"file": "Build",
"old": ".sub (.sym p.1) p.2",
"new": ".add (.sym p.1) p.2",
"claim": "ss relations",
"edit": "`.sub (.sym p.1) p.2` -> `.add (.sym p.1) p.2`",
"count": 1,
"def": "ssRelations"
},
{
"id": "q029",
"file": "Build",
"old": "| .inl _ => none | .inr n => some n",
"new": "| .inl _ => none | .inr _ => some d.param",
"claim": "names of hyper parameters",
"edit": "`| .inl _ => none | .inr n => some n` -> `| .inl _ => none | .inr _ => some d.param`",
"count": 1,
"def": "distParamNames"
},
{
"id": "q030",
"file": "Build",
"old": "(.par p.1, p.2)",
"new": "(.par (p.1 ++ p.1), p.2)",
"claim": "keys",
"edit": "`(.par p.1, p.2)` -> `(.par (p.1 ++ p.1), p.2)`",
"count": 1,
"def": "symKeys"
},
{
"id": "q031",
"file": "Cache",
"old": "| .linearize fl => let r := linearizeFunction vars build compile s fl; (.linearize r.1, r.2)",
"new": "| .linearize fl => let r := linearizeFunction vars build compile s fl; (.linearize r.1, s)",
"claim": "state kept after linearize",
"edit": "`| .linearize fl => let r := linearizeFunction vars build compile s fl; (.linearize r.1, r.2)` -> `| .linearize fl => let r := linearizeFunction vars build compile s fl; (.linearize r.1, s)`",
"count": 1,
"def": "modelStep"
},
{
"id": "q032",
"file": "Cache",
"old": "| .equations b => let r := equationTensors buildEqs s b",
"new": "| .equations b => let r := equationTensors buildEqs s true",
"claim": "simplify flag",
"edit": "`| .equations b => let r := equationTensors buildEqs s b` -> `| .equations b => let r := equationTensors buildEqs s true`",
"count": 1,
"def": "modelStep"
},
{
"id": "q033",
"file": "ClosedForm",
"old": "| some y => some (y, a)",
"new": "| some y => some (y, b)",
"claim": "output and bundle",
"edit": "`| some y => some (y, a)` -> `| some y => some (y, b)`",
"count": 1,
"def": "splitResidual"
},
{
"id": "q034",
"file": "ClosedForm",
"old": "(matchCDResidual R idx (e.rhs.sub e.lhs)).orElse fun _ => matchCDResidual R idx (e.lhs.sub e.rhs)",
"new": "(matchCDResidual R idx (e.rhs.sub e.lhs)).orElse fun _ => matchCDResidual R idx (e.lhs.add e.rhs)",
"claim": "CD detection of the other side",
"edit": "`(matchCDResidual R idx (e.rhs.sub e.lhs)).orElse fun _ => matchCDResidual R idx (e.lhs.sub e.rhs)` -> `(matchCDResidual R idx (e.rhs.sub e.lhs)).orElse fun _ => matchCDResidual R idx (e.lhs.add e.rhs)`",
"count": 1,
"def": "matchCD"
},
{
"id": "q035",
"file": "ClosedForm",
"old": "(matchCDResidual R idx (e.rhs.sub e.lhs)).orElse fun _ => matchCDResidual R idx (e.lhs.sub e.rhs)",
"new": "matchCDResidual R idx (e.rhs.sub e.lhs)",
"claim": "CD detection of the other side",
"edit": "`(matchCDResidual R idx (e.rhs.sub e.lhs)).orElse fun _ => matchCDResidual R idx (e.lhs.sub e.rhs)` -> `matchCDResidual R idx (e.rhs.sub e.lhs)`",
"count": 1,
"def": "matchCD"
},
{
"id": "q036",
"file": "ClosedForm",
"old": "match A with\n    | some _ => none\n    | none => cesOuterLoop fs (some s) p",
"new": "cesOuterLoop fs (some s) p",
"claim": "two productivities refused",
"edit": "`match A with\n    | some _ => none\n    | none => cesOuterLoop fs (some s) p` -> `cesOuterLoop fs (some s) p`",
"count": 1,
"def": "cesOuterLoop"
},
{
"id": "q037",
"file": "ClosedForm",
"old": "| .add x y, none => cesOuterLoop fs A (some (.add x y, e))\n    | _, _ => none",
"new": "| .add x y, _ => cesOuterLoop fs A (some (.add x y, e))\n    | _, _ => none",
"claim": "two aggregates refused",
"edit": "`| .add x y, none => cesOuterLoop fs A (some (.add x y, e))\n    | _, _ => none` -> `| .add x y, _ => cesOuterLoop fs A (some (.add x y, e))\n    | _, _ => none`",
"count": 1,
"def": "cesOuterLoop"
},
{
"id": "q038",
"file": "ClosedForm",
"old": "cesTermLoop R s fs x (sh ++ [.pow b e])",
"new": "cesTermLoop R s fs x sh",
"claim": "share lost",
"edit": "`cesTermLoop R s fs x (sh ++ [.pow b e])` -> `cesTermLoop R s fs x sh`",
"count": 1,
"def": "cesTermLoop"
},
{
"id": "q039",
"file": "ClosedForm",
"old": "| f :: fs, x, sh => cesTermLoop R s fs x (sh ++ [f])",
"new": "| _ :: fs, x, sh => cesTermLoop R s fs x sh",
"claim": "share lost",
"edit": "`| f :: fs, x, sh => cesTermLoop R s fs x (sh ++ [f])` -> `| _ :: fs, x, sh => cesTermLoop R s fs x sh`",
"count": 1,
"def": "cesTermLoop"
},
{
"id": "q040",
"file": "ClosedForm",
"old": "if R.isZero (e.sub s) then",
"new": "if R.isZero (e.add s) then",
"claim": "exponent of the input",
"edit": "`if R.isZero (e.sub s) then` -> `if R.isZero (e.add s) then`",
"count": 1,
"def": "cesTermLoop"
},
{
"id": "q041",
"file": "ClosedForm",
"old": "| f :: fs => .mul f (mulAll fs)",
"new": "| f :: fs => .add f (mulAll fs)",
"claim": "share product",
"edit": "`| f :: fs => .mul f (mulAll fs)` -> `| f :: fs => .add f (mulAll fs)`",
"count": 1,
"def": "mulAll"
},
{
"id": "q042",
"file": "ClosedForm",
"old": "if (Y :: (A.toList ++ ins.map Prod.fst)).Nodup then some",
"new": "if (A.toList ++ ins.map Prod.fst).Nodup then some",
"claim": "distinct symbols",
"edit": "`if (Y :: (A.toList ++ ins.map Prod.fst)).Nodup then some` -> `if (A.toList ++ ins.map Prod.fst).Nodup then some`",
"count": 2,
"def": "matchCESResidual",
"nth": 1
},
{
"id": "q043",
"file": "ClosedForm",
"old": "if B.objective.isNone then .generic\n  else",
"new": "",
"claim": "no objective: generic",
"edit": "`if B.objective.isNone then .generic\n  else` -> ``",
"count": 1,
"def": "dispatchKind"
},
{
"id": "q044",
"file": "ClosedForm",
"old": "| some m => .ces m\n    | none =>",
"new": "| some _ => .generic\n    | none =>",
"claim": "CES dispatched",
"edit": "`| some m => .ces m\n    | none =>` -> `| some _ => .generic\n    | none =>`",
"count": 1,
"def": "dispatchKind"
},
{
"id": "q045",
"file": "ClosedForm",
"old": "| some none => .error .runtimeError",
"new": "| some none => .error .keyError",
"claim": "missing multiplier name",
"edit": "`| some none => .error .runtimeError` -> `| some none => .error .keyError`",
"count": 1,
"def": "closedMultiplier"
},
{
"id": "q046",
"file": "Containers",
"old": "if c = '_' then (some [], last)",
"new": "if c = '_' then (none, last)",
"claim": "name split",
"edit": "`if c = '_' then (some [], last)` -> `if c = '_' then (none, last)`",
"count": 1,
"def": "rsplit"
},
{
"id": "q047",
"file": "Containers",
"old": ".par s ((dget asm s).getD [])",
"new": ".par s []",
"claim": "assumptions of parameters",
"edit": "`.par s ((dget asm s).getD [])` -> `.par s []`",
"count": 1,
"def": "safeStringToSympy"
},
{
"id": "q048",
"file": "Containers",
"old": "asm := (dget asm name).getD []",
"new": "asm := (dget asm s).getD []",
"claim": "assumptions of variables",
"edit": "`asm := (dget asm name).getD []` -> `asm := (dget asm s).getD []`",
"count": 1,
"def": "safeStringToSympy"
},
{
"id": "q049",
"file": "Containers",
"old": "| none => .par s",
"new": "| none => .par last",
"claim": "parameter with underscore",
"edit": "`| none => .par s` -> `| none => .par last`",
"count": 1,
"def": "safeStringToSympy"
},
{
"id": "q050",
"file": "Containers",
"old": "dupdate [] (d.map fun p => (.str (symbolToString p.1), p.2))",
"new": "d.map fun p => (.str (symbolToString p.1), p.2)",
"claim": "clashing keys",
"edit": "`dupdate [] (d.map fun p => (.str (symbolToString p.1), p.2))` -> `d.map fun p => (.str (symbolToString p.1), p.2)`",
"count": 1,
"def": "sympyKeysToStrings"
},
{
"id": "q051",
"file": "Containers",
"old": "dupdate [] (d.map fun p => (keyToSympy m p.1, p.2))",
"new": "(dupdate [] (d.map fun p => (keyToSympy m p.1, p.2))).reverse",
"claim": "order kept",
"edit": "`dupdate [] (d.map fun p => (keyToSympy m p.1, p.2))` -> `(dupdate [] (d.map fun p => (keyToSympy m p.1, p.2))).reverse`",
"count": 1,
"def": "stringKeysToSympy"
},
{
"id": "q052",
"file": "Containers",
"old": "asm := dupdate m.asm m'.asm",
"new": "asm := m.asm",
"claim": "metadata merged",
"edit": "`asm := dupdate m.asm m'.asm` -> `asm := m.asm`",
"count": 1,
"def": "Meta.update"
},
{
"id": "q053",
"file": "Containers",
"old": "| p :: _ => if d.items.any (fun q => q.1.isSym \u2260 p.1.isSym) then .error .keyError else .ok d",
"new": "| _ :: _ => .ok d",
"claim": "mixed keys",
"edit": "`| p :: _ => if d.items.any (fun q => q.1.isSym \u2260 p.1.isSym) then .error .keyError else .ok d` -> `| _ :: _ => .ok d`",
"count": 1,
"def": "SDict.copy"
},
{
"id": "q054",
"file": "Containers",
"old": "dupdate d.items o",
"new": "dupdate o d.items",
"claim": "update",
"edit": "`dupdate d.items o` -> `dupdate o d.items`",
"count": 2,
"def": "SDict.updatePlain",
"nth": 1
},
{
"id": "q055",
"file": "Containers",
"old": "if d.isSympy then return (r, h) else SDict.toStrInplace h r",
"new": "return (r, h)",
"claim": "string dictionaries stay string",
"edit": "`if d.isSympy then return (r, h) else SDict.toStrInplace h r` -> `return (r, h)`",
"count": 1,
"def": "stepKeys"
},
{
"id": "q056",
"file": "Containers",
"old": "let (s, h) \u2190 SDict.toSympy h d\n  return SDict.cleanUpdate h d s",
"new": "let (s, h) \u2190 SDict.toStr h d\n  return SDict.cleanUpdate h d s",
"claim": "to_sympy",
"edit": "`let (s, h) \u2190 SDict.toSympy h d\n  return SDict.cleanUpdate h d s` -> `let (s, h) \u2190 SDict.toStr h d\n  return SDict.cleanUpdate h d s`",
"count": 1,
"def": "toSympyInplace"
},
{
"id": "q057",
"file": "Diagnostics",
"old": "if |M i j| < tol then 0 else M i j",
"new": "if tol < |M i j| then 0 else M i j",
"claim": "truncation",
"edit": "`if |M i j| < tol then 0 else M i j` -> `if tol < |M i j| then 0 else M i j`",
"count": 1,
"def": "truncTol"
},
{
"id": "q058",
"file": "Diagnostics",
"old": "tol \u2264 |T i j|",
"new": "tol < |T i j|",
"claim": "boundary of the state rule",
"edit": "`tol \u2264 |T i j|` -> `tol < |T i j|`",
"count": 1,
"def": "IsState"
},
{
"id": "q059",
"file": "Diagnostics",
"old": "1 / 100000000",
"new": "1 / 1000",
"claim": "default tol",
"edit": "`1 / 100000000` -> `1 / 1000`",
"count": 1,
"def": "bkTol"
},
{
"id": "q060",
"file": "Diagnostics",
"old": "| '_' :: _ => true",
"new": "| '_' :: '_' :: _ => true",
"claim": "renamed columns",
"edit": "`| '_' :: _ => true` -> `| '_' :: '_' :: _ => true`",
"count": 1,
"def": "startsUnderscore"
},
{
"id": "q061",
"file": "Diagnostics",
"old": "\"Index\".toList",
"new": "\"index\".toList",
"claim": "renamed columns",
"edit": "`\"Index\".toList` -> `\"index\".toList`",
"count": 1,
"def": "indexName"
},
{
"id": "q062",
"file": "Diagnostics",
"old": "us.mapM check",
"new": "us.reverse.mapM check",
"claim": "order of draws",
"edit": "`us.mapM check` -> `us.reverse.mapM check`",
"count": 1,
"def": "runSerial"
},
{
"id": "q063",
"file": "Dynare",
"old": "def pAddLvl : Nat := 40",
"new": "def pAddLvl : Nat := 50",
"claim": "precedences",
"edit": "`def pAddLvl : Nat := 40` -> `def pAddLvl : Nat := 50`",
"count": 1,
"def": "pAddLvl"
},
{
"id": "q064",
"file": "Dynare",
"old": "def pPowLvl : Nat := 60",
"new": "def pPowLvl : Nat := 50",
"claim": "precedences",
"edit": "`def pPowLvl : Nat := 60` -> `def pPowLvl : Nat := 50`",
"count": 1,
"def": "pPowLvl"
},
{
"id": "q065",
"file": "Dynare",
"old": "| .flt v => some v\n",
"new": "",
"claim": "float exponents",
"edit": "`| .flt v => some v\n` -> ``",
"count": 1,
"def": "litOf"
},
{
"id": "q066",
"file": "Dynare",
"old": "fs.length != 1",
"new": "fs.length == 1",
"claim": "parentheses of the denominator",
"edit": "`fs.length != 1` -> `fs.length == 1`",
"count": 1,
"def": "isLongMul"
},
{
"id": "q067",
"file": "Dynare",
"old": "| .add _ => true",
"new": "| .add _ => false",
"claim": "nested sums",
"edit": "`| .add _ => true` -> `| .add _ => false`",
"count": 1,
"def": "isSum"
},
{
"id": "q068",
"file": "Dynare",
"old": "powToks (precOf b) (toks b) (litOf e) (precOf e) (toks e)",
"new": "powToks (precOf e) (toks b) (litOf e) (precOf b) (toks e)",
"claim": "powers",
"edit": "`powToks (precOf b) (toks b) (litOf e) (precOf e) (toks e)` -> `powToks (precOf e) (toks b) (litOf e) (precOf b) (toks e)`",
"count": 2,
"def": "toks",
"nth": 0
},
{
"id": "q069",
"file": "Dynare",
"old": "let r := factors pAddLvl fs\n      .op .sub :: quotient ([.num (-c)] :: r.1) r.2",
"new": "let r := factors pAddLvl fs\n      quotient ([.num (-c)] :: r.1) r.2",
"claim": "sign",
"edit": "`let r := factors pAddLvl fs\n      .op .sub :: quotient ([.num (-c)] :: r.1) r.2` -> `let r := factors pAddLvl fs\n      quotient ([.num (-c)] :: r.1) r.2`",
"count": 1,
"def": "mulToks"
},
{
"id": "q070",
"file": "Dynare",
"old": "let r := factors pMulLvl fs\n      quotient ([.num c] :: r.1) r.2",
"new": "let r := factors pMulLvl fs\n      quotient r.1 r.2",
"claim": "float coefficient",
"edit": "`let r := factors pMulLvl fs\n      quotient ([.num c] :: r.1) r.2` -> `let r := factors pMulLvl fs\n      quotient r.1 r.2`",
"count": 1,
"def": "mulToks"
},
{
"id": "q071",
"file": "Dynare",
"old": "let k := if c = -1 then ([], []) else numFactor pAddLvl (-c)",
"new": "let k := numFactor pAddLvl c",
"claim": "sign of coefficient",
"edit": "`let k := if c = -1 then ([], []) else numFactor pAddLvl (-c)` -> `let k := numFactor pAddLvl c`",
"count": 1,
"def": "mulToks"
},
{
"id": "q072",
"file": "Dynare",
"old": "s.base ++ ssSuffix",
"new": "s.base",
"claim": "ss names",
"edit": "`s.base ++ ssSuffix` -> `s.base`",
"count": 2,
"def": "ssName",
"nth": 1
},
{
"id": "q073",
"file": "Dynare",
"old": "| .pow b e => tsyms b ++ tsyms e",
"new": "| .pow b _ => tsyms b",
"claim": "symbols",
"edit": "`| .pow b e => tsyms b ++ tsyms e` -> `| .pow b _ => tsyms b`",
"count": 1,
"def": "tsyms"
},
{
"id": "q074",
"file": "ErrorText",
"old": "((s.reverse).dropWhile isWs).reverse",
"new": "s.dropWhile isWs",
"claim": "rstrip",
"edit": "`((s.reverse).dropWhile isWs).reverse` -> `s.dropWhile isWs`",
"count": 1,
"def": "rstrip"
},
{
"id": "q075",
"file": "ErrorText",
"old": "\"||GCN||\"",
"new": "\"||\"",
"claim": "separator",
"edit": "`\"||GCN||\"` -> `\"||\"`",
"count": 1,
"def": "separator"
},
{
"id": "q076",
"file": "ErrorText",
"old": "  | [s] => [\"   = help: Did you mean '\".toList ++ s ++ \"'?\".toList]\n",
"new": "",
"claim": "single suggestion",
"edit": "`  | [s] => [\"   = help: Did you mean '\".toList ++ s ++ \"'?\".toList]\n` -> ``",
"count": 1,
"def": "helpRows"
},
{
"id": "q077",
"file": "ErrorText",
"old": "| .semantic => [\"message\", \"symbol_name\", \"location\"",
"new": "| .semantic => [\"message\", \"location\", \"symbol_name\"",
"claim": "arguments",
"edit": "`| .semantic => [\"message\", \"symbol_name\", \"location\"` -> `| .semantic => [\"message\", \"location\", \"symbol_name\"`",
"count": 1,
"def": "Cls.args"
},
{
"id": "q078",
"file": "ErrorText",
"old": "\"annotation\", \"notes\"]",
"new": "\"notes\"]",
"claim": "rebuild",
"edit": "`\"annotation\", \"notes\"]` -> `\"notes\"]`",
"count": 2,
"def": "rebuildArgs",
"nth": 1
},
{
"id": "q079",
"file": "ExpandTime",
"old": "x ++ ['_','_','l','a','g'] ++ natStr level",
"new": "x ++ ['_','_','l','a','g']",
"claim": "names of chain distinct",
"edit": "`x ++ ['_','_','l','a','g'] ++ natStr level` -> `x ++ ['_','_','l','a','g']`",
"count": 1,
"def": "makeLagName"
},
{
"id": "q080",
"file": "ExpandTime",
"old": "['_','_','l','e','a','d']",
"new": "['_','_','l','a','g']",
"claim": "lag and lead names distinct",
"edit": "`['_','_','l','e','a','d']` -> `['_','_','l','a','g']`",
"count": 1,
"def": "makeLeadName"
},
{
"id": "q081",
"file": "ExpandTime",
"old": "| .bin _ l r => collectExpr (collectExpr d l) r",
"new": "| .bin _ l _ => collectExpr d l",
"claim": "collect",
"edit": "`| .bin _ l r => collectExpr (collectExpr d l) r` -> `| .bin _ l _ => collectExpr d l`",
"count": 1,
"def": "collectExpr"
},
{
"id": "q082",
"file": "ExpandTime",
"old": "| .expect e => collectExpr d e",
"new": "| .expect _ => d",
"claim": "collect",
"edit": "`| .expect e => collectExpr d e` -> `| .expect _ => d`",
"count": 1,
"def": "collectExpr"
},
{
"id": "q083",
"file": "ExpandTime",
"old": "collectExpr (collectExpr d e.lhs) e.rhs",
"new": "collectExpr d e.rhs",
"claim": "collect lhs",
"edit": "`collectExpr (collectExpr d e.lhs) e.rhs` -> `collectExpr d e.rhs`",
"count": 1,
"def": "collectFromEquations"
},
{
"id": "q084",
"file": "ExpandTime",
"old": "| .neg e => .neg (replaceExpr d e)",
"new": "| .neg e => replaceExpr d e",
"claim": "replace",
"edit": "`| .neg e => .neg (replaceExpr d e)` -> `| .neg e => replaceExpr d e`",
"count": 1,
"def": "replaceExpr"
},
{
"id": "q085",
"file": "ExpandTime",
"old": "| .expect e => .expect (replaceExpr d e)",
"new": "| .expect e => replaceExpr d e",
"claim": "replace under expectations",
"edit": "`| .expect e => .expect (replaceExpr d e)` -> `| .expect e => replaceExpr d e`",
"count": 1,
"def": "replaceExpr"
},
{
"id": "q086",
"file": "ExpandTime",
"old": "List.range' 1 depth",
"new": "List.range' 1 (depth - 1)",
"claim": "chain length",
"edit": "`List.range' 1 depth` -> `List.range' 1 (depth - 1)`",
"count": 2,
"def": "createLagChain",
"nth": 0
},
{
"id": "q087",
"file": "ExpandTime",
"old": "if level = 1 then x else makeLeadName x (level - 1)",
"new": "if level = 1 then x else makeLeadName x level",
"claim": "lead chain",
"edit": "`if level = 1 then x else makeLeadName x (level - 1)` -> `if level = 1 then x else makeLeadName x level`",
"count": 1,
"def": "leadLink"
},
{
"id": "q088",
"file": "ExpandTime",
"old": "(.t 1)) }",
"new": "(.t (-1))) }",
"claim": "lead chain",
"edit": "`(.t 1)) }` -> `(.t (-1))) }`",
"count": 1,
"def": "leadLink"
},
{
"id": "q089",
"file": "Gensys",
"old": "decide (eu.1 = 1 \u2227 eu.2.1 = 1)",
"new": "decide (eu.1 = 1)",
"claim": "success flag",
"edit": "`decide (eu.1 = 1 \u2227 eu.2.1 = 1)` -> `decide (eu.1 = 1)`",
"count": 1,
"def": "gensysPerform"
},
{
"id": "q090",
"file": "Gensys",
"old": "(r.G1.submatrix Sum.inl Sum.inl, decide (r.eu.1 = 1 \u2227 r.eu.2.1 = 1))",
"new": "(r.G1.submatrix Sum.inl Sum.inl, decide (r.eu.1 = 1 \u2228 r.eu.2.1 = 1))",
"claim": "success flag",
"edit": "`(r.G1.submatrix Sum.inl Sum.inl, decide (r.eu.1 = 1 \u2227 r.eu.2.1 = 1))` -> `(r.G1.submatrix Sum.inl Sum.inl, decide (r.eu.1 = 1 \u2228 r.eu.2.1 = 1))`",
"count": 1,
"def": "gensysNumba"
},
{
"id": "q091",
"file": "Gensys",
"old": "tol < \u2211 i, |C i j|",
"new": "tol < \u2211 i, |C j i|",
"claim": "lead variables",
"edit": "`tol < \u2211 i, |C i j|` -> `tol < \u2211 i, |C j i|`",
"count": 2,
"def": "Lead",
"nth": 0
},
{
"id": "q092",
"file": "Grammar",
"old": "pNLoop f (.snoc c o' a) r",
"new": "pNLoop f c r",
"claim": "operands lost",
"edit": "`pNLoop f (.snoc c o' a) r` -> `pNLoop f c r`",
"count": 1,
"def": "pNLoop"
},
{
"id": "q093",
"file": "Grammar",
"old": "| .rpar :: r => some ([], r)",
"new": "| .rpar :: r => some ([], .rpar :: r)",
"claim": "wrapper arguments",
"edit": "`| .rpar :: r => some ([], r)` -> `| .rpar :: r => some ([], .rpar :: r)`",
"count": 2,
"def": "pWrapArgs",
"nth": 1
},
{
"id": "q094",
"file": "Grammar",
"old": "| .id n :: ts => (n :: (pWords ts).1, (pWords ts).2)",
"new": "| .id n :: ts => ([n], ts)",
"claim": "option of several words",
"edit": "`| .id n :: ts => (n :: (pWords ts).1, (pWords ts).2)` -> `| .id n :: ts => ([n], ts)`",
"count": 1,
"def": "pWords"
},
{
"id": "q095",
"file": "Grammar",
"old": "optVal v), r)",
"new": "optVal k), r)",
"claim": "option value",
"edit": "`optVal v), r)` -> `optVal k), r)`",
"count": 1,
"def": "pOption"
},
{
"id": "q096",
"file": "Grammar",
"old": "{ ss.foldl GFile.addSpecial {} with blocks := bs }",
"new": "{ ss.foldl GFile.addSpecial {} with blocks := bs.reverse }",
"claim": "block order",
"edit": "`{ ss.foldl GFile.addSpecial {} with blocks := bs }` -> `{ ss.foldl GFile.addSpecial {} with blocks := bs.reverse }`",
"count": 1,
"def": "pFile"
},
{
"id": "q097",
"file": "Grammar",
"old": ").map dictOf",
"new": ").map id",
"claim": "duplicate keyword",
"edit": "`).map dictOf` -> `).map id`",
"count": 1,
"def": "evalArgs"
},
{
"id": "q098",
"file": "Lexer",
"old": "some (m * tenPow e.1, e.2)",
"new": "some (m, e.2)",
"claim": "exponent",
"edit": "`some (m * tenPow e.1, e.2)` -> `some (m, e.2)`",
"count": 1,
"def": "lexNumber"
},
{
"id": "q099",
"file": "Lexer",
"old": "if numEnd e.2 then some",
"new": "if true then some",
"claim": "number end",
"edit": "`if numEnd e.2 then some` -> `if true then some`",
"count": 1,
"def": "lexNumber"
},
{
"id": "q100",
"file": "Lexer",
"old": "else ([], c :: cs)",
"new": "else ([], cs)",
"claim": "runs",
"edit": "`else ([], c :: cs)` -> `else ([], cs)`",
"count": 1,
"def": "takeRun"
},
{
"id": "q101",
"file": "LinearSolve",
"old": "x + jitter \u2022 (1 : Matrix \u03b9 \u03b9 \u211d)",
"new": "x - jitter \u2022 (1 : Matrix \u03b9 \u03b9 \u211d)",
"claim": "jitter sign",
"edit": "`x + jitter \u2022 (1 : Matrix \u03b9 \u03b9 \u211d)` -> `x - jitter \u2022 (1 : Matrix \u03b9 \u03b9 \u211d)`",
"count": 1,
"def": "stabilize"
},
{
"id": "q102",
"file": "LinearSolve",
"old": "\u2211 i, |M i j|",
"new": "\u2211 i, M i j",
"claim": "norm",
"edit": "`\u2211 i, |M i j|` -> `\u2211 i, M i j`",
"count": 1,
"def": "norm1"
},
{
"id": "q103",
"file": "LinearSolve",
"old": "(-Y, k)",
"new": "(Y, k)",
"claim": "sign",
"edit": "`(-Y, k)` -> `(Y, k)`",
"count": 1,
"def": "scanCycleReduction"
},
{
"id": "q104",
"file": "LinearSolve",
"old": "1000000000 0 with",
"new": "1000000000 1 with",
"claim": "step count",
"edit": "`1000000000 0 with` -> `1000000000 1 with`",
"count": 1,
"def": "scanCycleReduction"
},
{
"id": "q105",
"file": "LinearSolve",
"old": "solveBackwardShockMatrix B D with",
"new": "solveBackwardShockMatrix A D with",
"claim": "shock matrix",
"edit": "`solveBackwardShockMatrix B D with` -> `solveBackwardShockMatrix A D with`",
"count": 1,
"def": "solveBackwardDirect"
},
{
"id": "q106",
"file": "Loader",
"old": "['S','S'], ",
"new": "",
"claim": "SS block name",
"edit": "`['S','S'], ` -> ``",
"count": 1,
"def": "isSSName"
},
{
"id": "q107",
"file": "Loader",
"old": "sortBy (fun a b => strLe a.1 b.1) (dupdate",
"new": "sortBy (fun a b => strLe b.1 a.1) (dupdate",
"claim": "parameter order",
"edit": "`sortBy (fun a b => strLe a.1 b.1) (dupdate` -> `sortBy (fun a b => strLe b.1 a.1) (dupdate`",
"count": 1,
"def": "sortToString"
},
{
"id": "q108",
"file": "Loader",
"old": "xs.eraseDups",
"new": "xs",
"claim": "duplicates",
"edit": "`xs.eraseDups` -> `xs`",
"count": 1,
"def": "sortByName"
},
{
"id": "q109",
"file": "Loader",
"old": "{ x with idx := .t 0 }",
"new": "x",
"claim": "date",
"edit": "`{ x with idx := .t 0 }` -> `x`",
"count": 1,
"def": "TSym.now"
},
{
"id": "q110",
"file": "Loader",
"old": "(flattenSubs (p :: d)).join",
"new": "some (p :: d)",
"claim": "flatten",
"edit": "`(flattenSubs (p :: d)).join` -> `some (p :: d)`",
"count": 1,
"def": "flattenOrEmpty"
},
{
"id": "q111",
"file": "Loader",
"old": ".ok (ds, is)",
"new": ".ok (is, ds)",
"claim": "definitions and identities",
"edit": "`.ok (ds, is)` -> `.ok (is, ds)`",
"count": 2,
"def": "ssEquations",
"nth": 0
},
{
"id": "q112",
"file": "Loader",
"old": "| .tv s => some (s, p.2)",
"new": "| .tv s => some (toSS s, p.2)",
"claim": "(maybe) symbols",
"edit": "`| .tv s => some (s, p.2)` -> `| .tv s => some (toSS s, p.2)`",
"count": 1,
"def": "ssSymbols"
},
{
"id": "q113",
"file": "Loader",
"old": "| some s => dset sd i.param s | none => sd",
"new": "| some s => if (dget sd i.param).isSome then sd else dset sd i.param s | none => sd",
"claim": "last distribution wins",
"edit": "`| some s => dset sd i.param s | none => sd` -> `| some s => if (dget sd i.param).isSome then sd else dset sd i.param s | none => sd`",
"count": 1,
"def": "blockShockDists"
},
{
"id": "q114",
"file": "ParserMisc",
"old": "| _ => .error .typeError",
"new": "| _ => .ok 0",
"claim": "nested lists",
"edit": "`| _ => .error .typeError` -> `| _ => .ok 0`",
"count": 1,
"def": "NTree.toFloat"
},
{
"id": "q115",
"file": "ParserMisc",
"old": "| [_], _ => .error .indexError",
"new": "| [_], r => .ok r",
"claim": "dangling operator",
"edit": "`| [_], _ => .error .indexError` -> `| [_], r => .ok r`",
"count": 1,
"def": "foldOps"
},
{
"id": "q116",
"file": "ParserMisc",
"old": "| .list [x] => evalNumber x",
"new": "| .list [x] => .error .indexError",
"claim": "single list",
"edit": "`| .list [x] => evalNumber x` -> `| .list [x] => .error .indexError`",
"count": 1,
"def": "evalNumber"
},
{
"id": "q117",
"file": "ParserMisc",
"old": "if p = o then ((f, []), (splitChain o t rest).1 :: (splitChain o t rest).2)",
"new": "if p = o then ((t, []), (splitChain o f rest).1 :: (splitChain o f rest).2)",
"claim": "operand order",
"edit": "`if p = o then ((f, []), (splitChain o t rest).1 :: (splitChain o t rest).2)` -> `if p = o then ((t, []), (splitChain o f rest).1 :: (splitChain o f rest).2)`",
"count": 1,
"def": "splitChain"
},
{
"id": "q118",
"file": "ParserMisc",
"old": "[.str o.tok, buildLevels os p.1 p.2]",
"new": "[.str NOp.add.tok, buildLevels os p.1 p.2]",
"claim": "operator",
"edit": "`[.str o.tok, buildLevels os p.1 p.2]` -> `[.str NOp.add.tok, buildLevels os p.1 p.2]`",
"count": 1,
"def": "buildLevels"
},
{
"id": "q119",
"file": "ParserMisc",
"old": "true)]",
"new": "false)]",
"claim": "defaults",
"edit": "`true)]` -> `false)]`",
"count": 1,
"def": "parserDefaults"
},
{
"id": "q120",
"file": "PerfectForesight",
"old": "e.1 = i \u2227 e.2.1 = j",
"new": "e.1 = j \u2227 e.2.1 = i",
"claim": "transposed",
"edit": "`e.1 = i \u2227 e.2.1 = j` -> `e.1 = j \u2227 e.2.1 = i`",
"count": 1,
"def": "cooAt"
},
{
"id": "q121",
"file": "PerfectForesight",
"old": "if names.all fun n => (dget defaults n).isSome then",
"new": "if true then",
"claim": "missing parameter",
"edit": "`if names.all fun n => (dget defaults n).isSome then` -> `if true then`",
"count": 1,
"def": "paramMatrix"
},
{
"id": "q122",
"file": "PerfectForesight",
"old": "J r (lo + c) = 0",
"new": "J r c = 0",
"claim": "sparsity pattern",
"edit": "`J r (lo + c) = 0` -> `J r c = 0`",
"count": 1,
"def": "nonzeroIn"
},
{
"id": "q123",
"file": "PerfectForesight",
"old": "k.take (k.length - 3)",
"new": "k.take (k.length - 2)",
"claim": "suffix",
"edit": "`k.take (k.length - 3)` -> `k.take (k.length - 2)`",
"count": 1,
"def": "removeSuffixSS"
},
{
"id": "q124",
"file": "PerfectForesight",
"old": "dupdate [] (d.map fun p => (removeSuffixSS p.1, p.2))",
"new": "dupdate [] (d.map fun p => (p.1, p.2))",
"claim": "suffix",
"edit": "`dupdate [] (d.map fun p => (removeSuffixSS p.1, p.2))` -> `dupdate [] (d.map fun p => (p.1, p.2))`",
"count": 1,
"def": "normalizeConditions"
},
{
"id": "q125",
"file": "PerfectForesight",
"old": "y.set (names.idxOf p.1) p.2",
"new": "y.set 0 p.2",
"claim": "condition",
"edit": "`y.set (names.idxOf p.1) p.2` -> `y.set 0 p.2`",
"count": 1,
"def": "setCondition"
},
{
"id": "q126",
"file": "PerfectForesight",
"old": "(residuals, assembleEntries jacobians nVars nEq T)",
"new": "(residuals, assembleEntries jacobians nVars nEq (T - 1))",
"claim": "last period",
"edit": "`(residuals, assembleEntries jacobians nVars nEq T)` -> `(residuals, assembleEntries jacobians nVars nEq (T - 1))`",
"count": 1,
"def": "stackedSystem"
},
{
"id": "q127",
"file": "PerfectForesight",
"old": "| some p => p.2.2 r c | none => 0",
"new": "| some p => p.2.2 c r | none => 0",
"claim": "transposed jacobian",
"edit": "`| some p => p.2.2 r c | none => 0` -> `| some p => p.2.2 c r | none => 0`",
"count": 1,
"def": "stackedSystem"
},
{
"id": "q128",
"file": "PerfectForesight",
"old": "(t, f (periodArgs y yInit yTerm x params nVars T t))",
"new": "(t, f (periodArgs y yTerm yInit x params nVars T t))",
"claim": "init and terminal",
"edit": "`(t, f (periodArgs y yInit yTerm x params nVars T t))` -> `(t, f (periodArgs y yTerm yInit x params nVars T t))`",
"count": 1,
"def": "evaluatePeriods"
},
{
"id": "q129",
"file": "PFCompile",
"old": "p.eqs[r]?",
"new": "p.eqs[r + 1]?",
"claim": "residual row",
"edit": "`p.eqs[r]?` -> `p.eqs[r + 1]?`",
"count": 1,
"def": "PFParts.residual"
},
{
"id": "q130",
"file": "PFCompile",
"old": "c.jac[r]?",
"new": "c.jac[k]?",
"claim": "jacobian row",
"edit": "`c.jac[r]?` -> `c.jac[k]?`",
"count": 1,
"def": "PFCompiled.jacobian"
},
{
"id": "q131",
"file": "Perturbation",
"old": "(incStep ie.2 ie.1)",
"new": "(incStep (ie.2 + 1) ie.1)",
"claim": "incidence row",
"edit": "`(incStep ie.2 ie.1)` -> `(incStep (ie.2 + 1) ie.1)`",
"count": 1,
"def": "incidence"
},
{
"id": "q132",
"file": "Perturbation",
"old": "eqs.map fun e => wrt.map fun v => jacEntry shocks e v",
"new": "wrt.map fun v => eqs.map fun e => jacEntry shocks e v",
"claim": "transposed",
"edit": "`eqs.map fun e => wrt.map fun v => jacEntry shocks e v` -> `wrt.map fun v => eqs.map fun e => jacEntry shocks e v`",
"count": 1,
"def": "symJacobian"
},
{
"id": "q133",
"file": "Perturbation",
"old": "M.getD i []",
"new": "M.getD (i + 1) []",
"claim": "rows",
"edit": "`M.getD i []` -> `M.getD (i + 1) []`",
"count": 1,
"def": "takeRows"
},
{
"id": "q134",
"file": "Perturbation",
"old": "row.getD j 0",
"new": "row.getD (j + 1) 0",
"claim": "cols",
"edit": "`row.getD j 0` -> `row.getD (j + 1) 0`",
"count": 1,
"def": "takeCols"
},
{
"id": "q135",
"file": "Perturbation",
"old": "(dget v.asm key).getD false",
"new": "(dget v.asm key).isSome",
"claim": "assumption set to false",
"edit": "`(dget v.asm key).getD false` -> `(dget v.asm key).isSome`",
"count": 1,
"def": "TSym.assumed"
},
{
"id": "q136",
"file": "Perturbation",
"old": "(List.range n).filter mask",
"new": "(List.range (n - 1)).filter mask",
"claim": "last",
"edit": "`(List.range n).filter mask` -> `(List.range (n - 1)).filter mask`",
"count": 1,
"def": "whereIdx"
},
{
"id": "q137",
"file": "Plotting",
"old": "| some [] => available",
"new": "| some [] => []",
"claim": "empty selection",
"edit": "`| some [] => available` -> `| some [] => []`",
"count": 1,
"def": "cornerVars"
},
{
"id": "q138",
"file": "Plotting",
"old": "| .num x => x < b | _ => False",
"new": "| .num x => x \u2264 b | _ => False",
"claim": "boundary",
"edit": "`| .num x => x < b | _ => False` -> `| .num x => x \u2264 b | _ => False`",
"count": 1,
"def": "F.below"
},
{
"id": "q139",
"file": "Plotting",
"old": "summaryBars draws summaryOrder 0",
"new": "summaryBars draws summaryOrder 1",
"claim": "bars from 0",
"edit": "`summaryBars draws summaryOrder 0` -> `summaryBars draws summaryOrder 1`",
"count": 1,
"def": "plotSummary"
},
{
"id": "q140",
"file": "PrintText",
"old": "| some (c :: cs) => some (c :: cs)",
"new": "| some cs => some cs",
"claim": "empty text",
"edit": "`| some (c :: cs) => some (c :: cs)` -> `| some cs => some cs`",
"count": 1,
"def": "given"
},
{
"id": "q141",
"file": "PrintText",
"old": "v.name ++ indexText v.t",
"new": "v.name",
"claim": "index",
"edit": "`v.name ++ indexText v.t` -> `v.name`",
"count": 1,
"def": "varText"
},
{
"id": "q142",
"file": "Printer",
"old": "| .arrow :: .id n :: ts => (some n, ts)",
"new": "| .arrow :: .id _ :: ts => (none, ts)",
"claim": "calibrating parameter",
"edit": "`| .arrow :: .id n :: ts => (some n, ts)` -> `| .arrow :: .id _ :: ts => (none, ts)`",
"count": 1,
"def": "pCalibrating"
},
{
"id": "q143",
"file": "Printer",
"old": "lhs := l, rhs := rhs, lagrange",
"new": "lhs := rhs, rhs := l, lagrange",
"claim": "sides",
"edit": "`lhs := l, rhs := rhs, lagrange` -> `lhs := rhs, rhs := l, lagrange`",
"count": 1,
"def": "pEqn"
},
{
"id": "q144",
"file": "Printer",
"old": "(t :: a, r)",
"new": "(a ++ [t], r)",
"claim": "tag order",
"edit": "`(t :: a, r)` -> `(a ++ [t], r)`",
"count": 1,
"def": "pTags"
},
{
"id": "q145",
"file": "Printer",
"old": "| n :: ns => .id n :: .comma :: tryreduceToks ns",
"new": "| n :: ns => .id n :: tryreduceToks ns",
"claim": "commas",
"edit": "`| n :: ns => .id n :: .comma :: tryreduceToks ns` -> `| n :: ns => .id n :: tryreduceToks ns`",
"count": 1,
"def": "tryreduceToks"
},
{
"id": "q146",
"file": "Printer",
"old": "some (.bin .pow a b, r')",
"new": "some (.bin .pow b a, r')",
"claim": "power",
"edit": "`some (.bin .pow a b, r')` -> `some (.bin .pow b a, r')`",
"count": 1,
"def": "pPow"
},
{
"id": "q147",
"file": "SSDriver",
"old": "dget a name = some true",
"new": "(dget a name).isSome",
"claim": "assumption set to false",
"edit": "`dget a name = some true` -> `(dget a name).isSome`",
"count": 1,
"def": "Asm.has"
},
{
"id": "q148",
"file": "SSDriver",
"old": "(.exp (.neg y))",
"new": "(.exp y)",
"claim": "sigmoid",
"edit": "`(.exp (.neg y))` -> `(.exp y)`",
"count": 1,
"def": "sigmoidExpr"
},
{
"id": "q149",
"file": "SSDriver",
"old": "then -(8 / 10) else 8 / 10",
"new": "then 8 / 10 else 8 / 10",
"claim": "initial value negative",
"edit": "`then -(8 / 10) else 8 / 10` -> `then 8 / 10 else 8 / 10`",
"count": 1,
"def": "initialX0"
},
{
"id": "q150",
"file": "SSDriver",
"old": "\"L-BFGS-B\".toList, ",
"new": "",
"claim": "bounded methods",
"edit": "`\"L-BFGS-B\".toList, ` -> ``",
"count": 1,
"def": "boxMethods"
},
{
"id": "q151",
"file": "SSDriver",
"old": "if eqs.isEmpty then .error .emptyResidual\n  else if",
"new": "if",
"claim": "no equations",
"edit": "`if eqs.isEmpty then .error .emptyResidual\n  else if` -> `if`",
"count": 1,
"def": "evalResid"
},
{
"id": "q152",
"file": "SSDriver",
"old": "| .tv s => s.asm",
"new": "| .tv s => parAsm s.base",
"claim": "assumptions",
"edit": "`| .tv s => s.asm` -> `| .tv s => parAsm s.base`",
"count": 1,
"def": "asmOf"
},
{
"id": "q153",
"file": "SSDriver",
"old": "(backwardExpr t (.sym (.par []))).eval fun _ => v",
"new": "(backwardExpr t (.sym (.par []))).eval fun _ => -v",
"claim": "constrained",
"edit": "`(backwardExpr t (.sym (.par []))).eval fun _ => v` -> `(backwardExpr t (.sym (.par []))).eval fun _ => -v`",
"count": 1,
"def": "toConstrained"
},
{
"id": "q154",
"file": "SSGraphs",
"old": "| .inv a => (a.eval p env)\u207b\u00b9",
"new": "| .inv a => a.eval p env",
"claim": "inverse",
"edit": "`| .inv a => (a.eval p env)\u207b\u00b9` -> `| .inv a => a.eval p env`",
"count": 1,
"def": "eval"
},
{
"id": "q155",
"file": "SSGraphs",
"old": "| .mul a b => a.syms ++ b.syms",
"new": "| .mul a _ => a.syms",
"claim": "symbols",
"edit": "`| .mul a b => a.syms ++ b.syms` -> `| .mul a _ => a.syms`",
"count": 1,
"def": "syms"
},
{
"id": "q156",
"file": "SSGraphs",
"old": "g.flatten.flatMap TG.syms",
"new": "[]",
"claim": "inputs",
"edit": "`g.flatten.flatMap TG.syms` -> `[]`",
"count": 1,
"def": "callMatrix"
},
{
"id": "q157",
"file": "Simplification",
"old": "(timeCombos v).any",
"new": "(timeCombos v).all",
"claim": "mentions",
"edit": "`(timeCombos v).any` -> `(timeCombos v).all`",
"count": 1,
"def": "mentions"
},
{
"id": "q158",
"file": "Simplification",
"old": "dvals b.identities ++ dvals b.objective ++ dvals b.constraints",
"new": "dvals b.identities ++ dvals b.constraints",
"claim": "objective definitions",
"edit": "`dvals b.identities ++ dvals b.objective ++ dvals b.constraints` -> `dvals b.identities ++ dvals b.constraints`",
"count": 1,
"def": "blockSubDict"
},
{
"id": "q159",
"file": "Simplification",
"old": "partsLt (splitDigits a) (splitDigits b)",
"new": "partsLt (splitDigits b) (splitDigits a)",
"claim": "natural order",
"edit": "`partsLt (splitDigits a) (splitDigits b)` -> `partsLt (splitDigits b) (splitDigits a)`",
"count": 1,
"def": "naturalLt"
},
{
"id": "q160",
"file": "Simulate",
"old": "(\"shock_cov\".toList, a.cov.isSome), (",
"new": "(",
"claim": "cov argument",
"edit": "`(\"shock_cov\".toList, a.cov.isSome), (` -> `(`",
"count": 1,
"def": "validateIrfArgs"
},
{
"id": "q161",
"file": "Simulate",
"old": "i \u2260 j \u2192 |M i j| \u2264 1 / 100000000",
"new": "i < j \u2192 |M i j| \u2264 1 / 100000000",
"claim": "diagonal",
"edit": "`i \u2260 j \u2192 |M i j| \u2264 1 / 100000000` -> `i < j \u2192 |M i j| \u2264 1 / 100000000`",
"count": 1,
"def": "isDiagonal"
},
{
"id": "q162",
"file": "Simulate",
"old": "else if v.length = 1 then .ok fun _ => v.getD 0 0\n",
"new": "",
"claim": "broadcast of one number",
"edit": "`else if v.length = 1 then .ok fun _ => v.getD 0 0\n` -> ``",
"count": 1,
"def": "assignRow"
},
{
"id": "q163",
"file": "Simulate",
"old": "List.replicate len x",
"new": "List.replicate 1 x",
"claim": "broadcast",
"edit": "`List.replicate len x` -> `List.replicate 1 x`",
"count": 1,
"def": "assignPeriods"
},
{
"id": "q164",
"file": "Simulate",
"old": "| .ok bs => .ok (b :: bs)",
"new": "| .ok bs => .ok (bs ++ [b])",
"claim": "order",
"edit": "`| .ok bs => .ok (b :: bs)` -> `| .ok bs => .ok (bs ++ [b])`",
"count": 1,
"def": "mapExcept"
},
{
"id": "q165",
"file": "SparseRoot",
"old": "max a |x|",
"new": "max a x",
"claim": "norm",
"edit": "`max a |x|` -> `max a x`",
"count": 1,
"def": "maxAbs"
},
{
"id": "q166",
"file": "SparseRoot",
"old": "maxAbs dx < tol * (1 + maxAbs xNew)",
"new": "maxAbs dx < tol * (1 + maxAbs dx)",
"claim": "relative step",
"edit": "`maxAbs dx < tol * (1 + maxAbs xNew)` -> `maxAbs dx < tol * (1 + maxAbs dx)`",
"count": 1,
"def": "checkStep"
},
{
"id": "q167",
"file": "SparseRoot",
"old": "if maxAbs s.res < fTol then (S.reset o, { final := s, success := true",
"new": "if maxAbs s.res < fTol then (S.reset o, { final := s, success := false",
"claim": "already solved",
"edit": "`if maxAbs s.res < fTol then (S.reset o, { final := s, success := true` -> `if maxAbs s.res < fTol then (S.reset o, { final := s, success := false`",
"count": 1,
"def": "rootFind"
},
{
"id": "q168",
"file": "SparseRoot",
"old": "rootLoop S f fTol xTol maxiter (S.reset o)",
"new": "rootLoop S f fTol xTol maxiter o",
"claim": "reset before each solve",
"edit": "`rootLoop S f fTol xTol maxiter (S.reset o)` -> `rootLoop S f fTol xTol maxiter o`",
"count": 1,
"def": "rootFind"
},
{
"id": "q169",
"file": "SparseRoot",
"old": "(-(J\u1d40 *\u1d65 res))",
"new": "(J\u1d40 *\u1d65 res)",
"claim": "fallback direction",
"edit": "`(-(J\u1d40 *\u1d65 res))` -> `(J\u1d40 *\u1d65 res)`",
"count": 1,
"def": "solveOrGradient"
},
{
"id": "q170",
"file": "SparseRoot",
"old": "if c.calls % every = 0 then s.jac else",
"new": "if c.calls % every = 1 then s.jac else",
"claim": "chord",
"edit": "`if c.calls % every = 0 then s.jac else` -> `if c.calls % every = 1 then s.jac else`",
"count": 1,
"def": "chordDirection"
},
{
"id": "q171",
"file": "SparseRoot",
"old": "calls := c.calls + 1",
"new": "calls := c.calls",
"claim": "chord",
"edit": "`calls := c.calls + 1` -> `calls := c.calls`",
"count": 1,
"def": "chordDirection"
},
{
"id": "q172",
"file": "SparseRoot",
"old": "| none => (f x).1 | some g => g x",
"new": "| none => (f x).1 | some _ => (f x).1",
"claim": "merit function",
"edit": "`| none => (f x).1 | some g => g x` -> `| none => (f x).1 | some _ => (f x).1`",
"count": 1,
"def": "trialMerit"
},
{
"id": "q173",
"file": "SparseRoot",
"old": "(phi :: h).take memory",
"new": "(phi :: h).take (memory + 1)",
"claim": "memory",
"edit": "`(phi :: h).take memory` -> `(phi :: h).take (memory + 1)`",
"count": 1,
"def": "pushHistory"
},
{
"id": "q174",
"file": "SparseRoot",
"old": "h.foldl max phi",
"new": "h.foldl max 0",
"claim": "history max",
"edit": "`h.foldl max phi` -> `h.foldl max 0`",
"count": 1,
"def": "maxHistory"
},
{
"id": "q175",
"file": "SparseRoot",
"old": "-(g \u2b1d\u1d65 p + 0.5",
"new": "-(g \u2b1d\u1d65 p + 1.5",
"claim": "predicted reduction",
"edit": "`-(g \u2b1d\u1d65 p + 0.5` -> `-(g \u2b1d\u1d65 p + 1.5`",
"count": 2,
"def": "predicted",
"nth": 0
},
{
"id": "q176",
"file": "SparseRoot",
"old": "steihaugLoop bstep H g delta (2 * n) 0 g (-g)",
"new": "steihaugLoop bstep H g delta (2 * n) 0 g g",
"claim": "direction",
"edit": "`steihaugLoop bstep H g delta (2 * n) 0 g (-g)` -> `steihaugLoop bstep H g delta (2 * n) 0 g g`",
"count": 1,
"def": "steihaugWith"
},
{
"id": "q177",
"file": "SparseRoot",
"old": "doglegStep lin s.jac s.res (s.jac\u1d40 *\u1d65 s.res)",
"new": "doglegStep lin s.jac (-s.res) (s.jac\u1d40 *\u1d65 s.res)",
"claim": "dogleg",
"edit": "`doglegStep lin s.jac s.res (s.jac\u1d40 *\u1d65 s.res)` -> `doglegStep lin s.jac (-s.res) (s.jac\u1d40 *\u1d65 s.res)`",
"count": 1,
"def": "doglegSolver"
},
{
"id": "q178",
"file": "SparseRoot",
"old": "reset := fun _ => cfg.delta0",
"new": "reset := fun d => d",
"claim": "radius reset",
"edit": "`reset := fun _ => cfg.delta0` -> `reset := fun d => d`",
"count": 2,
"def": "doglegSolver",
"nth": 0
},
{
"id": "q179",
"file": "SparseRoot",
"old": "reset := fun _ => cfg.lam0",
"new": "reset := fun d => d",
"claim": "damping reset",
"edit": "`reset := fun _ => cfg.lam0` -> `reset := fun d => d`",
"count": 1,
"def": "lmSolver"
},
{
"id": "q180",
"file": "SparseRoot",
"old": "lam * (lmScale J \u2b1d\u1d65 (p * p))",
"new": "lam * (lmScale J \u2b1d\u1d65 p)",
"claim": "predicted",
"edit": "`lam * (lmScale J \u2b1d\u1d65 (p * p))` -> `lam * (lmScale J \u2b1d\u1d65 p)`",
"count": 1,
"def": "lmPredicted"
},
{
"id": "q181",
"file": "StateSpace",
"old": "(c.depths.map Prod.snd).sum",
"new": "c.depths.length",
"claim": "number of lags",
"edit": "`(c.depths.map Prod.snd).sum` -> `c.depths.length`",
"count": 1,
"def": "nObsLag"
},
{
"id": "q182",
"file": "StateSpace",
"old": "(NMat.kronEye (c.period - 1) shiftMat)",
"new": "(NMat.kronEye c.period shiftMat)",
"claim": "cumulator block",
"edit": "`(NMat.kronEye (c.period - 1) shiftMat)` -> `(NMat.kronEye c.period shiftMat)`",
"count": 1,
"def": "augTransition"
},
{
"id": "q183",
"file": "StateSpace",
"old": "if lag = 0 then c.vars.idxOf v else",
"new": "if lag = 1 then c.vars.idxOf v else",
"claim": "column",
"edit": "`if lag = 0 then c.vars.idxOf v else` -> `if lag = 1 then c.vars.idxOf v else`",
"count": 1,
"def": "obsColumn"
},
{
"id": "q184",
"file": "StateSpace",
"old": ", \"backward_direct\".toList]",
"new": "]",
"claim": "solver",
"edit": "`, \"backward_direct\".toList]` -> `]`",
"count": 1,
"def": "validSolvers"
},
{
"id": "q185",
"file": "StateSpace",
"old": "sigma s ^ 2",
"new": "sigma s",
"claim": "variance",
"edit": "`sigma s ^ 2` -> `sigma s`",
"count": 2,
"def": "stateCov",
"nth": 1
},
{
"id": "q186",
"file": "StateSpace",
"old": "decide (x \u2209 r.constants)",
"new": "true",
"claim": "constants dropped",
"edit": "`decide (x \u2209 r.constants)` -> `true`",
"count": 1,
"def": "paramNames"
},
{
"id": "q187",
"file": "StateSpace",
"old": "if fullCov then [\"state_cov\".toList] else",
"new": "if fullCov then [] else",
"claim": "state_cov",
"edit": "`if fullCov then [\"state_cov\".toList] else` -> `if fullCov then [] else`",
"count": 1,
"def": "paramNames"
},
{
"id": "q188",
"file": "StateSpace",
"old": "e.syms.all (obsSymOk vars params)",
"new": "e.syms.any (obsSymOk vars params)",
"claim": "unknown symbol refused",
"edit": "`e.syms.all (obsSymOk vars params)` -> `e.syms.any (obsSymOk vars params)`",
"count": 1,
"def": "checkObsEq"
},
{
"id": "q189",
"file": "StateSpace",
"old": "tildeForm loglin v k.2",
"new": "tildeForm loglin v 0",
"claim": "date",
"edit": "`tildeForm loglin v k.2` -> `tildeForm loglin v 0`",
"count": 1,
"def": "forwardDict"
},
{
"id": "q190",
"file": "StateSpace",
"old": "intercept := l.1.eval env",
"new": "intercept := 0",
"claim": "intercept",
"edit": "`intercept := l.1.eval env` -> `intercept := 0`",
"count": 1,
"def": "obsEqAt"
},
{
"id": "q191",
"file": "StateSpace",
"old": "if c.obsEqs = [] then c.observed",
"new": "if c.obsEqs \u2260 [] then c.observed",
"claim": "design",
"edit": "`if c.obsEqs = [] then c.observed` -> `if c.obsEqs \u2260 [] then c.observed`",
"count": 1,
"def": "design"
},
{
"id": "q192",
"file": "Statistics",
"old": "names i = x",
"new": "names i \u2260 x",
"claim": "index",
"edit": "`names i = x` -> `names i \u2260 x`",
"count": 1,
"def": "indexOf?"
},
{
"id": "q193",
"file": "Statistics",
"old": "n = nVars || n = nShocks",
"new": "n = nVars && n = nShocks",
"claim": "dims",
"edit": "`n = nVars || n = nShocks` -> `n = nVars && n = nShocks`",
"count": 1,
"def": "dimSizeOk"
},
{
"id": "q194",
"file": "SteadyState",
"old": "(vars.map safeToSS).zip (out.map Prod.snd)",
"new": "vars.zip (out.map Prod.snd)",
"claim": "ss keys",
"edit": "`(vars.map safeToSS).zip (out.map Prod.snd)` -> `vars.zip (out.map Prod.snd)`",
"count": 1,
"def": "knownSSSymbolic"
},
{
"id": "q195",
"file": "SteadyState",
"old": "filter fun s => s \u2208 ssv",
"new": "filter fun s => s \u2209 ssv",
"claim": "unknowns",
"edit": "`filter fun s => s \u2208 ssv` -> `filter fun s => s \u2209 ssv`",
"count": 1,
"def": "ssIn"
},
{
"id": "q196",
"file": "SteadyState",
"old": "(maxIter : Nat := 100)",
"new": "(maxIter : Nat := 1)",
"claim": "default iterations",
"edit": "`(maxIter : Nat := 100)` -> `(maxIter : Nat := 1)`",
"count": 1,
"def": "propagateSS"
},
{
"id": "q197",
"file": "SteadyState",
"old": "| .tv s => .tv (toSS s)",
"new": "| .tv s => .tv s",
"claim": "ss",
"edit": "`| .tv s => .tv (toSS s)` -> `| .tv s => .tv s`",
"count": 1,
"def": "safeToSS"
},
{
"id": "q198",
"file": "Tensor",
"old": "(idx.set a (idx.getD a 0 - x.shape.getD a 0))",
"new": "(idx.set a (idx.getD a 0))",
"claim": "join",
"edit": "`(idx.set a (idx.getD a 0 - x.shape.getD a 0))` -> `(idx.set a (idx.getD a 0))`",
"count": 1,
"def": "joinVal"
},
{
"id": "q199",
"file": "Tensor",
"old": "else if j < c then 0 else",
"new": "else",
"claim": "off-diagonal zero",
"edit": "`else if j < c then 0 else` -> `else`",
"count": 1,
"def": "bdVal"
},
{
"id": "q200",
"file": "Tensor",
"old": "if z < 0 then z + n else z",
"new": "z",
"claim": "negative axis",
"edit": "`if z < 0 then z + n else z` -> `z`",
"count": 2,
"def": "axisOf",
"nth": 0
},
{
"id": "q201",
"file": "Tensor",
"old": "if l.length < 2 then l else",
"new": "if l.length < 3 then l else",
"claim": "matrix transpose",
"edit": "`if l.length < 2 then l else` -> `if l.length < 3 then l else`",
"count": 1,
"def": "swapLast"
}
]