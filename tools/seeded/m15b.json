[
 {
  "id": "q005",
  "file": "Validate",
  "old": "validateModel m ++ checkUndefinedVars m extV ++ checkUndefinedParams m extP",
  "new": "validateModel m ++ checkUndefinedVars m extP ++ checkUndefinedParams m extV",
  "claim": "external lists swapped",
  "edit": "`validateModel m ++ checkUndefinedVars m extV ++ checkUndefinedParams m extP` -> `validateModel m ++ checkUndefinedVars m extP ++ checkUndefinedParams m extV`",
  "count": 1,
  "def": "fullValidation"
 },
 {
  "id": "q006",
  "file": "Validate",
  "old": "validateModel m ++ checkUndefinedVars m extV ++ checkUndefinedParams m extP",
  "new": "validateModel m ++ checkUndefinedVars m extV",
  "claim": "undefined parameters reported",
  "edit": "`validateModel m ++ checkUndefinedVars m extV ++ checkUndefinedParams m extP` -> `validateModel m ++ checkUndefinedVars m extV`",
  "count": 1,
  "def": "fullValidation"
 },
 {
  "id": "q029",
  "file": "Build",
  "old": "| .inl _ => none | .inr n => some n",
  "new": "| .inl _ => none | .inr _ => some d.param",
  "claim": "names of hyper parameters",
  "edit": "`| .inl _ => none | .inr n => some n` -> `| .inl _ => none | .inr _ => some d.param`",
  "count": 1,
  "def": "distParamNames"
 },
 {
  "id": "q047",
  "file": "Containers",
  "old": ".par s ((dget asm s).getD [])",
  "new": ".par s []",
  "claim": "assumptions of parameters",
  "edit": "`.par s ((dget asm s).getD [])` -> `.par s []`",
  "count": 1,
  "def": "safeStringToSympy"
 },
 {
  "id": "q059",
  "file": "Diagnostics",
  "old": "1 / 100000000",
  "new": "1 / 1000",
  "claim": "default tol",
  "edit": "`1 / 100000000` -> `1 / 1000`",
  "count": 1,
  "def": "bkTol"
 },
 {
  "id": "q076",
  "file": "ErrorText",
  "old": "  | [s] => [\"   = help: Did you mean '\".toList ++ s ++ \"'?\".toList]\n",
  "new": "",
  "claim": "single suggestion",
  "edit": "`  | [s] => [\"   = help: Did you mean '\".toList ++ s ++ \"'?\".toList]\n` -> ``",
  "count": 1,
  "def": "helpRows"
 },
 {
  "id": "q078",
  "file": "ErrorText",
  "old": "\"annotation\", \"notes\"]",
  "new": "\"notes\"]",
  "claim": "rebuild",
  "edit": "`\"annotation\", \"notes\"]` -> `\"notes\"]`",
  "count": 2,
  "def": "rebuildArgs",
  "nth": 1
 },
 {
  "id": "q135",
  "file": "Perturbation",
  "old": "(dget v.asm key).getD false",
  "new": "(dget v.asm key).isSome",
  "claim": "assumption set to false",
  "edit": "`(dget v.asm key).getD false` -> `(dget v.asm key).isSome`",
  "count": 1,
  "def": "TSym.assumed"
 },
 {
  "id": "q137",
  "file": "Plotting",
  "old": "| some [] => available",
  "new": "| some [] => []",
  "claim": "empty selection",
  "edit": "`| some [] => available` -> `| some [] => []`",
  "count": 1,
  "def": "cornerVars"
 },
 {
  "id": "q147",
  "file": "SSDriver",
  "old": "dget a name = some true",
  "new": "(dget a name).isSome",
  "claim": "assumption set to false",
  "edit": "`dget a name = some true` -> `(dget a name).isSome`",
  "count": 1,
  "def": "Asm.has"
 },
 {
  "id": "q150",
  "file": "SSDriver",
  "old": "\"L-BFGS-B\".toList, ",
  "new": "",
  "claim": "bounded methods",
  "edit": "`\"L-BFGS-B\".toList, ` -> ``",
  "count": 1,
  "def": "boxMethods"
 },
 {
  "id": "q158",
  "file": "Simplification",
  "old": "dvals b.identities ++ dvals b.objective ++ dvals b.constraints",
  "new": "dvals b.identities ++ dvals b.constraints",
  "claim": "objective definitions",
  "edit": "`dvals b.identities ++ dvals b.objective ++ dvals b.constraints` -> `dvals b.identities ++ dvals b.constraints`",
  "count": 1,
  "def": "blockSubDict"
 },
 {
  "id": "q170",
  "file": "SparseRoot",
  "old": "if c.calls % every = 0 then s.jac else",
  "new": "if c.calls % every = 1 then s.jac else",
  "claim": "chord",
  "edit": "`if c.calls % every = 0 then s.jac else` -> `if c.calls % every = 1 then s.jac else`",
  "count": 1,
  "def": "chordDirection"
 },
 {
  "id": "q171",
  "file": "SparseRoot",
  "old": "calls := c.calls + 1",
  "new": "calls := c.calls",
  "claim": "chord",
  "edit": "`calls := c.calls + 1` -> `calls := c.calls`",
  "count": 1,
  "def": "chordDirection"
 },
 {
  "id": "q185",
  "file": "StateSpace",
  "old": "sigma s ^ 2",
  "new": "sigma s",
  "claim": "variance",
  "edit": "`sigma s ^ 2` -> `sigma s`",
  "count": 2,
  "def": "stateCov",
  "nth": 1
 },
 {
  "id": "q186",
  "file": "StateSpace",
  "old": "decide (x \u2209 r.constants)",
  "new": "true",
  "claim": "constants dropped",
  "edit": "`decide (x \u2209 r.constants)` -> `true`",
  "count": 1,
  "def": "paramNames"
 },
 {
  "id": "q187",
  "file": "StateSpace",
  "old": "if fullCov then [\"state_cov\".toList] else",
  "new": "if fullCov then [] else",
  "claim": "state_cov",
  "edit": "`if fullCov then [\"state_cov\".toList] else` -> `if fullCov then [] else`",
  "count": 1,
  "def": "paramNames"
 }
]