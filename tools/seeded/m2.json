[
 {
  "id": "b001",
  "file": "Block",
  "def": "extractFlags",
  "old": "exclude := e.tags.contains .exclude",
  "new": "exclude := false",
  "claim": "C20 exclude tag recorded for its equation",
  "edit": "`exclude := e.tags.contains .exclude` -> `exclude := false`",
  "count": 1
 },
 {
  "id": "b002",
  "file": "Block",
  "def": "extractMultiplier",
  "old": "| some (c :: n) => some (convVar asm (c :: n) (.t 0))",
  "new": "| some (c :: n) => some (convVar asm (c :: n) (.t 1))",
  "claim": "C22 named multiplier used at date t",
  "edit": "`| some (c :: n) => some (convVar asm (c :: n) (.t 0))` -> `| some (c :: n) => some (convVar asm (c :: n) (.t 1))`",
  "count": 1
 },
 {
  "id": "b003",
  "file": "Block",
  "def": "convertList",
  "old": "{ eqNum := st.eqNum + 1\n          flags",
  "new": "{ eqNum := st.eqNum\n          flags",
  "claim": "C20 every equation gets its own number",
  "edit": "`{ eqNum := st.eqNum + 1\n          flags` -> `{ eqNum := st.eqNum\n          flags`",
  "count": 1
 },
 {
  "id": "b004",
  "file": "Block",
  "def": "calibItems",
  "old": "| some v => .ok ((none, \u27e8.sym (.par d.param), .num v\u27e9) :: r)\n      | none => .ok r",
  "new": "| some v => .ok ((none, \u27e8.sym (.par d.param), .num v\u27e9) :: r)\n      | none => .ok ((none, \u27e8.sym (.par d.param), .num 0\u27e9) :: r)",
  "claim": "C21 priors without initial value define no parameter",
  "edit": "`| some v => .ok ((none, \u27e8.sym (.par d.param), .num v\u27e9) :: r)\n      | none => .ok r` -> `| some v => .ok ((none, \u27e8.sym (.par d.param), .num v\u27e9) :: r)\n      | none => .ok ((none, \u27e8.sym (.par d.param), .num 0\u27e9) :: r)`",
  "count": 1
 },
 {
  "id": "b005",
  "file": "Block",
  "def": "calibItems",
  "old": "| some v => .ok ((none, \u27e8.sym (.par d.param), .num v\u27e9) :: r)",
  "new": "| some _ => .ok r",
  "claim": "C21 prior with initial value defines the parameter",
  "edit": "`| some v => .ok ((none, \u27e8.sym (.par d.param), .num v\u27e9) :: r)` -> `| some _ => .ok r`",
  "count": 1
 },
 {
  "id": "b006",
  "file": "Block",
  "def": "astBlockToBlock",
  "old": "constraints := cons\n          identities := ids",
  "new": "constraints := ids\n          identities := cons",
  "claim": "C20 equations stay in their component",
  "edit": "`constraints := cons\n          identities := ids` -> `constraints := ids\n          identities := cons`",
  "count": 1
 },
 {
  "id": "b007",
  "file": "Block",
  "def": "SEq.zero",
  "old": "e.rhs.sub e.lhs",
  "new": "e.rhs",
  "claim": "C23 residuals vanish exactly when equations hold",
  "edit": "`e.rhs.sub e.lhs` -> `e.rhs`",
  "count": 1
 },
 {
  "id": "b008",
  "file": "Block",
  "def": "flagsAllowed",
  "old": "else if f.exclude && !mayExclude then .error .valueError\n",
  "new": "",
  "claim": "C20 exclude tag outside constraints is rejected",
  "edit": "`else if f.exclude && !mayExclude then .error .valueError` -> ``",
  "count": 1
 },
 {
  "id": "b009",
  "file": "Block",
  "def": "Block.validate",
  "old": "if B.objective.isSome && B.controls.isNone then throw .optimizationProblemNotDefined\n",
  "new": "",
  "claim": "C23 objective without controls is rejected",
  "edit": "`if B.objective.isSome && B.controls.isNone then throw .optimizationProblemNotDefined` -> ``",
  "count": 1
 },
 {
  "id": "b010",
  "file": "Block",
  "def": "Block.validate",
  "old": "if (B.objective.getD []).length > 1 then",
  "new": "if (B.objective.getD []).length > 2 then",
  "claim": "C23 two objectives are rejected",
  "edit": "`if (B.objective.getD []).length > 1 then` -> `if (B.objective.getD []).length > 2 then`",
  "count": 1
 },
 {
  "id": "b011",
  "file": "Block",
  "def": "Block.validate",
  "old": "(dvals B.definitions ++ dvals B.objective ++ dvals B.constraints).any",
  "new": "(dvals B.definitions ++ dvals B.objective).any",
  "claim": "C23 control may occur in constraints only",
  "edit": "`(dvals B.definitions ++ dvals B.objective ++ dvals B.constraints).any` -> `(dvals B.definitions ++ dvals B.objective).any`",
  "count": 1
 },
 {
  "id": "b012",
  "file": "Block",
  "def": "Block.consolidate",
  "old": "\u27e8p.2.lhs, p.2.rhs.subsSeq flat\u27e9",
  "new": "\u27e8p.2.lhs, p.2.rhs\u27e9",
  "claim": "C49 definitions nested in definitions are eliminated",
  "edit": "`\u27e8p.2.lhs, p.2.rhs.subsSeq flat\u27e9` -> `\u27e8p.2.lhs, p.2.rhs\u27e9`",
  "count": 1
 },
 {
  "id": "b013",
  "file": "Block",
  "def": "paramStep",
  "old": "if x \u2208 dkeys st.param then .ok { st with duplicates := st.duplicates ++ [x] }\n      else .ok",
  "new": "if false then .ok { st with duplicates := st.duplicates ++ [x] }\n      else .ok",
  "claim": "C21 duplicate definitions are rejected",
  "edit": "`if x \u2208 dkeys st.param then .ok { st with duplicates := st.duplicates ++ [x] }\n      else .ok` -> `if false then .ok { st with duplicates := st.duplicates ++ [x] }\n      else .ok`",
  "count": 1
 },
 {
  "id": "b014",
  "file": "Block",
  "def": "paramStep",
  "old": "then .error (.dynamicCalibrating x)\n          else if",
  "new": "then .ok { st with calib := dset st.calib x p.2.rhs }\n          else if",
  "claim": "C21 dynamic calibrating equations rejected",
  "edit": "`then .error (.dynamicCalibrating x)\n          else if` -> `then .ok { st with calib := dset st.calib x p.2.rhs }\n          else if`",
  "count": 1
 },
 {
  "id": "b015",
  "file": "Block",
  "def": "paramStep",
  "old": "if f.isCalibrating then\n          if (p",
  "new": "if !f.isCalibrating then\n          if (p",
  "claim": "C21 calibrating vs deterministic swapped",
  "edit": "`if f.isCalibrating then\n          if (p` -> `if !f.isCalibrating then\n          if (p`",
  "count": 1
 },
 {
  "id": "b016",
  "file": "Block",
  "def": "trySubsSS",
  "old": "vars.any fun v => v.idx \u2260 .ss then",
  "new": "vars.any fun v => v.idx = .t 1 then",
  "claim": "C21 dated variables in deterministic parameters rejected",
  "edit": "`vars.any fun v => v.idx \u2260 .ss then` -> `vars.any fun v => v.idx = .t 1 then`",
  "count": 1
 },
 {
  "id": "b017",
  "file": "Block",
  "def": "trySubsSS",
  "old": ".ok (e.rhs.subsSeq d)",
  "new": ".ok e.rhs",
  "claim": "C21 steady-state values substituted in deterministic parameters",
  "edit": "`.ok (e.rhs.subsSeq d)` -> `.ok e.rhs`",
  "count": 1
 },
 {
  "id": "b018",
  "file": "Block",
  "def": "autoMultiplier",
  "old": "++ ['_'] ++ natStr i",
  "new": "++ ['_'] ++ natStr 1",
  "claim": "C22 every constraint has its own multiplier",
  "edit": "`++ ['_'] ++ natStr i` -> `++ ['_'] ++ natStr 1`",
  "count": 1
 },
 {
  "id": "b019",
  "file": "Block",
  "def": "stepBy",
  "old": "| .negSucc n => (List.range (n + 1))",
  "new": "| .negSucc n => (List.range n)",
  "claim": "C49 definitions eliminated at earlier dates",
  "edit": "`| .negSucc n => (List.range (n + 1))` -> `| .negSucc n => (List.range n)`",
  "count": 1
 },
 {
  "id": "b020",
  "file": "Block",
  "def": "expandDefinition",
  "old": "[(-1 : Int), 0, 1].foldlM",
  "new": "[(0 : Int), 1].foldlM",
  "claim": "C49 definitions eliminated at date -1 in the Lagrangian",
  "edit": "`[(-1 : Int), 0, 1].foldlM` -> `[(0 : Int), 1].foldlM`",
  "count": 1
 },
 {
  "id": "b021",
  "file": "Block",
  "def": "lagrangianLoop",
  "old": "L.sub (.mul (.sym (.tv lm))",
  "new": "SExpr.add L (.mul (.sym (.tv lm))",
  "claim": "C22 sign of constraint terms",
  "edit": "`L.sub (.mul (.sym (.tv lm))` -> `SExpr.add L (.mul (.sym (.tv lm))`",
  "count": 1
 },
 {
  "id": "b022",
  "file": "Block",
  "def": "lagrangianLoop",
  "old": "(i + 1) (dset ms i (some lm))",
  "new": "i (dset ms i (some lm))",
  "claim": "C22 generated multipliers are distinct",
  "edit": "`(i + 1) (dset ms i (some lm))` -> `i (dset ms i (some lm))`",
  "count": 1
 },
 {
  "id": "b023",
  "file": "Block",
  "def": "lagrangianLoop",
  "old": "| some (some lm) => lagrangianLoop short sub cs (term lm) i ms",
  "new": "| some (some lm) => lagrangianLoop short sub cs L i ms",
  "claim": "C22 constraint with named multiplier enters",
  "edit": "`| some (some lm) => lagrangianLoop short sub cs (term lm) i ms` -> `| some (some lm) => lagrangianLoop short sub cs L i ms`",
  "count": 1
 },
 {
  "id": "b024",
  "file": "Block",
  "def": "Block.lagrangian",
  "old": "(if f.minimize then rhs.neg else rhs)",
  "new": "rhs",
  "claim": "C22 minimisation flips the objective",
  "edit": "`(if f.minimize then rhs.neg else rhs)` -> `rhs`",
  "count": 1
 },
 {
  "id": "b025",
  "file": "Block",
  "def": "Block.lagrangian",
  "old": "let rhs := obj.rhs.subsSeq sub",
  "new": "let rhs := obj.rhs",
  "claim": "C49 definitions eliminated in the objective",
  "edit": "`let rhs := obj.rhs.subsSeq sub` -> `let rhs := obj.rhs`",
  "count": 1
 },
 {
  "id": "b026",
  "file": "Block",
  "def": "discountFactor",
  "old": "(x.subs1 next (.num 1))",
  "new": "(x.subs1 next (.num 0))",
  "claim": "C48 discount factor is the coefficient of V[1]",
  "edit": "`(x.subs1 next (.num 1))` -> `(x.subs1 next (.num 0))`",
  "count": 1
 },
 {
  "id": "b027",
  "file": "Block",
  "def": "discountFactor",
  "old": "v.idx = .t 0 \u2228 v.idx = .t (-1) then .ok (.num 1)",
  "new": "v.idx = .t 0 then .ok (.num 1)",
  "claim": "C23 static objectives with lags have discount 1",
  "edit": "`v.idx = .t 0 \u2228 v.idx = .t (-1) then .ok (.num 1)` -> `v.idx = .t 0 then .ok (.num 1)`",
  "count": 1
 },
 {
  "id": "b028",
  "file": "Block",
  "def": "Block.plainEquations",
  "old": "(cs.filter fun p => !p.1)",
  "new": "cs",
  "claim": "C23 excluded constraints are left out",
  "edit": "`(cs.filter fun p => !p.1)` -> `cs`",
  "count": 1
 },
 {
  "id": "b029",
  "file": "Block",
  "def": "Block.plainEquations",
  "old": "let ids := (dvals B.identities).map fun e => (e.subsSeq sub).zero",
  "new": "let ids := (dvals B.identities).map fun e => e.zero",
  "claim": "C49 definitions eliminated in identities",
  "edit": "`let ids := (dvals B.identities).map fun e => (e.subsSeq sub).zero` -> `let ids := (dvals B.identities).map fun e => e.zero`",
  "count": 1
 },
 {
  "id": "b030",
  "file": "Block",
  "def": "Block.plainEquations",
  "old": ".ok (ids ++ (cs.filter",
  "new": ".ok ((cs.filter",
  "claim": "C23 identities are kept",
  "edit": "`.ok (ids ++ (cs.filter` -> `.ok ((cs.filter`",
  "count": 1
 },
 {
  "id": "b031",
  "file": "Block",
  "def": "Block.solve",
  "old": "let eqs := eqs ++ [(obj.subsSeq sub).zero]",
  "new": "let eqs := eqs",
  "claim": "C23 the objective equation is kept",
  "edit": "`let eqs := eqs ++ [(obj.subsSeq sub).zero]` -> `let eqs := eqs`",
  "count": 1
 },
 {
  "id": "b032",
  "file": "Block",
  "def": "Block.solve",
  "old": "| some focs => .ok \u27e8eqs ++ focs, ms\u27e9",
  "new": "| some focs => .ok \u27e8eqs ++ focs.drop 1, ms\u27e9",
  "claim": "C23 one condition per control",
  "edit": "`| some focs => .ok \u27e8eqs ++ focs, ms\u27e9` -> `| some focs => .ok \u27e8eqs ++ focs.drop 1, ms\u27e9`",
  "count": 1
 },
 {
  "id": "b033",
  "file": "Block",
  "def": "Block.solve",
  "old": "diffThroughTime L c (.expr df)",
  "new": "diffThroughTime L c (.expr (.num 1))",
  "claim": "C48 lagged controls are discounted",
  "edit": "`diffThroughTime L c (.expr df)` -> `diffThroughTime L c (.expr (.num 1))`",
  "count": 1
 },
 {
  "id": "b034",
  "file": "Block",
  "def": "expandSubsAllTimes",
  "old": "[TIdx.t (-1), .t 0, .t 1, .ss].foldl",
  "new": "[TIdx.t (-1), .t 0, .ss].foldl",
  "claim": "C50 substitution at every date",
  "edit": "`[TIdx.t (-1), .t 0, .t 1, .ss].foldl` -> `[TIdx.t (-1), .t 0, .ss].foldl`",
  "count": 1
 },
 {
  "id": "b035",
  "file": "SimplifyBlock",
  "def": "eliminateOne",
  "old": "e.atoms.eraseDups.length \u2264 3",
  "new": "e.atoms.eraseDups.length \u2264 4",
  "claim": "C50 (threshold only)",
  "edit": "`e.atoms.eraseDups.length \u2264 3` -> `e.atoms.eraseDups.length \u2264 4`",
  "count": 1
 },
 {
  "id": "b036",
  "file": "SimplifyBlock",
  "def": "simplifySystem",
  "old": "decide (e \u2260 .num 0)",
  "new": "decide (e = .num 0)",
  "claim": "C50 only trivial equations are dropped",
  "edit": "`decide (e \u2260 .num 0)` -> `decide (e = .num 0)`",
  "count": 1
 },
 {
  "id": "b037",
  "file": "SimplifyBlock",
  "def": "simplifySystem",
  "old": "((s.map norm).filter fun e => decide (e \u2260 .num 0))",
  "new": "((s.map norm).filter fun e => decide (e \u2260 .num 0)).drop 1",
  "claim": "C50 no nontrivial equation is dropped",
  "edit": "`((s.map norm).filter fun e => decide (e \u2260 .num 0))` -> `((s.map norm).filter fun e => decide (e \u2260 .num 0)).drop 1`",
  "count": 1
 },
 {
  "id": "b038",
  "file": "SimplifyBlock",
  "def": "eliminateOne",
  "old": "[(x, rhs)]",
  "new": "[(x, .num 0)]",
  "claim": "C50 solutions are kept",
  "edit": "`[(x, rhs)]` -> `[(x, .num 0)]`",
  "count": 1
 },
 {
  "id": "b039",
  "file": "Validate",
  "def": "dupLoop",
  "old": "dupLoop mk ns (n :: seen)",
  "new": "dupLoop mk ns [n]",
  "claim": "C16 non-adjacent duplicates found",
  "edit": "`dupLoop mk ns (n :: seen)` -> `dupLoop mk ns [n]`",
  "count": 1
 },
 {
  "id": "b040",
  "file": "Validate",
  "def": "validateBlock",
  "old": "dupLoop (.dupShock \u00b7 b.name) (b.shocks.map VarRef.name) [] ++\n",
  "new": "",
  "claim": "C16 duplicate shocks reported",
  "edit": "`dupLoop (.dupShock \u00b7 b.name) (b.shocks.map VarRef.name) [] ++` -> ``",
  "count": 1
 },
 {
  "id": "b041",
  "file": "Validate",
  "def": "validateModel",
  "old": "if p.2.length > 1 then",
  "new": "if p.2.length > 2 then",
  "claim": "C16 parameter defined in two blocks reported",
  "edit": "`if p.2.length > 1 then` -> `if p.2.length > 2 then`",
  "count": 1
 },
 {
  "id": "b042",
  "file": "Validate",
  "def": "Calib.definedParam",
  "old": "| .dist d => some d.param",
  "new": "| .dist _ => none",
  "claim": "C16 priors count as definitions",
  "edit": "`| .dist d => some d.param` -> `| .dist _ => none`",
  "count": 1
 },
 {
  "id": "b043",
  "file": "Validate",
  "def": "VErr.isError",
  "old": "| .noObjective _ | .noConstraints _ | .undefVar _ | .undefParam _ => false",
  "new": "| .noObjective _ | .noConstraints _ | .undefVar _ | .undefParam _ | .dupShock .. => false",
  "claim": "C16 duplicates are errors",
  "edit": "`| .noObjective _ | .noConstraints _ | .undefVar _ | .undefParam _ => false` -> `| .noObjective _ | .noConstraints _ | .undefVar _ | .undefParam _ | .dupShock .. => false`",
  "count": 1
 },
 {
  "id": "b044",
  "file": "Validate",
  "def": "definedVars",
  "old": "b.controls.map VarRef.name ++ b.shocks.map VarRef.name ++",
  "new": "b.controls.map VarRef.name ++",
  "claim": "C18 shocks are defined",
  "edit": "`b.controls.map VarRef.name ++ b.shocks.map VarRef.name ++` -> `b.controls.map VarRef.name ++`",
  "count": 1
 },
 {
  "id": "b045",
  "file": "Validate",
  "def": "usedVars",
  "old": "(b.definitions ++ b.constraints ++ b.identities ++ b.objective).flatMap fun e => e.rhs.vars",
  "new": "(b.definitions ++ b.identities ++ b.objective).flatMap fun e => e.rhs.vars",
  "claim": "C18 variables used in constraints are checked",
  "edit": "`(b.definitions ++ b.constraints ++ b.identities ++ b.objective).flatMap fun e => e.rhs.vars` -> `(b.definitions ++ b.identities ++ b.objective).flatMap fun e => e.rhs.vars`",
  "count": 1
 },
 {
  "id": "b046",
  "file": "Validate",
  "def": "sortedMissing",
  "old": "n \u2209 defined \u2227 n \u2209 ext",
  "new": "n \u2209 defined",
  "claim": "C18 external names are not reported",
  "edit": "`n \u2209 defined \u2227 n \u2209 ext` -> `n \u2209 defined`",
  "count": 1
 },
 {
  "id": "b047",
  "file": "Validate",
  "def": "sortedMissing",
  "old": "mergeSort strLe",
  "new": "mergeSort fun a b => strLe b a",
  "claim": "C18 reported in sorted order",
  "edit": "`mergeSort strLe` -> `mergeSort fun a b => strLe b a`",
  "count": 1
 },
 {
  "id": "b048",
  "file": "Validate",
  "def": "usedParams",
  "old": "e.lhs.pars ++ e.rhs.pars",
  "new": "e.rhs.pars",
  "claim": "C18 parameters on the left are used too",
  "edit": "`e.lhs.pars ++ e.rhs.pars` -> `e.rhs.pars`",
  "count": 1
 },
 {
  "id": "b049",
  "file": "Validate",
  "def": "raiseFirst",
  "old": "es.find? VErr.isError",
  "new": "es.head?",
  "claim": "C17 warnings never raise",
  "edit": "`es.find? VErr.isError` -> `es.head?`",
  "count": 1
 },
 {
  "id": "b050",
  "file": "Validate",
  "def": "resultValidate",
  "old": "if raiseOnError \u2227 hasErrors errors then",
  "new": "if false \u2227 hasErrors errors then",
  "claim": "C17 validate(raise_on_error) raises",
  "edit": "`if raiseOnError \u2227 hasErrors errors then` -> `if false \u2227 hasErrors errors then`",
  "count": 1
 },
 {
  "id": "b051",
  "file": "Validate",
  "def": "preprocess",
  "old": "match resultValidate ast false with",
  "new": "match resultValidate ast true with",
  "claim": "C17 preprocess never raises (violation theorem must notice a fix)",
  "edit": "`match resultValidate ast false with` -> `match resultValidate ast true with`",
  "count": 1
 },
 {
  "id": "b052",
  "file": "Loader",
  "def": "isSkippedName",
  "old": "[['S','T','E','A','D','Y','S','T','A','T','E'], ['S','S']]\n\n",
  "new": "[['S','T','E','A','D','Y','S','T','A','T','E']]\n\n",
  "claim": "C53 steady-state blocks contribute no equations",
  "edit": "`[['S','T','E','A','D','Y','S','T','A','T','E'], ['S','S']]` -> `[['S','T','E','A','D','Y','S','T','A','T','E']]`",
  "count": 1
 },
 {
  "id": "b053",
  "file": "Loader",
  "def": "normName",
  "old": "(name.map Char.toUpper)",
  "new": "name",
  "claim": "C54 block names are case-insensitive",
  "edit": "`(name.map Char.toUpper)` -> `name`",
  "count": 1
 },
 {
  "id": "b054",
  "file": "Loader",
  "def": "mergeLoop",
  "old": "(dups ++ (dkeys d).filter fun k => k \u2208 dkeys acc)",
  "new": "dups",
  "claim": "C19 parameters defined twice are rejected",
  "edit": "`(dups ++ (dkeys d).filter fun k => k \u2208 dkeys acc)` -> `dups`",
  "count": 1
 },
 {
  "id": "b055",
  "file": "Loader",
  "def": "mergeLoop",
  "old": "mergeLoop ds (dupdate acc d)",
  "new": "mergeLoop ds (dupdate d acc)",
  "claim": "C19 merge without loss (order)",
  "edit": "`mergeLoop ds (dupdate acc d)` -> `mergeLoop ds (dupdate d acc)`",
  "count": 1
 },
 {
  "id": "b056",
  "file": "Loader",
  "def": "mergeParams",
  "old": "(sortToString r.1)",
  "new": "(sortToString (r.1.drop 1))",
  "claim": "C19 no parameter lost",
  "edit": "`(sortToString r.1)` -> `(sortToString (r.1.drop 1))`",
  "count": 1
 },
 {
  "id": "b057",
  "file": "Loader",
  "def": "insertBy",
  "old": "if le a b then a :: b :: l else b :: insertBy le a l",
  "new": "if le a b then a :: l else b :: insertBy le a l",
  "claim": "C19 sorting keeps all entries",
  "edit": "`if le a b then a :: b :: l else b :: insertBy le a l` -> `if le a b then a :: l else b :: insertBy le a l`",
  "count": 1
 },
 {
  "id": "b058",
  "file": "Loader",
  "def": "mergeVariables",
  "old": "((blocks.flatMap Prod.fst).map TSym.now).filter fun x => x \u2209 shocks",
  "new": "((blocks.flatMap Prod.fst).map TSym.now)",
  "claim": "C52 shocks are not variables",
  "edit": "`((blocks.flatMap Prod.fst).map TSym.now).filter fun x => x \u2209 shocks` -> `((blocks.flatMap Prod.fst).map TSym.now)`",
  "count": 1
 },
 {
  "id": "b059",
  "file": "Loader",
  "def": "mergeVariables",
  "old": "sortByName ((blocks.flatMap Prod.snd).map TSym.now)",
  "new": "sortByName (((blocks.take 1).flatMap Prod.snd).map TSym.now)",
  "claim": "C52 shocks of every block",
  "edit": "`sortByName ((blocks.flatMap Prod.snd).map TSym.now)` -> `sortByName (((blocks.take 1).flatMap Prod.snd).map TSym.now)`",
  "count": 1
 },
 {
  "id": "b060",
  "file": "Loader",
  "def": "Block.variableList",
  "old": "(prev ++ occurring ++ ms.filterMap Prod.snd)",
  "new": "(prev ++ occurring)",
  "claim": "C52 multipliers are variables",
  "edit": "`(prev ++ occurring ++ ms.filterMap Prod.snd)` -> `(prev ++ occurring)`",
  "count": 1
 },
 {
  "id": "b061",
  "file": "Loader",
  "def": "Block.variableList",
  "old": "(dvals B.objective ++ dvals B.constraints ++ dvals B.identities)",
  "new": "(dvals B.objective ++ dvals B.constraints)",
  "claim": "C52 variables of identities are variables",
  "edit": "`(dvals B.objective ++ dvals B.constraints ++ dvals B.identities)` -> `(dvals B.objective ++ dvals B.constraints)`",
  "count": 1
 },
 {
  "id": "b062",
  "file": "Loader",
  "def": "blockDictLoop",
  "old": "blockDictLoop asm ss bs (dset acc r.block.name r)",
  "new": "blockDictLoop asm ss bs (dset [] r.block.name r)",
  "claim": "C53 every block contributes",
  "edit": "`blockDictLoop asm ss bs (dset acc r.block.name r)` -> `blockDictLoop asm ss bs (dset [] r.block.name r)`",
  "count": 1
 },
 {
  "id": "b063",
  "file": "Loader",
  "def": "loadRest",
  "old": "equations := bs.flatMap Built.equations",
  "new": "equations := (bs.drop 1).flatMap Built.equations",
  "claim": "C53 every block contributes its equations",
  "edit": "`equations := bs.flatMap Built.equations` -> `equations := (bs.drop 1).flatMap Built.equations`",
  "count": 1
 },
 {
  "id": "b064",
  "file": "Loader",
  "def": "extractSS",
  "old": "match flattenSubs (defDict (ds ++ is)) with",
  "new": "match flattenSubs (defDict is) with",
  "claim": "C54 definitions are resolved in steady-state values",
  "edit": "`match flattenSubs (defDict (ds ++ is)) with` -> `match flattenSubs (defDict is) with`",
  "count": 1
 },
 {
  "id": "b065",
  "file": "Loader",
  "def": "extractSS",
  "old": "(is.filterMap SEq.lhsSym)",
  "new": "((ds ++ is).filterMap SEq.lhsSym)",
  "claim": "C54 definitions are not steady-state values",
  "edit": "`(is.filterMap SEq.lhsSym)` -> `((ds ++ is).filterMap SEq.lhsSym)`",
  "count": 1
 },
 {
  "id": "b066",
  "file": "Loader",
  "def": "extractTryreduce",
  "old": "variables.find? fun v => v.base = n",
  "new": "variables.find? fun v => v.base.isPrefixOf n",
  "claim": "C56 exactly the named variables",
  "edit": "`variables.find? fun v => v.base = n` -> `variables.find? fun v => v.base.isPrefixOf n`",
  "count": 1
 },
 {
  "id": "b067",
  "file": "Loader",
  "def": "constructBlock",
  "old": "match astBlockToBlock asm (expandBlock b) with",
  "new": "match astBlockToBlock asm b with",
  "claim": "C53 blocks are expanded before conversion",
  "edit": "`match astBlockToBlock asm (expandBlock b) with` -> `match astBlockToBlock asm b with`",
  "count": 1
 },
 {
  "id": "b068",
  "file": "Loader",
  "def": "shockLoop",
  "old": "| some d => shockLoop priors rest { s with hyper := dset s.hyper k d, names := dset s.names k n }",
  "new": "| some d => shockLoop priors rest { s with hyper := dset s.hyper n d, names := dset s.names k n }",
  "claim": "C55 hyper-prior stored under the keyword",
  "edit": "`| some d => shockLoop priors rest { s with hyper := dset s.hyper k d, names := dset s.names k n }` -> `| some d => shockLoop priors rest { s with hyper := dset s.hyper n d, names := dset s.names k n }`",
  "count": 1
 },
 {
  "id": "b069",
  "file": "Loader",
  "def": "createShockDist",
  "old": "if s.names.isEmpty then none else some s",
  "new": "some s",
  "claim": "C55 shocks with only fixed numbers give no hyper-prior entry",
  "edit": "`if s.names.isEmpty then none else some s` -> `some s`",
  "count": 1
 },
 {
  "id": "b070",
  "file": "Loader",
  "def": "loadDists",
  "old": "(blockShockDists (blockPriors ok b ps) b sd)",
  "new": "(blockShockDists ps b sd)",
  "claim": "C55 priors of the same block are linked",
  "edit": "`(blockShockDists (blockPriors ok b ps) b sd)` -> `(blockShockDists ps b sd)`",
  "count": 1
 },
 {
  "id": "b071",
  "file": "Loader",
  "def": "blockPriors",
  "old": "if ok d then dset ps d.param d else ps",
  "new": "ps",
  "claim": "C55 priors recorded",
  "edit": "`if ok d then dset ps d.param d else ps` -> `ps`",
  "count": 1
 },
 {
  "id": "b072",
  "file": "ParserMisc",
  "def": "scoreLe",
  "old": "if a.1 = b.1 then strLe a.2 b.2 else decide (b.1 < a.1)",
  "new": "if a.1 = b.1 then strLe a.2 b.2 else decide (a.1 < b.1)",
  "claim": "C42 best suggestions first",
  "edit": "`if a.1 = b.1 then strLe a.2 b.2 else decide (b.1 < a.1)` -> `if a.1 = b.1 then strLe a.2 b.2 else decide (a.1 < b.1)`",
  "count": 1
 },
 {
  "id": "b073",
  "file": "ParserMisc",
  "def": "findSimilar",
  "old": "fun p => minSim \u2264 p.1",
  "new": "fun p => minSim < p.1",
  "claim": "C42 threshold inclusive",
  "edit": "`fun p => minSim \u2264 p.1` -> `fun p => minSim < p.1`",
  "count": 1
 },
 {
  "id": "b074",
  "file": "ParserMisc",
  "def": "findSimilar",
  "old": ".take maxResults",
  "new": ".take (maxResults + 1)",
  "claim": "C42 at most max_results",
  "edit": "`.take maxResults` -> `.take (maxResults + 1)`",
  "count": 1
 },
 {
  "id": "b075",
  "file": "ParserMisc",
  "def": "findSimilar",
  "old": "if candidates.any fun c => lowerStr c = lowerStr name then []\n  else",
  "new": "if candidates.any fun c => c = name then []\n  else",
  "claim": "C42 no suggestion when the name exists up to case",
  "edit": "`if candidates.any fun c => lowerStr c = lowerStr name then []\n  else` -> `if candidates.any fun c => c = name then []\n  else`",
  "count": 1
 },
 {
  "id": "b076",
  "file": "ParserMisc",
  "def": "addAssumption",
  "old": "(if name = unitInterval then dset a positiveStr true else a)",
  "new": "a",
  "claim": "C44 unit interval implies positive",
  "edit": "`(if name = unitInterval then dset a positiveStr true else a)` -> `a`",
  "count": 1
 },
 {
  "id": "b077",
  "file": "ParserMisc",
  "def": "addAssumption",
  "old": "((dget d v).getD parserDefaults)",
  "new": "parserDefaults",
  "claim": "C44 assumptions of several sub-blocks accumulate",
  "edit": "`((dget d v).getD parserDefaults)` -> `parserDefaults`",
  "count": 1
 },
 {
  "id": "b078",
  "file": "ParserMisc",
  "def": "buildAssumptions",
  "old": "addAssumption (lowerStr b.1) v d",
  "new": "addAssumption b.1 v d",
  "claim": "C44 assumption names are lower-cased",
  "edit": "`addAssumption (lowerStr b.1) v d` -> `addAssumption b.1 v d`",
  "count": 1
 },
 {
  "id": "b079",
  "file": "ParserMisc",
  "def": "applyOp",
  "old": "if s = ['-'] then .ok (r - v)",
  "new": "if s = ['-'] then .ok (v - r)",
  "claim": "C46 subtraction",
  "edit": "`if s = ['-'] then .ok (r - v)` -> `if s = ['-'] then .ok (v - r)`",
  "count": 1
 },
 {
  "id": "b080",
  "file": "ParserMisc",
  "def": "applyOp",
  "old": "(if v = 0 then .error .zeroDivision else .ok (r / v))",
  "new": ".ok (r / v)",
  "claim": "C46 division by zero raises",
  "edit": "`(if v = 0 then .error .zeroDivision else .ok (r / v))` -> `.ok (r / v)`",
  "count": 1
 },
 {
  "id": "b081",
  "file": "ParserMisc",
  "def": "numLevels",
  "old": "[.sub, .add, .mul, .div]",
  "new": "[.add, .sub, .div, .mul]",
  "claim": "C46 precedence (10-4+3)",
  "edit": "`[.sub, .add, .mul, .div]` -> `[.add, .sub, .div, .mul]`",
  "count": 1
 },
 {
  "id": "b082",
  "file": "PerfectForesight",
  "def": "periodEntries",
  "old": "(if t > 0 then",
  "new": "(if t > 1 then",
  "claim": "C29 lag block of period 1",
  "edit": "`(if t > 0 then` -> `(if t > 1 then`",
  "count": 1
 },
 {
  "id": "b083",
  "file": "PerfectForesight",
  "def": "periodEntries",
  "old": "(if t < T - 1 then",
  "new": "(if t < T then",
  "claim": "C29 no lead block in the last period",
  "edit": "`(if t < T - 1 then` -> `(if t < T then`",
  "count": 1
 },
 {
  "id": "b084",
  "file": "PerfectForesight",
  "def": "periodEntries",
  "old": "(t * nEq) ((t - 1) * nVars) 0",
  "new": "(t * nEq) ((t - 1) * nEq) 0",
  "claim": "C29 column offsets (square so equal?)",
  "edit": "`(t * nEq) ((t - 1) * nVars) 0` -> `(t * nEq) ((t - 1) * nEq) 0`",
  "count": 1
 },
 {
  "id": "b085",
  "file": "PerfectForesight",
  "def": "periodEntries",
  "old": "((t + 1) * nVars) (2 * nVars) else",
  "new": "(t * nVars) (2 * nVars) else",
  "claim": "C29 lead entries in next period's columns",
  "edit": "`((t + 1) * nVars) (2 * nVars) else` -> `(t * nVars) (2 * nVars) else`",
  "count": 1
 },
 {
  "id": "b086",
  "file": "PerfectForesight",
  "def": "totalNnz",
  "old": "T * (nonzeroIn (J 0) nEq nVars nVars).length",
  "new": "(T - 1) * (nonzeroIn (J 0) nEq nVars nVars).length",
  "claim": "C29 preallocated length is exact",
  "edit": "`T * (nonzeroIn (J 0) nEq nVars nVars).length` -> `(T - 1) * (nonzeroIn (J 0) nEq nVars nVars).length`",
  "count": 1
 },
 {
  "id": "b087",
  "file": "PerfectForesight",
  "def": "blockEntries",
  "old": "J p.1 (lo + p.2)",
  "new": "J p.1 p.2",
  "claim": "C29 values from the right columns",
  "edit": "`J p.1 (lo + p.2)` -> `J p.1 p.2`",
  "count": 1
 },
 {
  "id": "b088",
  "file": "PerfectForesight",
  "def": "shockMatrix",
  "old": "| some path => (path[t]?).getD 0",
  "new": "| some path => (path[t + 1]?).getD 0",
  "claim": "C31 shock at its own period",
  "edit": "`| some path => (path[t]?).getD 0` -> `| some path => (path[t + 1]?).getD 0`",
  "count": 1
 },
 {
  "id": "b089",
  "file": "PerfectForesight",
  "def": "paramLoop",
  "old": "let idx := names.idxOf n",
  "new": "let idx := names.idxOf n + 1",
  "claim": "C31 parameter path in its own column",
  "edit": "`let idx := names.idxOf n` -> `let idx := names.idxOf n + 1`",
  "count": 1
 },
 {
  "id": "b090",
  "file": "PerfectForesight",
  "def": "periodArgs",
  "old": "if t = T - 1 then yTerm",
  "new": "if t = T then yTerm",
  "claim": "C30 terminal condition at the last period",
  "edit": "`if t = T - 1 then yTerm` -> `if t = T then yTerm`",
  "count": 1
 },
 {
  "id": "b091",
  "file": "PerfectForesight",
  "def": "periodArgs",
  "old": "if t = 0 then yInit",
  "new": "if t \u2264 1 then yInit",
  "claim": "C30 initial condition only at the first period",
  "edit": "`if t = 0 then yInit` -> `if t \u2264 1 then yInit`",
  "count": 1
 },
 {
  "id": "b092",
  "file": "PerfectForesight",
  "def": "periodArgs",
  "old": "params := params t",
  "new": "params := params 0",
  "claim": "C57 parameters of the period",
  "edit": "`params := params t` -> `params := params 0`",
  "count": 1
 },
 {
  "id": "b093",
  "file": "PerfectForesight",
  "def": "writeSlice",
  "old": "i < (t + 1) * nEq",
  "new": "i \u2264 (t + 1) * nEq",
  "claim": "C30 residual slices do not overlap",
  "edit": "`i < (t + 1) * nEq` -> `i \u2264 (t + 1) * nEq`",
  "count": 1
 },
 {
  "id": "b094",
  "file": "PerfectForesight",
  "def": "boundaryVector",
  "old": "conds.foldl (setCondition names) (ssToArray ss names)",
  "new": "ssToArray ss names",
  "claim": "C58 user conditions respected",
  "edit": "`conds.foldl (setCondition names) (ssToArray ss names)` -> `ssToArray ss names`",
  "count": 1
 },
 {
  "id": "b095",
  "file": "PerfectForesight",
  "def": "ssToArray",
  "old": "(dget ss (n ++ ssSuffix)).getD ((dget ss n).getD 1)",
  "new": "(dget ss n).getD 1",
  "claim": "C58 steady-state used where no condition",
  "edit": "`(dget ss (n ++ ssSuffix)).getD ((dget ss n).getD 1)` -> `(dget ss n).getD 1`",
  "count": 1
 },
 {
  "id": "b096",
  "file": "PerfectForesight",
  "def": "boundaryParams",
  "old": "let y \u2190 vs.getLast?",
  "new": "let y \u2190 vs.head?",
  "claim": "C58 terminal steady state uses last parameter values",
  "edit": "`let y \u2190 vs.getLast?` -> `let y \u2190 vs.head?`",
  "count": 1
 },
 {
  "id": "b097",
  "file": "PerfectForesight",
  "def": "piecewiseX0",
  "old": "(1 - w) * init c + w * term c",
  "new": "w * init c + (1 - w) * term c",
  "claim": "C59 transition goes from initial to terminal",
  "edit": "`(1 - w) * init c + w * term c` -> `w * init c + (1 - w) * term c`",
  "count": 1
 },
 {
  "id": "b098",
  "file": "PerfectForesight",
  "def": "piecewiseX0",
  "old": "else if stop \u2264 t then term c",
  "new": "else if stop < t then term c",
  "claim": "C59 terminal value after the transition",
  "edit": "`else if stop \u2264 t then term c` -> `else if stop < t then term c`",
  "count": 1
 },
 {
  "id": "b099",
  "file": "PerfectForesight",
  "def": "validatePF",
  "old": "p.2.length \u2260 T then .error .shockLength",
  "new": "p.2.length > T then .error .shockLength",
  "claim": "C31 shock path length must equal the horizon",
  "edit": "`p.2.length \u2260 T then .error .shockLength` -> `p.2.length > T then .error .shockLength`",
  "count": 1
 },
 {
  "id": "b100",
  "file": "PerfectForesight",
  "def": "validatePF",
  "old": "else if (dkeys (paths.getD [])).any fun n => n \u2209 paramNames then .error .unknownParam\n",
  "new": "",
  "claim": "C31 unknown parameters rejected",
  "edit": "`else if (dkeys (paths.getD [])).any fun n => n \u2209 paramNames then .error .unknownParam` -> ``",
  "count": 1
 },
 {
  "id": "b101",
  "file": "PerfectForesight",
  "def": "ParamModel.parameters",
  "old": "(d.1, d.2 p)",
  "new": "(d.1, d.2 m.free)",
  "claim": "C57 deterministic parameters follow updates",
  "edit": "`(d.1, d.2 p)` -> `(d.1, d.2 m.free)`",
  "count": 1
 },
 {
  "id": "b102",
  "file": "SparseRoot",
  "def": "checkConvergence",
  "old": "maxAbs s.res < fTol \u2228",
  "new": "maxAbs s.res < 2 * fTol \u2228",
  "claim": "C35 success is reported honestly",
  "edit": "`maxAbs s.res < fTol \u2228` -> `maxAbs s.res < 2 * fTol \u2228`",
  "count": 1
 },
 {
  "id": "b103",
  "file": "SparseRoot",
  "def": "rootLoop",
  "old": "else (r.1, { final := r.2.1, success := false, last := last",
  "new": "else (r.1, { final := r.2.1, success := true, last := last",
  "claim": "C35 rejected step is not a success",
  "edit": "`else (r.1, { final := r.2.1, success := false, last := last` -> `else (r.1, { final := r.2.1, success := true, last := last`",
  "count": 1
 },
 {
  "id": "b104",
  "file": "SparseRoot",
  "def": "rootLoop",
  "old": "| 0, o, s, last => (o, { final := s, success := false",
  "new": "| 0, o, s, last => (o, { final := s, success := true",
  "claim": "C35 iteration limit is not a success",
  "edit": "`| 0, o, s, last => (o, { final := s, success := false` -> `| 0, o, s, last => (o, { final := s, success := true`",
  "count": 1
 },
 {
  "id": "b105",
  "file": "SparseRoot",
  "def": "finishProposal",
  "old": "if slope \u2265 0 then { direction := -dx, slope := -slope }",
  "new": "if slope \u2265 0 then { direction := dx, slope := -slope }",
  "claim": "C32 descent direction",
  "edit": "`if slope \u2265 0 then { direction := -dx, slope := -slope }` -> `if slope \u2265 0 then { direction := dx, slope := -slope }`",
  "count": 1
 },
 {
  "id": "b106",
  "file": "SparseRoot",
  "def": "finishProposal",
  "old": "if slope \u2265 0 then",
  "new": "if slope \u2264 0 then",
  "claim": "C32 slope is non-positive",
  "edit": "`if slope \u2265 0 then` -> `if slope \u2264 0 then`",
  "count": 1
 },
 {
  "id": "b107",
  "file": "SparseRoot",
  "def": "backtrack",
  "old": "if phi \u2264 ref + cfg.c1 * alpha * p.slope then",
  "new": "if phi \u2264 ref - cfg.c1 * alpha * p.slope then",
  "claim": "C32 merit never increases",
  "edit": "`if phi \u2264 ref + cfg.c1 * alpha * p.slope then` -> `if phi \u2264 ref - cfg.c1 * alpha * p.slope then`",
  "count": 1
 },
 {
  "id": "b108",
  "file": "SparseRoot",
  "def": "backtrack",
  "old": "res := (f xt).1, jac := (f xt).2, phi := phi, nit := 0 }, alpha)",
  "new": "res := (f x).1, jac := (f xt).2, phi := phi, nit := 0 }, alpha)",
  "claim": "C35 state is consistent with the function",
  "edit": "`res := (f xt).1, jac := (f xt).2, phi := phi, nit := 0 }, alpha)` -> `res := (f x).1, jac := (f xt).2, phi := phi, nit := 0 }, alpha)`",
  "count": 1
 },
 {
  "id": "b109",
  "file": "SparseRoot",
  "def": "finishStep",
  "old": "step := alpha \u2022 p.direction }",
  "new": "step := p.direction }",
  "claim": "C35 reported step is the actual displacement",
  "edit": "`step := alpha \u2022 p.direction }` -> `step := p.direction }`",
  "count": 1
 },
 {
  "id": "b110",
  "file": "SparseRoot",
  "def": "armijoSolver",
  "old": "(backtrack cfg f s.x s.phi q.2 cfg.maxIter 1)",
  "new": "(backtrack cfg f s.x (2 * s.phi) q.2 cfg.maxIter 1)",
  "claim": "C32 merit never increases",
  "edit": "`(backtrack cfg f s.x s.phi q.2 cfg.maxIter 1)` -> `(backtrack cfg f s.x (2 * s.phi) q.2 cfg.maxIter 1)`",
  "count": 1
 },
 {
  "id": "b111",
  "file": "SparseRoot",
  "def": "nonmonotoneSolver",
  "old": "let h := pushHistory memory o.2 s.phi",
  "new": "let h := pushHistory (memory + 1) o.2 s.phi",
  "claim": "C33 only the last `memory` merits count",
  "edit": "`let h := pushHistory memory o.2 s.phi` -> `let h := pushHistory (memory + 1) o.2 s.phi`",
  "count": 1
 },
 {
  "id": "b112",
  "file": "SparseRoot",
  "def": "nonmonotoneSolver",
  "old": "reset := fun o => (fresh, o.2)",
  "new": "reset := fun _ => (fresh, [])",
  "claim": "C33 reuse (violation theorem must notice a fix)",
  "edit": "`reset := fun o => (fresh, o.2)` -> `reset := fun _ => (fresh, [])`",
  "count": 1
 },
 {
  "id": "b113",
  "file": "SparseRoot",
  "def": "trLoop",
  "old": "if 0 < pred \u2227 rho > cfg.eta then",
  "new": "if rho > cfg.eta then",
  "claim": "C34 accepted steps lower the merit",
  "edit": "`if 0 < pred \u2227 rho > cfg.eta then` -> `if rho > cfg.eta then`",
  "count": 1
 },
 {
  "id": "b114",
  "file": "SparseRoot",
  "def": "trLoop",
  "old": "min (cfg.grow * delta) cfg.deltaMax",
  "new": "cfg.grow * delta",
  "claim": "C34 radius stays below delta_max",
  "edit": "`min (cfg.grow * delta) cfg.deltaMax` -> `cfg.grow * delta`",
  "count": 1
 },
 {
  "id": "b115",
  "file": "SparseRoot",
  "def": "trLoop",
  "old": "| 0 => (delta * cfg.shrink, s, { accepted := false",
  "new": "| 0 => (delta * cfg.shrink, s, { accepted := true",
  "claim": "C35 exhausted rejections are not accepted",
  "edit": "`| 0 => (delta * cfg.shrink, s, { accepted := false` -> `| 0 => (delta * cfg.shrink, s, { accepted := true`",
  "count": 1
 },
 {
  "id": "b116",
  "file": "SparseRoot",
  "def": "doglegStep",
  "old": "let tau := (-cd + \u221a(max disc 0)) / dd",
  "new": "let tau := (-cd + \u221a(max disc 0)) / cc",
  "claim": "C34 dogleg step inside the region",
  "edit": "`let tau := (-cd + \u221a(max disc 0)) / dd` -> `let tau := (-cd + \u221a(max disc 0)) / cc`",
  "count": 1
 },
 {
  "id": "b117",
  "file": "SparseRoot",
  "def": "doglegStep",
  "old": "if norm2 pn \u2264 delta then pn",
  "new": "if norm2 pn \u2264 2 * delta then pn",
  "claim": "C34 Newton step inside the region",
  "edit": "`if norm2 pn \u2264 delta then pn` -> `if norm2 pn \u2264 2 * delta then pn`",
  "count": 1
 },
 {
  "id": "b118",
  "file": "SparseRoot",
  "def": "boundaryStep",
  "old": "let tau := (-pd + \u221a(max disc 0)) / dd",
  "new": "let tau := (pd + \u221a(max disc 0)) / dd",
  "claim": "C34 boundary step on the boundary",
  "edit": "`let tau := (-pd + \u221a(max disc 0)) / dd` -> `let tau := (pd + \u221a(max disc 0)) / dd`",
  "count": 1
 },
 {
  "id": "b119",
  "file": "SparseRoot",
  "def": "steihaugLoop",
  "old": "if norm2 pNext \u2265 delta then bstep p d delta",
  "new": "if norm2 pNext \u2265 2 * delta then bstep p d delta",
  "claim": "C34 CG iterates stay inside",
  "edit": "`if norm2 pNext \u2265 delta then bstep p d delta` -> `if norm2 pNext \u2265 2 * delta then bstep p d delta`",
  "count": 1
 },
 {
  "id": "b120",
  "file": "SparseRoot",
  "def": "lmLoop",
  "old": "max (lam * cfg.lamDown) cfg.minLam",
  "new": "lam * cfg.lamDown",
  "claim": "C60 damping stays above min_lambda",
  "edit": "`max (lam * cfg.lamDown) cfg.minLam` -> `lam * cfg.lamDown`",
  "count": 1
 },
 {
  "id": "b121",
  "file": "SparseRoot",
  "def": "lmLoop",
  "old": "if 0 < pred \u2227 (s.phi - phi) / pred > cfg.eta then",
  "new": "if 0 < pred then",
  "claim": "C60 accepted steps strictly lower the merit",
  "edit": "`if 0 < pred \u2227 (s.phi - phi) / pred > cfg.eta then` -> `if 0 < pred then`",
  "count": 1
 },
 {
  "id": "b122",
  "file": "SparseRoot",
  "def": "lmScale",
  "old": "max 1 ((J\u1d40 * J) i i)",
  "new": "max 0 ((J\u1d40 * J) i i)",
  "claim": "C60 scaling at least one (damped system positive definite)",
  "edit": "`max 1 ((J\u1d40 * J) i i)` -> `max 0 ((J\u1d40 * J) i i)`",
  "count": 1
 },
 {
  "id": "b123",
  "file": "SparseRoot",
  "def": "merit",
  "old": "0.5 * (res \u2b1d\u1d65 res)",
  "new": "res \u2b1d\u1d65 res",
  "claim": "C32 merit is half the squared norm",
  "edit": "`0.5 * (res \u2b1d\u1d65 res)` -> `res \u2b1d\u1d65 res`",
  "count": 1
 },
 {
  "id": "b124",
  "file": "ClosedForm",
  "def": "negSymbol",
  "old": "if q = -1 then some s else none",
  "new": "if q = 1 then some s else none",
  "claim": "C24 residual sign",
  "edit": "`if q = -1 then some s else none` -> `if q = 1 then some s else none`",
  "count": 1
 },
 {
  "id": "b125",
  "file": "ClosedForm",
  "def": "monomialLoop",
  "old": "| some _ => none\n    | none => monomialLoop fs (some s) ins",
  "new": "| some _ => monomialLoop fs (some s) ins\n    | none => monomialLoop fs (some s) ins",
  "claim": "C24 two bare symbols are not a Cobb-Douglas monomial",
  "edit": "`| some _ => none\n    | none => monomialLoop fs (some s) ins` -> `| some _ => monomialLoop fs (some s) ins\n    | none => monomialLoop fs (some s) ins`",
  "count": 1
 },
 {
  "id": "b126",
  "file": "ClosedForm",
  "def": "decomposeMonomial",
  "old": "else if (ins.map Prod.fst).Nodup then some (A, ins)\n    else none",
  "new": "else some (A, ins)",
  "claim": "C24 repeated inputs",
  "edit": "`else if (ins.map Prod.fst).Nodup then some (A, ins)\n    else none` -> `else some (A, ins)`",
  "count": 1
 },
 {
  "id": "b127",
  "file": "ClosedForm",
  "def": "matchCDResidual",
  "old": "if (Y :: (A.toList ++ ins.map Prod.fst)).Nodup then some \u27e8idx, Y, A, ins\u27e9 else none",
  "new": "some \u27e8idx, Y, A, ins\u27e9",
  "claim": "C24 Y may be an input",
  "edit": "`if (Y :: (A.toList ++ ins.map Prod.fst)).Nodup then some \u27e8idx, Y, A, ins\u27e9 else none` -> `some \u27e8idx, Y, A, ins\u27e9`",
  "count": 1
 },
 {
  "id": "b128",
  "file": "ClosedForm",
  "def": "Block.rawObjective",
  "old": ".minimize then obj.rhs.neg else obj.rhs",
  "new": ".minimize then obj.rhs else obj.rhs",
  "claim": "C24 minimise sign",
  "edit": "`.minimize then obj.rhs.neg else obj.rhs` -> `.minimize then obj.rhs else obj.rhs`",
  "count": 1
 },
 {
  "id": "b129",
  "file": "ClosedForm",
  "def": "Block.computeFoc",
  "old": ".div (.mul (.mul (.sym (.tv mu)) a) (.sym m.Y)) (.sym x)",
  "new": ".div (.mul (.mul (.sym (.tv mu)) a) (.sym x)) (.sym m.Y)",
  "claim": "C24 marginal product a*Y/x",
  "edit": "`.div (.mul (.mul (.sym (.tv mu)) a) (.sym m.Y)) (.sym x)` -> `.div (.mul (.mul (.sym (.tv mu)) a) (.sym x)) (.sym m.Y)`",
  "count": 1
 },
 {
  "id": "b130",
  "file": "ClosedForm",
  "def": "Block.computeFoc",
  "old": "((SExpr.num 1).sub m.s)",
  "new": "(m.s)",
  "claim": "C25 exponent 1-s",
  "edit": "`((SExpr.num 1).sub m.s)` -> `(m.s)`",
  "count": 1
 },
 {
  "id": "b131",
  "file": "ClosedForm",
  "def": "productivity",
  "old": "| some a => .pow (.sym a) s",
  "new": "| some a => .sym a",
  "claim": "C25 productivity A^s",
  "edit": "`| some a => .pow (.sym a) s` -> `| some a => .sym a`",
  "count": 1
 },
 {
  "id": "b132",
  "file": "ClosedForm",
  "def": "Block.closedFoc",
  "old": "| none => dttB L c df",
  "new": "| none => .ok od",
  "claim": "C24 controls that are not inputs get the generic condition",
  "edit": "`| none => dttB L c df` -> `| none => .ok od`",
  "count": 1
 },
 {
  "id": "b133",
  "file": "ClosedForm",
  "def": "cesInner",
  "old": "R.isZero ((SExpr.mul oe c).sub (.num 1))",
  "new": "R.isZero ((SExpr.mul oe c).sub (.num 2))",
  "claim": "C25 outer exponent is 1/s",
  "edit": "`R.isZero ((SExpr.mul oe c).sub (.num 1))` -> `R.isZero ((SExpr.mul oe c).sub (.num 2))`",
  "count": 1
 },
 {
  "id": "b134",
  "file": "ClosedForm",
  "def": "Block.solveKind",
  "old": "| .ok focs => .ok \u27e8eqs ++ focs, ms\u27e9",
  "new": "| .ok focs => .ok \u27e8eqs ++ focs, B.multipliers\u27e9",
  "claim": "C24 multiplier record",
  "edit": "`| .ok focs => .ok \u27e8eqs ++ focs, ms\u27e9` -> `| .ok focs => .ok \u27e8eqs ++ focs, B.multipliers\u27e9`",
  "count": 1
 }
]