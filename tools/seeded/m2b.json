[
 {
  "id": "a019",
  "file": "Containers",
  "def": "SDict.updateDict",
  "old": "let h := h.put d.ref ((h.get d.ref).update (h.get o.ref))",
  "new": "let h := h.put o.ref ((h.get d.ref).update (h.get o.ref))",
  "claim": "C05 update does not write into the operand",
  "edit": "`let h := h.put d.ref ((h.get d.ref).update (h.get o.ref))` -> `let h := h.put o.ref ((h.get d.ref).update (h.get o.ref))`",
  "count": 1
 },
 {
  "id": "a020",
  "file": "Containers",
  "def": "SDict.updateDict",
  "old": "let items := dupdate d.items o.items\n  let h",
  "new": "let items := dupdate o.items d.items\n  let h",
  "claim": "C05 merge: right operand wins",
  "edit": "`let items := dupdate d.items o.items\n  let h` -> `let items := dupdate o.items d.items\n  let h`",
  "count": 1
 },
 {
  "id": "a024",
  "file": "Containers",
  "def": "SDict.cleanUpdate",
  "old": "SDict.updateDict h' { d with items := [] } o",
  "new": "SDict.updateDict h' d o",
  "claim": "C03 in-place conversion replaces the old keys",
  "edit": "`SDict.updateDict h' { d with items := [] } o` -> `SDict.updateDict h' d o`",
  "count": 1
 },
 {
  "id": "a040",
  "file": "ExpandTime",
  "def": "expandModel",
  "old": "{ m with blocks := m.blocks.map expandBlock }",
  "new": "{ m with blocks := (m.blocks.take 1).map expandBlock }",
  "claim": "C07 every block is expanded",
  "edit": "`{ m with blocks := m.blocks.map expandBlock }` -> `{ m with blocks := (m.blocks.take 1).map expandBlock }`",
  "count": 1
 },
 {
  "id": "a037",
  "file": "ExpandTime",
  "def": "expandBlock",
  "old": "shockDists := b.shockDists\n",
  "new": "shockDists := []\n",
  "claim": "C08 shock distributions preserved",
  "edit": "`shockDists := b.shockDists` -> `shockDists := []`",
  "count": 1
 },
 {
  "id": "b008",
  "file": "Block",
  "def": "flagsAllowed",
  "old": "else if f.exclude && !mayExclude then .error .valueError\n",
  "new": "",
  "claim": "C67 exclude tag outside constraints is rejected",
  "edit": "`else if f.exclude && !mayExclude then .error .valueError` -> ``",
  "count": 1
 },
 {
  "id": "b009",
  "file": "Block",
  "def": "Block.validate",
  "old": "  if B.objective.isSome && B.controls.isNone then throw .optimizationProblemNotDefined\n",
  "new": "",
  "claim": "C67 objective without controls is rejected",
  "edit": "`if B.objective.isSome && B.controls.isNone then throw .optimizationProblemNotDefined` -> ``",
  "count": 1
 },
 {
  "id": "b010",
  "file": "Block",
  "def": "Block.validate",
  "old": "if (B.objective.getD []).length > 1 then",
  "new": "if (B.objective.getD []).length > 2 then",
  "claim": "C67 two objectives are rejected",
  "edit": "`if (B.objective.getD []).length > 1 then` -> `if (B.objective.getD []).length > 2 then`",
  "count": 1
 },
 {
  "id": "b011",
  "file": "Block",
  "def": "Block.validate",
  "old": "(dvals B.definitions ++ dvals B.objective ++ dvals B.constraints).any",
  "new": "(dvals B.definitions ++ dvals B.objective).any",
  "claim": "C67 control may occur in constraints only",
  "edit": "`(dvals B.definitions ++ dvals B.objective ++ dvals B.constraints).any` -> `(dvals B.definitions ++ dvals B.objective).any`",
  "count": 1
 },
 {
  "id": "b012",
  "file": "Block",
  "def": "Block.consolidate",
  "old": "\u27e8p.2.lhs, p.2.rhs.subsSeq flat\u27e9",
  "new": "\u27e8p.2.lhs, p.2.rhs\u27e9",
  "claim": "C49 definitions nested in definitions are eliminated",
  "edit": "`\u27e8p.2.lhs, p.2.rhs.subsSeq flat\u27e9` -> `\u27e8p.2.lhs, p.2.rhs\u27e9`",
  "count": 1
 },
 {
  "id": "b016",
  "file": "Block",
  "def": "trySubsSS",
  "old": "vars.any fun v => v.idx \u2260 .ss then",
  "new": "vars.any fun v => v.idx = .t 1 then",
  "claim": "C21 dated variables in deterministic parameters rejected",
  "edit": "`vars.any fun v => v.idx \u2260 .ss then` -> `vars.any fun v => v.idx = .t 1 then`",
  "count": 1
 },
 {
  "id": "b042",
  "file": "Validate",
  "def": "Calib.definedParam",
  "old": "| .dist d => some d.param",
  "new": "| .dist _ => none",
  "claim": "C16 priors count as definitions",
  "edit": "`| .dist d => some d.param` -> `| .dist _ => none`",
  "count": 1
 },
 {
  "id": "b052",
  "file": "Loader",
  "def": "isSkippedName",
  "old": "[['S','T','E','A','D','Y','S','T','A','T','E'], ['S','S']]\n\n",
  "new": "[['S','T','E','A','D','Y','S','T','A','T','E']]\n\n",
  "claim": "C53 steady-state blocks contribute no equations",
  "edit": "`[['S','T','E','A','D','Y','S','T','A','T','E'], ['S','S']]` -> `[['S','T','E','A','D','Y','S','T','A','T','E']]`",
  "count": 1
 },
 {
  "id": "b053",
  "file": "Loader",
  "def": "normName",
  "old": "(name.map Char.toUpper)",
  "new": "name",
  "claim": "C54 block names are case-insensitive",
  "edit": "`(name.map Char.toUpper)` -> `name`",
  "count": 1
 },
 {
  "id": "b069",
  "file": "Loader",
  "def": "createShockDist",
  "old": "if s.names.isEmpty then none else some s",
  "new": "some s",
  "claim": "C55 shocks with only fixed numbers give no hyper-prior entry",
  "edit": "`if s.names.isEmpty then none else some s` -> `some s`",
  "count": 1
 },
 {
  "id": "b081",
  "file": "ParserMisc",
  "def": "numLevels",
  "old": "[.sub, .add, .mul, .div]",
  "new": "[.add, .sub, .div, .mul]",
  "claim": "C46 precedence (10-4+3)",
  "edit": "`[.sub, .add, .mul, .div]` -> `[.add, .sub, .div, .mul]`",
  "count": 1
 },
 {
  "id": "b130",
  "file": "ClosedForm",
  "def": "Block.computeFoc",
  "old": "((SExpr.num 1).sub m.s)",
  "new": "(m.s)",
  "claim": "C25 exponent 1-s",
  "edit": "`((SExpr.num 1).sub m.s)` -> `(m.s)`",
  "count": 1
 },
 {
  "id": "b131",
  "file": "ClosedForm",
  "def": "productivity",
  "old": "| some a => .pow (.sym a) s",
  "new": "| some a => .sym a",
  "claim": "C25 productivity A^s",
  "edit": "`| some a => .pow (.sym a) s` -> `| some a => .sym a`",
  "count": 1
 }
]