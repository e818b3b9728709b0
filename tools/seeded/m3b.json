[
 {
  "id": "c006",
  "file": "Simplification",
  "def": "tryreduceStep",
  "old": "(cand.filter fun e => e = .num 0).length = 1 ∧",
  "new": "1 ≤ (cand.filter fun e => e = .num 0).length ∧",
  "claim": "C26 exactly one equation disappears per variable",
  "edit": "`(cand.filter fun e => e = .num 0).length = 1 ∧` -> `1 ≤ (cand.filter fun e => e = .num 0).length ∧`",
  "count": 1
 },
 {
  "id": "c015",
  "file": "Simplification",
  "def": "simplifyConstants",
  "old": "filter fun e => e ≠ .num 0",
  "new": "filter fun e => e = e",
  "claim": "C27 satisfied equations are removed",
  "edit": "`filter fun e => e ≠ .num 0` -> `filter fun e => e = e`",
  "count": 2,
  "nth": 1
 },
 {
  "id": "c048",
  "file": "LinearSolve",
  "def": "scanLoop",
  "old": "if norm < tol then scanLoop",
  "new": "if tol < norm then scanLoop",
  "claim": "C61 scan stops once converged",
  "edit": "`if norm < tol then scanLoop` -> `if tol < norm then scanLoop`",
  "count": 1
 },
 {
  "id": "c052",
  "file": "Simulate",
  "def": "shockMode",
  "old": "match a.traj with\n  | some tr => .trajectory tr\n  | none =>\n",
  "new": "match a.traj with\n  | some _ => .size none\n  | none =>\n",
  "claim": "C38 a trajectory is used",
  "edit": "`match a.traj with\n  | some tr => .trajectory tr\n  | none =>\n` -> `match a.traj with\n  | some _ => .size none\n  | none =>\n`",
  "count": 1
 },
 {
  "id": "c055",
  "file": "Simulate",
  "def": "inferIndividual",
  "old": "| .trajectory _ => false",
  "new": "| .trajectory _ => true",
  "claim": "C38 trajectories are joint by default",
  "edit": "`| .trajectory _ => false` -> `| .trajectory _ => true`",
  "count": 1
 },
 {
  "id": "c056",
  "file": "Simulate",
  "def": "inferIndividual",
  "old": "| some b => b\n",
  "new": "| some b => !b\n",
  "claim": "C38 requested mode wins",
  "edit": "`| some b => b\n` -> `| some b => !b\n`",
  "count": 1
 },
 {
  "id": "c061",
  "file": "Simulate",
  "def": "buildTrajectory",
  "old": "| some L => impulse len (L *ᵥ z)",
  "new": "| some L => impulse len (Lᵀ *ᵥ z)",
  "claim": "C38 draws have the covariance given",
  "edit": "`| some L => impulse len (L *ᵥ z)` -> `| some L => impulse len (Lᵀ *ᵥ z)`",
  "count": 1
 },
 {
  "id": "c065",
  "file": "Simulate",
  "def": "irfLength",
  "old": "| .trajectory tr => tr.rows.length",
  "new": "| .trajectory _ => len",
  "claim": "C38 length of a given trajectory",
  "edit": "`| .trajectory tr => tr.rows.length` -> `| .trajectory _ => len`",
  "count": 1
 }
]