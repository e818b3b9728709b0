[
 {
  "id": "g026",
  "file": "Diagnostics",
  "def": "checkOneDraw",
  "old": "| .numeric => some ⟨some .steadyState, none, none⟩",
  "new": "| .numeric => none",
  "claim": "C86 numeric steady-state failures are labelled",
  "edit": "`| .numeric => some ⟨some .steadyState, none, none⟩` -> `| .numeric => none`",
  "count": 1
 },
 {
  "id": "g035",
  "file": "Diagnostics",
  "def": "npCall",
  "old": "if n = 1 then .other else .numeric",
  "new": "if n = 1 then .numeric else .other",
  "claim": "C86 class of numpy errors",
  "edit": "`if n = 1 then .other else .numeric` -> `if n = 1 then .numeric else .other`",
  "count": 1
 },
 {
  "id": "g036",
  "file": "Diagnostics",
  "def": "npCall",
  "old": "| .singular => .numeric",
  "new": "| .singular => .other",
  "claim": "C86 class of numpy errors",
  "edit": "`| .singular => .numeric` -> `| .singular => .other`",
  "count": 1
 },
 {
  "id": "g047",
  "file": "Diagnostics",
  "def": "isIdentifier",
  "old": "(c.isAlpha || c == '_')",
  "new": "(c.isAlphanum || c == '_')",
  "claim": "C86 parameters",
  "edit": "`(c.isAlpha || c == '_')` -> `(c.isAlphanum || c == '_')`",
  "count": 1
 },
 {
  "id": "g049",
  "file": "Diagnostics",
  "def": "badField",
  "old": "|| decide (name ∈ seen)",
  "new": "",
  "claim": "C86 duplicates renamed",
  "edit": "`|| decide (name ∈ seen)` -> ``",
  "count": 1
 },
 {
  "id": "g082",
  "file": "Diagnostics",
  "def": "sampleFromPriorsQmc",
  "old": "if method = \"sobol\".toList ∧ sobolRefuses n then .error .notPowerOfTwo\n  else\n    match",
  "new": "if False then .error .notPowerOfTwo\n  else\n    match",
  "claim": "C87 Sobol sizes (ppf)",
  "edit": "`if method = \"sobol\".toList ∧ sobolRefuses n then .error .notPowerOfTwo\n  else\n    match` -> `if False then .error .notPowerOfTwo\n  else\n    match`",
  "count": 1
 }
]