[
 {
  "id": "w011",
  "file": "PFSolve",
  "old": "if rows \u2260 T \u2228 cols \u2260 names.length then .error",
  "new": "if rows \u2260 T then .error",
  "claim": "C132 array width",
  "edit": "`if rows \u2260 T \u2228 cols \u2260 names.length then .error` -> `if rows \u2260 T then .error`",
  "count": 1,
  "def": "guessVector"
 },
 {
  "id": "w015",
  "file": "PFSolve",
  "old": "cooAt s.2 i j",
  "new": "cooAt s.2 j i",
  "claim": "C132 jacobian transposed",
  "edit": "`cooAt s.2 i j` -> `cooAt s.2 j i`",
  "count": 1,
  "def": "pfSystem"
 },
 {
  "id": "w038",
  "file": "SolverReuse",
  "old": "({ o with mem := r.1.1, history := r.1.2 }, r.2)",
  "new": "({ o with mem := r.1.1, history := [] }, r.2)",
  "claim": "C134 history kept",
  "edit": "`({ o with mem := r.1.1, history := r.1.2 }, r.2)` -> `({ o with mem := r.1.1, history := [] }, r.2)`",
  "count": 1,
  "def": "LSObj.solveWith"
 },
 {
  "id": "w042",
  "file": "SolverReuse",
  "old": "if maxAbs (f x0).1 < fTol \u2228 maxiter = 0 \u2228 cls.maxIter = 0 then",
  "new": "if maxiter = 0 \u2228 cls.maxIter = 0 then",
  "claim": "C134 solved at the start",
  "edit": "`if maxAbs (f x0).1 < fTol \u2228 maxiter = 0 \u2228 cls.maxIter = 0 then` -> `if maxiter = 0 \u2228 cls.maxIter = 0 then`",
  "count": 1,
  "def": "LSObj.sparseRoot"
 },
 {
  "id": "w043",
  "file": "SolverReuse",
  "old": "\u2228 cls.maxIter = 0 then\n",
  "new": "then\n",
  "claim": "C134 no trials",
  "edit": "`\u2228 cls.maxIter = 0 then\n` -> `then\n`",
  "count": 1,
  "def": "LSObj.sparseRoot"
 },
 {
  "id": "w048",
  "file": "SolverReuse",
  "old": "f x0 1e-10 1e-10 1000",
  "new": "f x0 1e-10 1e-10 10",
  "claim": "C134 radius object",
  "edit": "`f x0 1e-10 1e-10 1000` -> `f x0 1e-10 1e-10 10`",
  "count": 2,
  "def": "radiusCall",
  "nth": 1
 }
]