[
 {
  "id": "u061",
  "file": "ErrorText",
  "old": "\"annotation\", \"notes\"]",
  "new": "\"annotation\"]",
  "claim": "C109 notes kept",
  "edit": "`\"annotation\", \"notes\"]` -> `\"annotation\"]`",
  "count": 2,
  "def": "rebuildArgs",
  "nth": 1
 },
 {
  "id": "u121",
  "file": "StateSpace",
  "old": "fun s => sigma s ^ 2",
  "new": "fun s => sigma s",
  "claim": "C76 covariance",
  "edit": "`fun s => sigma s ^ 2` -> `fun s => sigma s`",
  "count": 2,
  "def": "stateCov",
  "nth": 1
 }
]