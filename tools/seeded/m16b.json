[
 {
  "id": "r043",
  "file": "DirectConvert",
  "old": "| .sym (.tv x) => createName x",
  "new": "| .sym (.tv x) => x.base",
  "claim": "C127 key of an assignment",
  "edit": "`| .sym (.tv x) => createName x` -> `| .sym (.tv x) => x.base`",
  "count": 1,
  "def": "assignKey"
 },
 {
  "id": "r081",
  "file": "Figures",
  "old": "(List.range t.rows.length).zip t.cols, (List.range t.cols.length).zip t.rows",
  "new": "(List.range t.rows.length).zip t.rows, (List.range t.cols.length).zip t.cols",
  "claim": "C129 labels",
  "edit": "`(List.range t.rows.length).zip t.cols, (List.range t.cols.length).zip t.rows` -> `(List.range t.rows.length).zip t.rows, (List.range t.cols.length).zip t.cols`",
  "count": 1,
  "def": "heatTicks"
 },
 {
  "id": "r102",
  "file": "Figures",
  "old": ".getD 1",
  "new": ".getD 0",
  "claim": "C129 default one",
  "edit": "`.getD 1` -> `.getD 0`",
  "count": 1,
  "def": "sensValue"
 }
]