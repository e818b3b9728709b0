[
 {
  "id": "p001",
  "file": "Report",
  "old": "8 - col % 8",
  "new": "4 - col % 4",
  "claim": "C124 width of tabs",
  "edit": "`8 - col % 8` -> `4 - col % 4`",
  "count": 2,
  "def": "expandedLen"
 }
]