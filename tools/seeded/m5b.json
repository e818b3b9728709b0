[{"id": "e006", "file": "SSDriver", "def": "inferTransform", "old": "else if a.has positiveStr then some .log", "new": "else if a.has positiveStr then none", "claim": "C79 declared positivity (transform)", "edit": "`else if a.has positiveStr then some .log` -> `else if a.has positiveStr then none`", "count": 1}]