[
{
"id": "j030",
"file": "Grammar",
"def": "wrappers",
"old": "\"Truncated\".toList, ",
"new": "",
"claim": "C107 wrappers",
"edit": "`\"Truncated\".toList, ` -> ``",
"count": 1
},
{
"id": "j031",
"file": "Grammar",
"def": "assumptionNames",
"old": "\"finite\".toList, ",
"new": "",
"claim": "C107 assumption names",
"edit": "`\"finite\".toList, ` -> ``",
"count": 1
}
]