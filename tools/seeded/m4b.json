[{"id": "d028", "file": "Statistics", "def": "dimLabels", "old": "\"Equation \".toList ++ natStr i", "new": "\"Equation \".toList ++ natStr (i + 1)", "claim": "C64 equation labels", "edit": "`\"Equation \".toList ++ natStr i` -> `\"Equation \".toList ++ natStr (i + 1)`", "count": 1}, {"id": "d036", "file": "Perturbation", "def": "inLoglin", "old": "| none => decide (j < vars.length)", "new": "| none => false", "claim": "C39 all variables by default", "edit": "`| none => decide (j < vars.length)` -> `| none => false`", "count": 1}, {"id": "d092", "file": "SteadyState", "def": "ssResidual", "old": "if ss.isEmpty then ssEqs ++ calib.map Prod.snd", "new": "if ss.isEmpty then ssEqs", "claim": "C72 calibrating equations are part of the system", "edit": "`if ss.isEmpty then ssEqs ++ calib.map Prod.snd` -> `if ss.isEmpty then ssEqs`", "count": 1}]