[{"id": "n056", "file": "ToDistribution", "def": "acceptsDist", "old": "| .error _ => false", "new": "| .error _ => true", "claim": "C120 refused distributions", "edit": "`| .error _ => false` -> `| .error _ => true`", "count": 1}, {"id": "n058", "file": "ToDistribution", "def": "metadata", "old": "(d.param, d.initial,", "new": "(d.dist, d.initial,", "claim": "C120 metadata", "edit": "`(d.param, d.initial,` -> `(d.dist, d.initial,`", "count": 1}, {"id": "n059", "file": "ToDistribution", "def": "distsFromCalibration", "old": "| .eq _ :: cs, acc => distsFromCalibration pz cs acc", "new": "| .eq _ :: _, acc => .ok acc", "claim": "C120 priors after equations", "edit": "`| .eq _ :: cs, acc => distsFromCalibration pz cs acc` -> `| .eq _ :: _, acc => .ok acc`", "count": 1}, {"id": "n060", "file": "ToDistribution", "def": "distsFromModel", "old": "distsFromModel pz bs (dupdate acc r)", "new": "distsFromModel pz bs r", "claim": "C120 priors of every block", "edit": "`distsFromModel pz bs (dupdate acc r)` -> `distsFromModel pz bs r`", "count": 1}]