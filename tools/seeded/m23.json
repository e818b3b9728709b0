[{"id": "xz000", "file": "LoadSimplified", "old": "    if isSkippedName b.name then blockDictLoopS ops asm ss bs acc\n", "new": "    if isSkippedName b.name then .ok acc\n", "claim": "C148 blocks after a skipped one load, whatever the order", "edit": "`if isSkippedName b.name then blockDictLoopS ops asm ss bs acc` -> `if isSkippedName b.name then .ok acc`", "count": 1, "def": "blockDictLoopS"}, {"id": "xz001", "file": "LoadSimplified", "old": "(dset acc r.built.block.name r)", "new": "(if acc.isEmpty then dset acc r.built.block.name r else acc)", "claim": "C148 every block counts, not only the first", "edit": "`(dset acc r.built.block.name r)` -> `(if acc.isEmpty then dset acc r.built.block.name r else acc)`", "count": 1, "def": "blockDictLoopS"}, {"id": "xz002", "file": "LoadSimplified", "old": "match constructBlockS ops asm ss b with", "new": "match constructBlockS (if acc.isEmpty then ops else { ops with solve := fun _ _ => none }) asm ss b with", "claim": "C148 blocks are simplified alike whatever their place", "edit": "`match constructBlockS ops asm ss b with` -> `match constructBlockS (if acc.isEmpty then ops else { ops with solve := fun _ _ => none }) asm ss b with`", "count": 1, "def": "blockDictLoopS"}, {"id": "xz003", "file": "LoadSimplified", "old": "equations := bs.flatMap Built.equations", "new": "equations := (bs.take 1).flatMap Built.equations", "claim": "C148 the equations of every block", "edit": "`equations := bs.flatMap Built.equations` -> `equations := (bs.take 1).flatMap Built.equations`", "count": 1, "def": "loadRestS"}, {"id": "xz004", "file": "LoadSimplified", "old": "bd.flatMap fun p => p.2.eliminated)", "new": "(bd.take 1).flatMap fun p => p.2.eliminated)", "claim": "C148 the multipliers eliminated in every block", "edit": "`bd.flatMap fun p => p.2.eliminated)` -> `(bd.take 1).flatMap fun p => p.2.eliminated)`", "count": 1, "def": "loadRestS"}, {"id": "xz005", "file": "LoadSimplified", "old": "mergeVariables (bs.map fun b => (b.variables", "new": "mergeVariables ((bs.take 1).map fun b => (b.variables", "claim": "C148 the variables of every block", "edit": "`mergeVariables (bs.map fun b => (b.variables` -> `mergeVariables ((bs.take 1).map fun b => (b.variables`", "count": 1, "def": "loadRestS"}, {"id": "xz006", "file": "LoadSimplified", "old": "mergeParams (bs.map fun b => b.dicts.determ)", "new": "mergeParams ((bs.take 1).map fun b => b.dicts.determ)", "claim": "C148 the computed parameters of every block", "edit": "`mergeParams (bs.map fun b => b.dicts.determ)` -> `mergeParams ((bs.take 1).map fun b => b.dicts.determ)`", "count": 1, "def": "loadRestS"}, {"id": "xz007", "file": "LoadSimplified", "old": "tryreduce := extractTryreduce m.tryreduce vs.1", "new": "tryreduce := extractTryreduce m.tryreduce ((bs.take 1).flatMap Built.variables)", "claim": "C148 names to reduce are looked up in all blocks", "edit": "`tryreduce := extractTryreduce m.tryreduce vs.1` -> `tryreduce := extractTryreduce m.tryreduce ((bs.take 1).flatMap Built.variables)`", "count": 1, "def": "loadRestS"}, {"id": "xz008", "file": "LoadSimplified", "old": "ss := sortToString ss", "new": "ss := sortToString (ss.take bd.length)", "claim": "C148 the steady-state values are those of the file", "edit": "`ss := sortToString ss` -> `ss := sortToString (ss.take bd.length)`", "count": 1, "def": "loadRestS"}, {"id": "xz009", "file": "LoadSimplified", "old": "match extractSS m.assumptions m with", "new": "match extractSS m.assumptions { m with blocks := m.blocks.take 1 } with", "claim": "C148 the steady-state block is found wherever it stands", "edit": "`match extractSS m.assumptions m with` -> `match extractSS m.assumptions { m with blocks := m.blocks.take 1 } with`", "count": 1, "def": "loadModelS"}]