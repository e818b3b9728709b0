[{"id": "z035", "file": "Loader", "old": "sortByName ((blocks.flatMap Prod.snd).map TSym.now)", "new": "((blocks.flatMap Prod.snd).map TSym.now).eraseDups", "claim": "C148 shocks do not depend on the order of blocks", "edit": "`sortByName ((blocks.flatMap Prod.snd).map TSym.now)` -> `((blocks.flatMap Prod.snd).map TSym.now).eraseDups`", "count": 1, "def": "mergeVariables"}, {"id": "z036", "file": "Loader", "old": "sortByName (((blocks.flatMap Prod.fst).map TSym.now).filter fun x => x \u2209 shocks)", "new": "(((blocks.flatMap Prod.fst).map TSym.now).filter fun x => x \u2209 shocks).eraseDups", "claim": "C148 variables do not depend on the order of blocks", "edit": "`sortByName (((blocks.flatMap Prod.fst).map TSym.now).filter fun x => x \u2209 shocks)` -> `(((blocks.flatMap Prod.fst).map TSym.now).filter fun x => x \u2209 shocks).eraseDups`", "count": 1, "def": "mergeVariables"}, {"id": "z037", "file": "Loader", "old": "sortBy (fun a b => strLe a.1 b.1) (dupdate [] (d.map fun p => (p.1.toStr, p.2)))", "new": "dupdate [] (d.map fun p => (p.1.toStr, p.2))", "claim": "C148 parameters do not depend on the order of blocks", "edit": "`sortBy (fun a b => strLe a.1 b.1) (dupdate [] (d.map fun p => (p.1.toStr, p.2)))` -> `dupdate [] (d.map fun p => (p.1.toStr, p.2))`", "count": 1, "def": "sortToString"}, {"id": "z038", "file": "Loader", "old": "(dkeys d).filter fun k => k \u2208 dkeys acc)", "new": "(dkeys d).filter fun k => k \u2208 dkeys acc \u2227 acc.length < 3)", "claim": "C148 success does not depend on the order of blocks", "edit": "`(dkeys d).filter fun k => k \u2208 dkeys acc)` -> `(dkeys d).filter fun k => k \u2208 dkeys acc \u2227 acc.length < 3)`", "count": 1, "def": "mergeLoop"}, {"id": "z039", "file": "Loader", "old": "if isSkippedName b.name then blockDictLoop asm ss bs acc", "new": "if isSkippedName b.name then .ok acc", "claim": "C148 blocks after the steady state are read", "edit": "`if isSkippedName b.name then blockDictLoop asm ss bs acc` -> `if isSkippedName b.name then .ok acc`", "count": 1, "def": "blockDictLoop"}, {"id": "z040", "file": "Loader", "old": "(dset acc r.block.name r)", "new": "[(r.block.name, r)]", "claim": "C148 all blocks are kept", "edit": "`(dset acc r.block.name r)` -> `[(r.block.name, r)]`", "count": 1, "def": "blockDictLoop"}, {"id": "z041", "file": "Loader", "old": "(blocks.flatMap Prod.snd).map TSym.now", "new": "((blocks.take 1).flatMap Prod.snd).map TSym.now", "claim": "C148 shocks of any block", "edit": "`(blocks.flatMap Prod.snd).map TSym.now` -> `((blocks.take 1).flatMap Prod.snd).map TSym.now`", "count": 1, "def": "mergeVariables"}, {"id": "z042", "file": "Loader", "old": "equations := bs.flatMap Built.equations", "new": "equations := (bs.take 1).flatMap Built.equations", "claim": "C148 equations of all blocks", "edit": "`equations := bs.flatMap Built.equations` -> `equations := (bs.take 1).flatMap Built.equations`", "count": 1, "def": "loadRest"}]