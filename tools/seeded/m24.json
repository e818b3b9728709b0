[{"id": "xz100", "file": "Loader", "old": "(blockShockDists (blockPriors ok b ps) b sd)", "new": "(blockShockDists (blockPriors ok b ps) b [])", "claim": "C148 the shock distributions of every block", "edit": "`(blockShockDists (blockPriors ok b ps) b sd)` -> `(blockShockDists (blockPriors ok b ps) b [])`", "count": 1, "def": "loadDists"}, {"id": "xz101", "file": "Loader", "old": "loadDists ok bs (blockPriors ok b ps)", "new": "loadDists ok bs (if ps.length < 2 then blockPriors ok b ps else ps)", "claim": "C148 the priors of every block, wherever it stands", "edit": "`loadDists ok bs (blockPriors ok b ps)` -> `loadDists ok bs (if ps.length < 2 then blockPriors ok b ps else ps)`", "count": 1, "def": "loadDists"}, {"id": "xz102", "file": "Loader", "old": "if ok d then dset ps d.param d else ps", "new": "if ok d then dset ps d.param { d with initial := if ps.isEmpty then d.initial else none } else ps", "claim": "C148 a prior does not depend on the priors before it", "edit": "`if ok d then dset ps d.param d else ps` -> `if ok d then dset ps d.param { d with initial := if ps.isEmpty then d.initial else none } else ps`", "count": 1, "def": "blockPriors"}, {"id": "xz103", "file": "Loader", "old": "shockLoop priors item.kwargs { name := item.param }", "new": "shockLoop (priors.take 2) item.kwargs { name := item.param }", "claim": "C148 a shock's priors are found wherever they stand among the priors", "edit": "`shockLoop priors item.kwargs { name := item.param }` -> `shockLoop (priors.take 2) item.kwargs { name := item.param }`", "count": 1, "def": "createShockDist"}]