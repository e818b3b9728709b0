[{"id": "y000", "file": "Loader", "old": "astBlockToBlock asm (expandBlock b)", "new": "astBlockToBlock asm (if b.shockDists.isEmpty then expandBlock b else b)", "claim": "C149 shock distributions do not change the equations", "edit": "`astBlockToBlock asm (expandBlock b)` -> `astBlockToBlock asm (if b.shockDists.isEmpty then expandBlock b else b)`", "count": 1, "def": "constructBlock"}, {"id": "y001", "file": "LoadSimplified", "old": "astBlockToBlock asm (expandBlock b)", "new": "astBlockToBlock asm (if b.shockDists.isEmpty then expandBlock b else b)", "claim": "C149 shock distributions do not change the equations of the default model", "edit": "`astBlockToBlock asm (expandBlock b)` -> `astBlockToBlock asm (if b.shockDists.isEmpty then expandBlock b else b)`", "count": 1, "def": "constructBlockS"}, {"id": "y002", "file": "PrintText", "old": "    ++ eqnComp num ind \"definitions\" b.definitions\n", "new": "", "claim": "C149 definitions are printed", "edit": "`++ eqnComp num ind \"definitions\" b.definitions` -> ``", "count": 1, "def": "blockText"}, {"id": "y003", "file": "PrintText", "old": "eqnComp num ind \"constraints\" b.constraints", "new": "eqnComp num ind \"identities\" b.constraints", "claim": "C149 constraints are printed as constraints", "edit": "`eqnComp num ind \"constraints\" b.constraints` -> `eqnComp num ind \"identities\" b.constraints`", "count": 1, "def": "blockText"}, {"id": "y004", "file": "PrintText", "old": "++ m.blocks.map (blockText num ind))", "new": "++ (m.blocks.take 1).map (blockText num ind))", "claim": "C149 every block is printed", "edit": "`++ m.blocks.map (blockText num ind))` -> `++ (m.blocks.take 1).map (blockText num ind))`", "count": 1, "def": "modelText"}, {"id": "y005", "file": "PrintText", "old": "if kv.2 then dset g kv.1 ((dget g kv.1).getD [] ++ [va.1]) else g", "new": "if kv.2 then dset g kv.1 [va.1] else g", "claim": "C149 assumptions of every variable are printed", "edit": "`if kv.2 then dset g kv.1 ((dget g kv.1).getD [] ++ [va.1]) else g` -> `if kv.2 then dset g kv.1 [va.1] else g`", "count": 1, "def": "asmGroups"}, {"id": "y006", "file": "PrintText", "old": "(vs.map varText)", "new": "((vs.map varText).take 1)", "claim": "C149 every shock and control is printed", "edit": "`(vs.map varText)` -> `((vs.map varText).take 1)`", "count": 1, "def": "varComp"}, {"id": "y007", "file": "PrintText", "old": "| .prior d => distText num d", "new": "| .prior d => d.param ++ \" = 1;\".toList", "claim": "C149 priors are printed as priors", "edit": "`| .prior d => distText num d` -> `| .prior d => d.param ++ \" = 1;\".toList`", "count": 1, "def": "calText"}, {"id": "y008", "file": "ToDistribution", "old": "loadDists (acceptsDist pz) m.toMdl.blocks [] []", "new": "loadDists (acceptsDist pz) m.toMdl.blocks (m.options.map fun p => (p.1, \u27e8p.1, p.1, [], none, [], none\u27e9)) []", "claim": "C149 options are no priors (C120)", "edit": "`loadDists (acceptsDist pz) m.toMdl.blocks [] []` -> `loadDists (acceptsDist pz) m.toMdl.blocks (m.options.map fun p => (p.1, \u27e8p.1, p.1, [], none, [], none\u27e9)) []`", "count": 1, "def": "LoadGcnDists"}]