[{"id": "z000", "file": "NodeText", "old": "if v.den = 1 then intText v.num else num v", "new": "num v", "claim": "C147 whole numbers are printed without a point", "edit": "`if v.den = 1 then intText v.num else num v` -> `num v`", "count": 1, "def": "exprStr"}, {"id": "z001", "file": "NodeText", "old": "n ++ indexText t", "new": "n ++ indexText (.t 0)", "claim": "C147 dates are printed", "edit": "`n ++ indexText t` -> `n ++ indexText (.t 0)`", "count": 1, "def": "exprStr"}, {"id": "z002", "file": "NodeText", "old": "'(' :: (exprStr num l ++ ' ' :: opText o :: ' ' :: exprStr num r ++ [')'])", "new": "exprStr num l ++ ' ' :: opText o :: ' ' :: exprStr num r", "claim": "C147 parentheses around operations", "edit": "`'(' :: (exprStr num l ++ ' ' :: opText o :: ' ' :: exprStr num r ++ [')'])` -> `exprStr num l ++ ' ' :: opText o :: ' ' :: exprStr num r`", "count": 1, "def": "exprStr"}, {"id": "z003", "file": "NodeText", "old": "exprStr num l ++ ' ' :: opText o :: ' ' :: exprStr num r ++", "new": "exprStr num r ++ ' ' :: opText o :: ' ' :: exprStr num l ++", "claim": "C147 operands in order", "edit": "`exprStr num l ++ ' ' :: opText o :: ' ' :: exprStr num r ++` -> `exprStr num r ++ ' ' :: opText o :: ' ' :: exprStr num l ++`", "count": 1, "def": "exprStr"}, {"id": "z004", "file": "NodeText", "old": "'(' :: '-' :: (exprStr num e ++ [')'])", "new": "'-' :: exprStr num e", "claim": "C147 parentheses around negations", "edit": "`'(' :: '-' :: (exprStr num e ++ [')'])` -> `'-' :: exprStr num e`", "count": 1, "def": "exprStr"}, {"id": "z005", "file": "NodeText", "old": "f ++ '(' :: (argsStr num as ++ [')'])", "new": "'(' :: (argsStr num as ++ [')'])", "claim": "C147 the function is printed", "edit": "`f ++ '(' :: (argsStr num as ++ [')'])` -> `'(' :: (argsStr num as ++ [')'])`", "count": 1, "def": "exprStr"}, {"id": "z006", "file": "NodeText", "old": "'E' :: '[' :: ']' :: '[' :: (exprStr num e ++ [']'])", "new": "exprStr num e", "claim": "C147 expectations are printed", "edit": "`'E' :: '[' :: ']' :: '[' :: (exprStr num e ++ [']'])` -> `exprStr num e`", "count": 1, "def": "exprStr"}, {"id": "z007", "file": "NodeText", "old": "exprStr num a ++ ',' :: ' ' :: argsStr num as", "new": "exprStr num a ++ ' ' :: argsStr num as", "claim": "C147 commas between arguments", "edit": "`exprStr num a ++ ',' :: ' ' :: argsStr num as` -> `exprStr num a ++ ' ' :: argsStr num as`", "count": 1, "def": "argsStr"}, {"id": "z008", "file": "NodeText", "old": "| a :: as => exprStr num a ++ ',' :: ' ' :: argsStr num as", "new": "| a :: _ => exprStr num a", "claim": "C147 all arguments are printed", "edit": "`| a :: as => exprStr num a ++ ',' :: ' ' :: argsStr num as` -> `| a :: _ => exprStr num a`", "count": 1, "def": "argsStr"}, {"id": "z009", "file": "NodeText", "old": "\"@minimize\".toList", "new": "\"@maximize\".toList", "claim": "C147 tags are printed", "edit": "`\"@minimize\".toList` -> `\"@maximize\".toList`", "count": 1, "def": "tagStr"}, {"id": "z010", "file": "NodeText", "old": "[.exclude, .maximize, .minimize]", "new": "[.exclude, .maximize]", "claim": "C147 all tags are printed", "edit": "`[.exclude, .maximize, .minimize]` -> `[.exclude, .maximize]`", "count": 1, "def": "sortedTags"}, {"id": "z011", "file": "NodeText", "old": "joinText ['\\n'] (", "new": "joinText [] (", "claim": "C147 an equation with two tags reads back", "edit": "`joinText ['\\n'] (` -> `joinText [] (`", "count": 1, "def": "eqnStr"}, {"id": "z012", "file": "NodeText", "old": "exprStr num e.lhs ++ \" = \".toList ++ exprStr num e.rhs", "new": "exprStr num e.rhs ++ \" = \".toList ++ exprStr num e.lhs", "claim": "C147 sides in order", "edit": "`exprStr num e.lhs ++ \" = \".toList ++ exprStr num e.rhs` -> `exprStr num e.rhs ++ \" = \".toList ++ exprStr num e.lhs`", "count": 1, "def": "eqnStr"}, {"id": "z013", "file": "NodeText", "old": "\" -> \".toList ++ n", "new": "\" : \".toList ++ n", "claim": "C147 the arrow is printed", "edit": "`\" -> \".toList ++ n` -> `\" : \".toList ++ n`", "count": 1, "def": "eqnStr"}, {"id": "z014", "file": "NodeText", "old": "(match given e.calibrating with | some n => \" -> \".toList ++ n | none => [])", "new": "[]", "claim": "C147 the calibrated parameter is printed", "edit": "`(match given e.calibrating with | some n => \" -> \".toList ++ n | none => [])` -> `[]`", "count": 1, "def": "eqnStr"}, {"id": "z015", "file": "NodeText", "old": "\" : \".toList ++ n | none => [])", "new": "\" : \".toList ++ n ++ \"[]\".toList | none => [])", "claim": "C147 (repair) multiplier with its brackets", "edit": "`\" : \".toList ++ n | none => [])` -> `\" : \".toList ++ n ++ \"[]\".toList | none => [])`", "count": 1, "def": "eqnStr"}, {"id": "z016", "file": "NodeText", "old": "d.kwargs.map fun p => p.1 ++ '=' :: valText num p.2", "new": "d.kwargs.map fun p => valText num p.2", "claim": "C147 names of arguments of a prior", "edit": "`d.kwargs.map fun p => p.1 ++ '=' :: valText num p.2` -> `d.kwargs.map fun p => valText num p.2`", "count": 1, "def": "distStr"}, {"id": "z017", "file": "NodeText", "old": "++ \", \".toList ++ wk ++ [')']", "new": "++ wk ++ [')']", "claim": "C147 a comma before the arguments of the wrapper", "edit": "`++ \", \".toList ++ wk ++ [')']` -> `++ wk ++ [')']`", "count": 1, "def": "distStr"}, {"id": "z018", "file": "NodeText", "old": "if wk = [] then c :: w ++ '(' :: (inner ++ [')']) else", "new": "if wk = [] then inner else", "claim": "C147 a wrapper without arguments is kept", "edit": "`if wk = [] then c :: w ++ '(' :: (inner ++ [')']) else` -> `if wk = [] then inner else`", "count": 1, "def": "distStr"}, {"id": "z019", "file": "NodeText", "old": "some v => \" = \".toList ++ num v", "new": "some v => num v", "claim": "C147 the starting value is printed", "edit": "`some v => \" = \".toList ++ num v` -> `some v => num v`", "count": 1, "def": "distStr"}, {"id": "z020", "file": "NodeText", "old": "d.param ++ \" ~ \".toList ++ full", "new": "full", "claim": "C147 the parameter of a prior is printed", "edit": "`d.param ++ \" ~ \".toList ++ full` -> `full`", "count": 1, "def": "distStr"}, {"id": "z021", "file": "NodeText", "old": ".neg e :: visited e", "new": "[.neg e]", "claim": "C147 variables under a minus are collected", "edit": "`.neg e :: visited e` -> `[.neg e]`", "count": 1, "def": "visited"}, {"id": "z022", "file": "NodeText", "old": ".expect e :: visited e", "new": "[.expect e]", "claim": "C147 variables in expectations are collected", "edit": "`.expect e :: visited e` -> `[.expect e]`", "count": 1, "def": "visited"}, {"id": "z023", "file": "NodeText", "old": "(visited l ++ visited r)", "new": "(visited l)", "claim": "C147 variables on the right of an operation are collected", "edit": "`(visited l ++ visited r)` -> `(visited l)`", "count": 1, "def": "visited"}, {"id": "z024", "file": "NodeText", "old": "visited a ++ visitedArgs as", "new": "visited a", "claim": "C147 variables in all arguments are collected", "edit": "`visited a ++ visitedArgs as` -> `visited a`", "count": 1, "def": "visitedArgs"}, {"id": "z025", "file": "NodeText", "old": "some (n, t)", "new": "some (n, .t 0)", "claim": "C147 dates are collected", "edit": "`some (n, t)` -> `some (n, .t 0)`", "count": 1, "def": "asVariable"}, {"id": "z026", "file": "NodeText", "old": ".filterMap asVariable).eraseDups", "new": ".filterMap asVariable)", "claim": "C147 each variable once", "edit": "`.filterMap asVariable).eraseDups` -> `.filterMap asVariable)`", "count": 1, "def": "collectVariables"}, {"id": "z027", "file": "NodeText", "old": ".filterMap asParameter).eraseDups", "new": ".filterMap asParameter)", "claim": "C147 each parameter once", "edit": "`.filterMap asParameter).eraseDups` -> `.filterMap asParameter)`", "count": 1, "def": "collectParameters"}, {"id": "z028", "file": "NodeText", "old": "b.definitions ++ b.objective ++ b.constraints ++ b.identities", "new": "b.objective ++ b.constraints ++ b.identities", "claim": "C147 definitions are equations", "edit": "`b.definitions ++ b.objective ++ b.constraints ++ b.identities` -> `b.objective ++ b.constraints ++ b.identities`", "count": 1, "def": "allEquations"}, {"id": "z029", "file": "NodeText", "old": "b.definitions ++ b.objective ++ b.constraints ++ b.identities", "new": "b.definitions ++ b.objective ++ b.constraints", "claim": "C147 identities are equations", "edit": "`b.definitions ++ b.objective ++ b.constraints ++ b.identities` -> `b.definitions ++ b.objective ++ b.constraints`", "count": 1, "def": "allEquations"}, {"id": "z030", "file": "NodeText", "old": "collectVariables e.lhs ++ collectVariables e.rhs", "new": "collectVariables e.rhs", "claim": "C147 variables of the left side", "edit": "`collectVariables e.lhs ++ collectVariables e.rhs` -> `collectVariables e.rhs`", "count": 1, "def": "allVariables"}, {"id": "z031", "file": "NodeText", "old": "collectParameters e.lhs ++ collectParameters e.rhs", "new": "collectParameters e.lhs", "claim": "C147 parameters of the right side", "edit": "`collectParameters e.lhs ++ collectParameters e.rhs` -> `collectParameters e.lhs`", "count": 1, "def": "allParameters"}, {"id": "z032", "file": "NodeText", "old": "collectVariables e.rhs).eraseDups", "new": "collectVariables e.rhs)", "claim": "C147 each variable of the model once", "edit": "`collectVariables e.rhs).eraseDups` -> `collectVariables e.rhs)`", "count": 1, "def": "allVariables"}, {"id": "z033", "file": "NodeText", "old": "b.name = name", "new": "lowerStr b.name = lowerStr name", "claim": "C147 get_block by exact name", "edit": "`b.name = name` -> `lowerStr b.name = lowerStr name`", "count": 1, "def": "getBlock"}, {"id": "z034", "file": "NodeText", "old": "decide (b.controls.length > 0) && decide (b.objective.length > 0)", "new": "decide (b.objective.length > 0)", "claim": "C147 a problem has controls and an objective", "edit": "`decide (b.controls.length > 0) && decide (b.objective.length > 0)` -> `decide (b.objective.length > 0)`", "count": 1, "def": "hasOptimization"}]