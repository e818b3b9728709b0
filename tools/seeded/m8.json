[
 {
  "id": "h001",
  "file": "Tensor",
  "def": "transposeOfJoin",
  "old": "then (n : Int) - 2 else if ja = (n : Int) - 2 then (n : Int) - 1 else ja",
  "new": "then (n : Int) - 1 else if ja = (n : Int) - 2 then (n : Int) - 2 else ja",
  "claim": "C100 transposed axis",
  "edit": "`then (n : Int) - 2 else if ja = (n : Int) - 2 then (n : Int) - 1 else ja` -> `then (n : Int) - 1 else if ja = (n : Int) - 2 then (n : Int) - 2 else ja`",
  "count": 1
 },
 {
  "id": "h002",
  "file": "Tensor",
  "def": "transposeOfJoin",
  "old": "then (n : Int) - 1 else ja",
  "new": "then (n : Int) - 2 else ja",
  "claim": "C100 transposed axis",
  "edit": "`then (n : Int) - 1 else ja` -> `then (n : Int) - 2 else ja`",
  "count": 1
 },
 {
  "id": "h003",
  "file": "Tensor",
  "def": "transposeOfJoin",
  "old": "then (n : Int) - 1 else ja\n      some (.join (.const na) (xs.map .mT))",
  "new": "then (n : Int) - 1 else ja\n      some (.join (.const na) xs)",
  "claim": "C100 pieces transposed",
  "edit": "`then (n : Int) - 1 else ja\n      some (.join (.const na) (xs.map .mT))` -> `then (n : Int) - 1 else ja\n      some (.join (.const na) xs)`",
  "count": 1
 },
 {
  "id": "h004",
  "file": "Tensor",
  "def": "transposeOfJoin",
  "old": "      let ja := normAxis n z\n      let na",
  "new": "      let ja := z\n      let na",
  "claim": "C100 negative axes",
  "edit": "`      let ja := normAxis n z\n      let na` -> `      let ja := z\n      let na`",
  "count": 1
 },
 {
  "id": "h005",
  "file": "Tensor",
  "def": "transposeOfJoin",
  "old": "some (.join (.const na) (xs.map .mT))",
  "new": "some (.join (.const na) (xs.reverse.map .mT))",
  "claim": "C100 order",
  "edit": "`some (.join (.const na) (xs.map .mT))` -> `some (.join (.const na) (xs.reverse.map .mT))`",
  "count": 1
 },
 {
  "id": "h006",
  "file": "Tensor",
  "def": "normAxis",
  "old": "then z + n else z\n\n/-- `local_tr",
  "new": "then z + n - 1 else z\n\n/-- `local_tr",
  "claim": "C100 normalised axis",
  "edit": "`then z + n else z\n\n/-- `local_tr` -> `then z + n - 1 else z\n\n/-- `local_tr`",
  "count": 1
 },
 {
  "id": "h007",
  "file": "Tensor",
  "def": "joinMatmulAxis",
  "old": "if a = (n : Int) - 1 then some (-1) else if a = (n : Int) - 2 then some (-2) else none",
  "new": "if a = (n : Int) - 2 then some (-1) else if a = (n : Int) - 1 then some (-2) else none",
  "claim": "C100 grid orientation",
  "edit": "`if a = (n : Int) - 1 then some (-1) else if a = (n : Int) - 2 then some (-2) else none` -> `if a = (n : Int) - 2 then some (-1) else if a = (n : Int) - 1 then some (-2) else none`",
  "count": 1
 },
 {
  "id": "h008",
  "file": "Tensor",
  "def": "collectGrid",
  "old": "if joinMatmulAxis st row ≠ some (-1) then none\n    else ",
  "new": "",
  "claim": "C100 rows are column joins",
  "edit": "`if joinMatmulAxis st row ≠ some (-1) then none\n    else ` -> ``",
  "count": 1
 },
 {
  "id": "h009",
  "file": "Tensor",
  "def": "collectGrid",
  "old": "else if (joinInputs row).length ≠ n then none\n    else (collect",
  "new": "else (collect",
  "claim": "C100 square grids",
  "edit": "`else if (joinInputs row).length ≠ n then none\n    else (collect` -> `else (collect`",
  "count": 1
 },
 {
  "id": "h010",
  "file": "Tensor",
  "def": "diagRow",
  "old": "decide (p.2 = i) || st.isZero p.1",
  "new": "st.isZero p.1 || true",
  "claim": "C100 zero blocks",
  "edit": "`decide (p.2 = i) || st.isZero p.1` -> `st.isZero p.1 || true`",
  "count": 1
 },
 {
  "id": "h011",
  "file": "Tensor",
  "def": "diagRow",
  "old": "then row[i]? else none",
  "new": "then row[0]? else none",
  "claim": "C100 diagonal entry",
  "edit": "`then row[i]? else none` -> `then row[0]? else none`",
  "count": 1
 },
 {
  "id": "h012",
  "file": "Tensor",
  "def": "diagRow",
  "old": "decide (p.2 = i) || st",
  "new": "decide (i ≤ p.2) || st",
  "claim": "C100 zero blocks",
  "edit": "`decide (p.2 = i) || st` -> `decide (i ≤ p.2) || st`",
  "count": 1
 },
 {
  "id": "h013",
  "file": "Tensor",
  "def": "nestedJoinToBlockDiag",
  "old": "≠ some (-2) then none\n    else if rows.length",
  "new": "≠ some (-1) then none\n    else if rows.length",
  "claim": "C100 grid orientation",
  "edit": "`≠ some (-2) then none\n    else if rows.length` -> `≠ some (-1) then none\n    else if rows.length`",
  "count": 1
 },
 {
  "id": "h014",
  "file": "Tensor",
  "def": "nestedJoinToBlockDiag",
  "old": "if joinMatmulAxis st (.join axis rows) ≠ some (-2) then none\n    else ",
  "new": "",
  "claim": "C100 outer axis checked",
  "edit": "`if joinMatmulAxis st (.join axis rows) ≠ some (-2) then none\n    else ` -> ``",
  "count": 1
 },
 {
  "id": "h015",
  "file": "Tensor",
  "def": "splitUndoesJoin",
  "old": "if js.map Int.ofNat = ss then xs[k]? else none",
  "new": "xs[k]?",
  "claim": "C100 split sizes compared",
  "edit": "`if js.map Int.ofNat = ss then xs[k]? else none` -> `xs[k]?`",
  "count": 1
 },
 {
  "id": "h016",
  "file": "Tensor",
  "def": "splitUndoesJoin",
  "old": "if js.map Int.ofNat = ss then xs[k]? else none",
  "new": "if js.map Int.ofNat = ss then xs[k + 1]? else none",
  "claim": "C100 output number",
  "edit": "`if js.map Int.ofNat = ss then xs[k]? else none` -> `if js.map Int.ofNat = ss then xs[k + 1]? else none`",
  "count": 1
 },
 {
  "id": "h017",
  "file": "Tensor",
  "def": "splitUndoesJoin",
  "old": "if js.map Int.ofNat = ss",
  "new": "if js.length = ss.length",
  "claim": "C100 split sizes compared",
  "edit": "`if js.map Int.ofNat = ss` -> `if js.length = ss.length`",
  "count": 1
 },
 {
  "id": "h018",
  "file": "Tensor",
  "def": "splitUndoesJoin",
  "old": "  if xs.length ≠ nOut then none\n  else\n    match",
  "new": "    match",
  "claim": "equivalent when sizes match (a split with another number of outputs fails)",
  "edit": "`  if xs.length ≠ nOut then none\n  else\n    match` -> `    match`",
  "count": 1
 },
 {
  "id": "h019",
  "file": "Tensor",
  "def": "splitOfJoin",
  "old": "if sa = ja then splitUndoesJoin",
  "new": "if sa ≠ ja then splitUndoesJoin",
  "claim": "C100 which split",
  "edit": "`if sa = ja then splitUndoesJoin` -> `if sa ≠ ja then splitUndoesJoin`",
  "count": 1
 },
 {
  "id": "h020",
  "file": "Tensor",
  "def": "splitOfJoin",
  "old": "some (.join (.const ja) (xs.map fun x => .split x (.const sa) sizes nOut k))",
  "new": "some (.join (.const sa) (xs.map fun x => .split x (.const ja) sizes nOut k))",
  "claim": "C100 axes",
  "edit": "`some (.join (.const ja) (xs.map fun x => .split x (.const sa) sizes nOut k))` -> `some (.join (.const sa) (xs.map fun x => .split x (.const ja) sizes nOut k))`",
  "count": 1
 },
 {
  "id": "h021",
  "file": "Tensor",
  "def": "splitOfJoin",
  "old": ".split x (.const sa) sizes nOut k))",
  "new": ".split x (.const sa) sizes nOut 0))",
  "claim": "C100 output number",
  "edit": "`.split x (.const sa) sizes nOut k))` -> `.split x (.const sa) sizes nOut 0))`",
  "count": 1
 },
 {
  "id": "h022",
  "file": "Tensor",
  "def": "splitOfJoin",
  "old": "let sa := sz % (n : Int)",
  "new": "let sa := sz",
  "claim": "C100 negative axes (sa compared with normalised ja)",
  "edit": "`let sa := sz % (n : Int)` -> `let sa := sz`",
  "count": 1
 },
 {
  "id": "h023",
  "file": "Tensor",
  "def": "splitOfJoin",
  "old": "if sa = ja then splitUndoesJoin st xs ja.toNat sizes nOut k\n      else ",
  "new": "",
  "claim": "C100 split along the joined axis",
  "edit": "`if sa = ja then splitUndoesJoin st xs ja.toNat sizes nOut k\n      else ` -> ``",
  "count": 1
 },
 {
  "id": "h024",
  "file": "Tensor",
  "def": "constIntVector",
  "old": "xs.mapM constInt",
  "new": "some (xs.filterMap constInt)",
  "claim": "C100 dynamic sizes",
  "edit": "`xs.mapM constInt` -> `some (xs.filterMap constInt)`",
  "count": 1
 },
 {
  "id": "h025",
  "file": "Tensor",
  "def": "constInt",
  "old": "| .dyn _ => none\n\n/-- `_const_int_vector`",
  "new": "| .dyn _ => some 0\n\n/-- `_const_int_vector`",
  "claim": "C100 dynamic axes",
  "edit": "`| .dyn _ => none\n\n/-- `_const_int_vector`` -> `| .dyn _ => some 0\n\n/-- `_const_int_vector``",
  "count": 1
 },
 {
  "id": "h026",
  "file": "Tensor",
  "def": "checkDepths",
  "old": "| .leaf _ => .ok d",
  "new": "| .leaf _ => .ok 0",
  "claim": "C99 depth",
  "edit": "`| .leaf _ => .ok d` -> `| .leaf _ => .ok 0`",
  "count": 1
 },
 {
  "id": "h027",
  "file": "Tensor",
  "def": "checkDepths",
  "old": "| .tuple => .error .tuple",
  "new": "| .tuple => .ok d",
  "claim": "C99 tuples",
  "edit": "`| .tuple => .error .tuple` -> `| .tuple => .ok d`",
  "count": 1
 },
 {
  "id": "h028",
  "file": "Tensor",
  "def": "checkDepthsL",
  "old": "if f ≠ c then .error .depth else checkDepthsL d (some f) bs",
  "new": "checkDepthsL d (some f) bs",
  "claim": "C99 depth mismatch",
  "edit": "`if f ≠ c then .error .depth else checkDepthsL d (some f) bs` -> `checkDepthsL d (some f) bs`",
  "count": 1
 },
 {
  "id": "h029",
  "file": "Tensor",
  "def": "checkDepthsL",
  "old": "| none => .error .emptyList",
  "new": "| none => .ok d",
  "claim": "C99 empty lists",
  "edit": "`| none => .error .emptyList` -> `| none => .ok d`",
  "count": 1
 },
 {
  "id": "h030",
  "file": "Tensor",
  "def": "checkDepthsL",
  "old": "else checkDepthsL d (some f) bs",
  "new": "else .ok f",
  "claim": "C99 all children visited",
  "edit": "`else checkDepthsL d (some f) bs` -> `else .ok f`",
  "count": 1
 },
 {
  "id": "h031",
  "file": "Tensor",
  "def": "Blocks.flatL",
  "old": "b.flat ++ Blocks.flatL bs",
  "new": "b.flat",
  "claim": "C99 largest dimension",
  "edit": "`b.flat ++ Blocks.flatL bs` -> `b.flat`",
  "count": 1
 },
 {
  "id": "h032",
  "file": "Tensor",
  "def": "atleastNd",
  "old": "List.replicate (n - x.shape.length) 1 ++ x.shape)",
  "new": "x.shape ++ List.replicate (n - x.shape.length) 1)",
  "claim": "C99 promotion",
  "edit": "`List.replicate (n - x.shape.length) 1 ++ x.shape)` -> `x.shape ++ List.replicate (n - x.shape.length) 1)`",
  "count": 1
 },
 {
  "id": "h033",
  "file": "Tensor",
  "def": "atleastNd",
  "old": "x.val (idx.drop (n - x.shape.length))",
  "new": "x.val (idx.take x.shape.length)",
  "claim": "C99 promotion",
  "edit": "`x.val (idx.drop (n - x.shape.length))` -> `x.val (idx.take x.shape.length)`",
  "count": 1
 },
 {
  "id": "h034",
  "file": "Tensor",
  "def": "recurse",
  "old": "tjoin (nd - left)",
  "new": "tjoin (nd - left - 1)",
  "claim": "C99 axis",
  "edit": "`tjoin (nd - left)` -> `tjoin (nd - left - 1)`",
  "count": 1
 },
 {
  "id": "h035",
  "file": "Tensor",
  "def": "recurse",
  "old": "tjoin (nd - left)",
  "new": "tjoin (left - 1)",
  "claim": "C99 axis",
  "edit": "`tjoin (nd - left)` -> `tjoin (left - 1)`",
  "count": 1
 },
 {
  "id": "h036",
  "file": "Tensor",
  "def": "recurse",
  "old": "(recurseL nd (left - 1) bs)",
  "new": "(recurseL nd left bs)",
  "claim": "C99 axis of nested lists",
  "edit": "`(recurseL nd (left - 1) bs)` -> `(recurseL nd left bs)`",
  "count": 1
 },
 {
  "id": "h037",
  "file": "Tensor",
  "def": "recurse",
  "old": "| .leaf t => some (atleastNd nd t)",
  "new": "| .leaf t => some t",
  "claim": "C99 promotion",
  "edit": "`| .leaf t => some (atleastNd nd t)` -> `| .leaf t => some t`",
  "count": 1
 },
 {
  "id": "h038",
  "file": "Tensor",
  "def": "recurseL",
  "old": "some (t :: ts)\nend\n\n/-- `block(",
  "new": "some (ts ++ [t])\nend\n\n/-- `block(",
  "claim": "C99 order",
  "edit": "`some (t :: ts)\nend\n\n/-- `block(` -> `some (ts ++ [t])\nend\n\n/-- `block(`",
  "count": 1
 },
 {
  "id": "h039",
  "file": "Tensor",
  "def": "blockFn",
  "old": "foldl max (max depth 1)",
  "new": "foldl max 1",
  "claim": "C99 dimension at least depth",
  "edit": "`foldl max (max depth 1)` -> `foldl max 1`",
  "count": 1
 },
 {
  "id": "h040",
  "file": "Tensor",
  "def": "blockFn",
  "old": "foldl max (max depth 1)",
  "new": "foldl min (max depth 1)",
  "claim": "C99 dimension",
  "edit": "`foldl max (max depth 1)` -> `foldl min (max depth 1)`",
  "count": 1
 },
 {
  "id": "h041",
  "file": "Tensor",
  "def": "blockFn",
  "old": "recurse nd depth b",
  "new": "recurse nd nd b",
  "claim": "C99 axis",
  "edit": "`recurse nd depth b` -> `recurse nd nd b`",
  "count": 1
 },
 {
  "id": "h042",
  "file": "RealEig",
  "def": "perform",
  "old": "fun i => (eigvals i).im)",
  "new": "fun i => (eigvals i).re)",
  "claim": "C98 imaginary parts",
  "edit": "`fun i => (eigvals i).im)` -> `fun i => (eigvals i).re)`",
  "count": 1
 },
 {
  "id": "h043",
  "file": "RealEig",
  "def": "perform",
  "old": "let eigvals := fun i => o.vals (o.sortIdx i)",
  "new": "let eigvals := o.vals",
  "claim": "C98 sorted",
  "edit": "`let eigvals := fun i => o.vals (o.sortIdx i)` -> `let eigvals := o.vals`",
  "count": 1
 },
 {
  "id": "h044",
  "file": "RealEig",
  "def": "sortIdx",
  "old": "‖o.vals i‖",
  "new": "(o.vals i).re",
  "claim": "C98 sorted by modulus",
  "edit": "`‖o.vals i‖` -> `(o.vals i).re`",
  "count": 1
 },
 {
  "id": "h045",
  "file": "RealEig",
  "def": "sortIdx",
  "old": "‖o.vals i‖",
  "new": "-‖o.vals i‖",
  "claim": "C98 ascending",
  "edit": "`‖o.vals i‖` -> `-‖o.vals i‖`",
  "count": 1
 },
 {
  "id": "h046",
  "file": "RealEig",
  "def": "pullback",
  "old": "- Complex.I * (gi i : ℂ)",
  "new": "+ Complex.I * (gi i : ℂ)",
  "claim": "C98 gradient sign of imaginary part",
  "edit": "`- Complex.I * (gi i : ℂ)` -> `+ Complex.I * (gi i : ℂ)`",
  "count": 1
 },
 {
  "id": "h047",
  "file": "RealEig",
  "def": "pullback",
  "old": "let V := o.V.submatrix id o.sortIdx",
  "new": "let V := o.V",
  "claim": "C98 eigenvectors sorted",
  "edit": "`let V := o.V.submatrix id o.sortIdx` -> `let V := o.V`",
  "count": 1
 },
 {
  "id": "h048",
  "file": "RealEig",
  "def": "pullback",
  "old": "(Vinvᵀ * diagonal g * Vᵀ)",
  "new": "(Vinv * diagonal g * V)",
  "claim": "C98 transposes",
  "edit": "`(Vinvᵀ * diagonal g * Vᵀ)` -> `(Vinv * diagonal g * V)`",
  "count": 1
 },
 {
  "id": "h049",
  "file": "RealEig",
  "def": "pullback",
  "old": "(Vinvᵀ * diagonal g * Vᵀ)",
  "new": "(V * diagonal g * Vinv)",
  "claim": "C98 transposes",
  "edit": "`(Vinvᵀ * diagonal g * Vᵀ)` -> `(V * diagonal g * Vinv)`",
  "count": 1
 },
 {
  "id": "h050",
  "file": "RealEig",
  "def": "pullback",
  "old": "(Vinvᵀ * diagonal g * Vᵀ).map Complex.re",
  "new": "(Vinvᵀ * diagonal g * Vᵀ).map Complex.im",
  "claim": "C98 real part",
  "edit": "`(Vinvᵀ * diagonal g * Vᵀ).map Complex.re` -> `(Vinvᵀ * diagonal g * Vᵀ).map Complex.im`",
  "count": 1
 },
 {
  "id": "h051",
  "file": "RealEig",
  "def": "pullback",
  "old": "let gi := gImag.getD 0",
  "new": "let gi := gImag.getD 1",
  "claim": "C98 disconnected cotangent",
  "edit": "`let gi := gImag.getD 0` -> `let gi := gImag.getD 1`",
  "count": 1
 },
 {
  "id": "h052",
  "file": "RealEig",
  "def": "pullback",
  "old": "let gr := gReal.getD 0",
  "new": "let gr := gImag.getD 0",
  "claim": "C98 cotangents swapped",
  "edit": "`let gr := gReal.getD 0` -> `let gr := gImag.getD 0`",
  "count": 1
 },
 {
  "id": "h053",
  "file": "RealEig",
  "def": "eqsAndLeadsPt",
  "old": "Fin.natAdd n (lead j)",
  "new": "Fin.castAdd n (lead j)",
  "claim": "C98 selection",
  "edit": "`Fin.natAdd n (lead j)` -> `Fin.castAdd n (lead j)`",
  "count": 1
 },
 {
  "id": "h054",
  "file": "RealEig",
  "def": "gamma0Sel",
  "old": "fromBlocks B C (-1) 0",
  "new": "fromBlocks B C 1 0",
  "claim": "C98 sign of auxiliary rows",
  "edit": "`fromBlocks B C (-1) 0` -> `fromBlocks B C 1 0`",
  "count": 1
 },
 {
  "id": "h055",
  "file": "RealEig",
  "def": "gamma0Sel",
  "old": "fromBlocks B C (-1) 0",
  "new": "fromBlocks C B (-1) 0",
  "claim": "C98 block order",
  "edit": "`fromBlocks B C (-1) 0` -> `fromBlocks C B (-1) 0`",
  "count": 1
 },
 {
  "id": "h056",
  "file": "RealEig",
  "def": "gamma0Sel",
  "old": "fromBlocks B C (-1) 0",
  "new": "fromBlocks (-B) (-C) (-1) 0",
  "claim": "C98 sign",
  "edit": "`fromBlocks B C (-1) 0` -> `fromBlocks (-B) (-C) (-1) 0`",
  "count": 1
 },
 {
  "id": "h057",
  "file": "RealEig",
  "def": "gamma1Sel",
  "old": "fromBlocks A 0 0 1",
  "new": "fromBlocks A 0 1 0",
  "claim": "C98 Gamma_1",
  "edit": "`fromBlocks A 0 0 1` -> `fromBlocks A 0 1 0`",
  "count": 1
 },
 {
  "id": "h058",
  "file": "RealEig",
  "def": "gamma1Sel",
  "old": "fromBlocks A 0 0 1",
  "new": "fromBlocks (-A) 0 0 1",
  "claim": "C98 Gamma_1",
  "edit": "`fromBlocks A 0 0 1` -> `fromBlocks (-A) 0 0 1`",
  "count": 1
 },
 {
  "id": "h059",
  "file": "RealEig",
  "def": "bkMatrixPt",
  "old": "(-gamma0Sel B C lead + eps",
  "new": "(gamma0Sel B C lead + eps",
  "claim": "C98 sign of Gamma_0 (count unaffected, values are)",
  "edit": "`(-gamma0Sel B C lead + eps` -> `(gamma0Sel B C lead + eps`",
  "count": 1
 },
 {
  "id": "h060",
  "file": "RealEig",
  "def": "bkMatrixPt",
  "old": "⁻¹ * gamma1Sel A lead",
  "new": "⁻¹ᵀ * gamma1Sel A lead",
  "claim": "C98 solve",
  "edit": "`⁻¹ * gamma1Sel A lead` -> `⁻¹ᵀ * gamma1Sel A lead`",
  "count": 1
 },
 {
  "id": "h061",
  "file": "RealEig",
  "def": "bkMatrixPt",
  "old": "+ eps • (1 :",
  "new": "- eps • (1 :",
  "claim": "C98 regularisation sign",
  "edit": "`+ eps • (1 :` -> `- eps • (1 :`",
  "count": 1
 },
 {
  "id": "h062",
  "file": "RealEig",
  "def": "bkMatrixPt",
  "old": "(-gamma0Sel B C lead + eps • (1 : Mat (n + k) (n + k)))⁻¹ * gamma1Sel A lead",
  "new": "(-gamma0Sel B C lead)⁻¹ * gamma1Sel A lead",
  "claim": "C98 regularisation dropped",
  "edit": "`(-gamma0Sel B C lead + eps • (1 : Mat (n + k) (n + k)))⁻¹ * gamma1Sel A lead` -> `(-gamma0Sel B C lead)⁻¹ * gamma1Sel A lead`",
  "count": 1
 },
 {
  "id": "h063",
  "file": "RealEig",
  "def": "checkBkPt",
  "old": "1 < Real.sqrt",
  "new": "1 ≤ Real.sqrt",
  "claim": "C98 boundary (counts equal off the circle)",
  "edit": "`1 < Real.sqrt` -> `1 ≤ Real.sqrt`",
  "count": 1
 },
 {
  "id": "h064",
  "file": "RealEig",
  "def": "checkBkPt",
  "old": "1 < Real.sqrt",
  "new": "0 < Real.sqrt",
  "claim": "C98 boundary",
  "edit": "`1 < Real.sqrt` -> `0 < Real.sqrt`",
  "count": 1
 },
 {
  "id": "h065",
  "file": "RealEig",
  "def": "checkBkPt",
  "old": "vals.1 i ^ 2 + vals.2 i ^ 2",
  "new": "vals.1 i ^ 2",
  "claim": "C98 modulus",
  "edit": "`vals.1 i ^ 2 + vals.2 i ^ 2` -> `vals.1 i ^ 2`",
  "count": 1
 },
 {
  "id": "h066",
  "file": "RealEig",
  "def": "checkBkPt",
  "old": "decide (k = nUnstable)",
  "new": "decide (nUnstable ≤ k)",
  "claim": "C98 flag",
  "edit": "`decide (k = nUnstable)` -> `decide (nUnstable ≤ k)`",
  "count": 1
 },
 {
  "id": "h067",
  "file": "RealEig",
  "def": "checkBkPt",
  "old": "(decide (k = nUnstable), k, nUnstable)",
  "new": "(decide (k = nUnstable), nUnstable, k)",
  "claim": "C98 order of results",
  "edit": "`(decide (k = nUnstable), k, nUnstable)` -> `(decide (k = nUnstable), nUnstable, k)`",
  "count": 1
 }
]