import Mathlib.Data.Real.Basic
import Mathlib.Data.List.Basic
import Mathlib.Algebra.BigOperators.Group.List.Basic
/-!
# Joins, splits and transposes: `gEconpy/pytensorf/block.py` and `gEconpy/pytensorf/block_rewrites.py`

A tensor of any number of dimensions is a shape and a value at every index; outside the shape the value is 0, so that two tensors with the same entries
are equal. Entries are real numbers (dtypes are not modelled). Graphs are trees: sharing of nodes does not change values. -/

namespace GE

/-- an index lies inside a shape -/
def InShape (shape idx : List ℕ) : Prop := idx.length = shape.length ∧ ∀ b, b < shape.length → idx.getD b 0 < shape.getD b 0

/-- an N-dimensional array -/
structure Tensor where
  shape : List ℕ
  val : List ℕ → ℝ
  zero_outside : ∀ idx, ¬InShape shape idx → val idx = 0

/-- an array from its shape and entries -/
noncomputable def Tensor.of (shape : List ℕ) (f : List ℕ → ℝ) : Tensor :=
  open Classical in ⟨shape, fun idx => if InShape shape idx then f idx else 0, fun _ h => if_neg h⟩

/-! ## the operations of pytensor -/

/-- the entry of a concatenation: walk through the pieces -/
def joinVal (a : ℕ) : List Tensor → List ℕ → ℝ
  | [], _ => 0
  | x :: xs, idx => if idx.getD a 0 < x.shape.getD a 0 then x.val idx else joinVal a xs (idx.set a (idx.getD a 0 - x.shape.getD a 0))

/-- `Join(a, *xs)` (`concatenate`): all pieces must agree outside axis `a` -/
noncomputable def tjoin (a : ℕ) (xs : List Tensor) : Option Tensor :=
  open Classical in
  match xs with
  | [] => none
  | x :: _ =>
    if a < x.shape.length ∧ ∀ y ∈ xs, y.shape.set a 0 = x.shape.set a 0 then
      some (Tensor.of (x.shape.set a (xs.map fun y => y.shape.getD a 0).sum) (joinVal a xs))
    else none

/-- the last two of `n` axes exchanged -/
def swapAxis (n b : ℕ) : ℕ := if b + 1 = n then n - 2 else if b + 2 = n then n - 1 else b

/-- the last two entries exchanged -/
def swapLast (l : List ℕ) : List ℕ :=
  if l.length < 2 then l else (l.set (l.length - 2) (l.getD (l.length - 1) 0)).set (l.length - 1) (l.getD (l.length - 2) 0)

/-- `x.mT` -/
noncomputable def tmT (x : Tensor) : Option Tensor :=
  if x.shape.length < 2 then none else some (Tensor.of (swapLast x.shape) fun idx => x.val (swapLast idx))

/-- `Split(x, sizes, axis=a)[k]` (pytensor's `Split.perform`): as many sizes as outputs, none negative, summing to the length of the axis -/
noncomputable def tsplit (x : Tensor) (a : ℕ) (sizes : List Int) (nOut k : ℕ) : Option Tensor :=
  if a < x.shape.length ∧ sizes.length = nOut ∧ (∀ s ∈ sizes, 0 ≤ s) ∧ sizes.sum = (x.shape.getD a 0 : ℕ) ∧ k < nOut then
    let off := ((sizes.take k).map Int.toNat).sum
    some (Tensor.of (x.shape.set a (sizes.getD k 0).toNat) fun idx => x.val (idx.set a (idx.getD a 0 + off)))
  else none

/-- the entry of a block-diagonal matrix, in the last two axes -/
def bdVal (n : ℕ) : List Tensor → List ℕ → ℝ
  | [], _ => 0
  | x :: xs, idx =>
    let i := idx.getD (n - 2) 0
    let j := idx.getD (n - 1) 0
    let r := x.shape.getD (n - 2) 0
    let c := x.shape.getD (n - 1) 0
    if i < r then (if j < c then x.val idx else 0) else if j < c then 0 else bdVal n xs ((idx.set (n - 2) (i - r)).set (n - 1) (j - c))

/-- `block_diag(*xs)`; batch axes must be equal (pytensor would also broadcast them) -/
noncomputable def tblockDiag (xs : List Tensor) : Option Tensor :=
  open Classical in
  match xs with
  | [] => none
  | x :: _ =>
    let n := x.shape.length
    if 2 ≤ n ∧ ∀ y ∈ xs, (y.shape.set (n - 2) 0).set (n - 1) 0 = (x.shape.set (n - 2) 0).set (n - 1) 0 then
      some (Tensor.of ((x.shape.set (n - 2) (xs.map fun y => y.shape.getD (n - 2) 0).sum).set (n - 1) (xs.map fun y => y.shape.getD (n - 1) 0).sum) (bdVal n xs))
    else none

/-! ## graphs -/

/-- a scalar input of an operation: a constant, or something not known when the graph is rewritten -/
inductive Scal where
  | const (z : Int)
  | dyn (id : ℕ)
  deriving DecidableEq, Repr

/-- the vector of sizes of a split -/
inductive SizesE where
  | const (zs : List Int)
  | makeVector (xs : List Scal)
  | dyn (id : ℕ)
  deriving DecidableEq, Repr

/-- a graph. `app` is any other operation (also an input, without arguments). `split x axis sizes nOut k` is output `k` of a split with `nOut` outputs. -/
inductive TExpr where
  | app (op : ℕ) (args : List TExpr)
  | join (axis : Scal) (xs : List TExpr)
  | mT (x : TExpr)
  | split (x : TExpr) (axis : Scal) (sizes : SizesE) (nOut k : ℕ)
  | blockDiag (xs : List TExpr)

/-- values of what the graph leaves open; `none` is an exception -/
structure TEnv where
  op : ℕ → List Tensor → Option Tensor
  scal : ℕ → Int
  vec : ℕ → List Int

/-- the value of a scalar -/
def Scal.eval (env : TEnv) : Scal → Int
  | .const z => z
  | .dyn i => env.scal i

/-- the value of the sizes -/
def SizesE.eval (env : TEnv) : SizesE → List Int
  | .const zs => zs
  | .makeVector xs => xs.map (Scal.eval env)
  | .dyn i => env.vec i

/-- an axis as numpy understands it -/
def axisOf (n : ℕ) (z : Int) : Option ℕ := if -(n : Int) ≤ z ∧ z < n then some ((if z < 0 then z + n else z).toNat) else none

mutual
/-- evaluation -/
noncomputable def TExpr.eval (env : TEnv) : TExpr → Option Tensor
  | .app op args => (TExpr.evalL env args).bind (env.op op)
  | .join axis xs => (TExpr.evalL env xs).bind fun ts =>
      match ts with
      | [] => none
      | t :: _ => (axisOf t.shape.length (axis.eval env)).bind fun a => tjoin a ts
  | .mT x => (x.eval env).bind tmT
  | .split x axis sizes nOut k => (x.eval env).bind fun t => (axisOf t.shape.length (axis.eval env)).bind fun a => tsplit t a (sizes.eval env) nOut k
  | .blockDiag xs => (TExpr.evalL env xs).bind tblockDiag
/-- evaluation of several graphs -/
noncomputable def TExpr.evalL (env : TEnv) : List TExpr → Option (List Tensor)
  | [] => some []
  | x :: xs => (x.eval env).bind fun t => (TExpr.evalL env xs).bind fun ts => some (t :: ts)
end

/-! ## block_rewrites.py -/

/-- what the rewrites ask pytensor: the static type of a variable (`var.type.shape`, with `None` for unknown lengths) and whether it is known to be
zero everywhere (`_is_zero`, block_rewrites.py:72-90) -/
structure Static where
  ty : TExpr → List (Option ℕ)
  isZero : TExpr → Bool

/-- `_const_int` (block_rewrites.py:27-43) -/
def constInt : Scal → Option Int
  | .const z => some z
  | .dyn _ => none

/-- `_const_int_vector` (block_rewrites.py:46-69) -/
def constIntVector : SizesE → Option (List Int)
  | .const zs => some zs
  | .makeVector xs => xs.mapM constInt
  | .dyn _ => none

/-- the normalised axis `axis += ndim` if negative -/
def normAxis (n : ℕ) (z : Int) : Int := if z < 0 then z + n else z

/-- `local_transpose_of_join` (block_rewrites.py:123-158) -/
def transposeOfJoin (st : Static) : TExpr → Option TExpr
  | .mT (.join axis xs) =>
    match constInt axis with
    | none => none
    | some z =>
      let n := (st.ty (.join axis xs)).length
      let ja := normAxis n z
      let na : Int := if ja = (n : Int) - 1 then (n : Int) - 2 else if ja = (n : Int) - 2 then (n : Int) - 1 else ja
      some (.join (.const na) (xs.map .mT))
  | _ => none

/-- `_join_matmul_axis` (block_rewrites.py:93-120) -/
def joinMatmulAxis (st : Static) : TExpr → Option Int
  | .join axis xs =>
    match constInt axis with
    | none => none
    | some z =>
      let n := (st.ty (.join axis xs)).length
      let a := normAxis n z
      if a = (n : Int) - 1 then some (-1) else if a = (n : Int) - 2 then some (-2) else none
  | _ => none

/-- the inputs of a join -/
def joinInputs : TExpr → List TExpr
  | .join _ xs => xs
  | _ => []

/-- the loop that collects the grid (block_rewrites.py:182-189) -/
def collectGrid (st : Static) (n : ℕ) : List TExpr → Option (List (List TExpr))
  | [] => some []
  | row :: rows =>
    if joinMatmulAxis st row ≠ some (-1) then none
    else if (joinInputs row).length ≠ n then none
    else (collectGrid st n rows).map fun g => joinInputs row :: g

/-- row `i` of the loop that collects the diagonal (block_rewrites.py:191-197): `none` if an entry off the diagonal is not known to be zero -/
def diagRow (st : Static) (i : ℕ) (row : List TExpr) : Option TExpr :=
  if row.zipIdx.all fun p => decide (p.2 = i) || st.isZero p.1 then row[i]? else none

/-- `local_nested_join_to_block_diagonal` (block_rewrites.py:161-199) -/
def nestedJoinToBlockDiag (st : Static) : TExpr → Option TExpr
  | .join axis rows =>
    if joinMatmulAxis st (.join axis rows) ≠ some (-2) then none
    else if rows.length < 2 then none
    else
      match collectGrid st rows.length rows with
      | none => none
      | some grid => (grid.zipIdx.mapM fun p => diagRow st p.2 p.1).map .blockDiag
  | _ => none

/-- `_split_undoes_join` (block_rewrites.py:202-212), output `k` -/
def splitUndoesJoin (st : Static) (xs : List TExpr) (a : ℕ) (sizes : SizesE) (nOut k : ℕ) : Option TExpr :=
  if xs.length ≠ nOut then none
  else
    match (xs.mapM fun x => ((st.ty x)[a]?).join), constIntVector sizes with
    | some js, some ss => if js.map Int.ofNat = ss then xs[k]? else none
    | _, _ => none

/-- `local_split_of_join` (block_rewrites.py:225-257) with `_split_distributes_through_join` (215-222), output `k` -/
def splitOfJoin (st : Static) : TExpr → Option TExpr
  | .split (.join jaxis xs) axis sizes nOut k =>
    match constInt axis, constInt jaxis with
    | some sz, some jz =>
      let n := (st.ty (.join jaxis xs)).length
      let sa := sz % (n : Int)
      let ja := jz % (n : Int)
      if sa = ja then splitUndoesJoin st xs ja.toNat sizes nOut k
      else some (.join (.const ja) (xs.map fun x => .split x (.const sa) sizes nOut k))
    | _, _ => none
  | _ => none

/-! ## block.py -/

/-- a nested list of blocks; `tuple` is a tuple used as container -/
inductive Blocks where
  | leaf (t : Tensor)
  | list (bs : List Blocks)
  | tuple

/-- errors of `block` -/
inductive BlockErr where
  | emptyList | depth | tuple
  /-- shapes that do not fit together, raised by `concatenate` -/
  | concat
  deriving DecidableEq, Repr

mutual
/-- `_block_check_depths_match` (block.py:9-50): the depth of the leaves; `d` is the length of `parent_index` -/
def checkDepths (d : ℕ) : Blocks → Except BlockErr ℕ
  | .leaf _ => .ok d
  | .tuple => .error .tuple
  | .list bs => checkDepthsL (d + 1) none bs
/-- the loop over the children (block.py:33-46), `first` is `first_leaf_depth` -/
def checkDepthsL (d : ℕ) (first : Option ℕ) : List Blocks → Except BlockErr ℕ
  | [] => match first with
    | none => .error .emptyList
    | some f => .ok f
  | b :: bs =>
    match checkDepths d b with
    | .error e => .error e
    | .ok c =>
      match first with
      | none => checkDepthsL d (some c) bs
      | some f => if f ≠ c then .error .depth else checkDepthsL d (some f) bs
end

mutual
/-- the leaves in order (block.py:92-97) -/
def Blocks.flat : Blocks → List Tensor
  | .leaf t => [t]
  | .list bs => Blocks.flatL bs
  | .tuple => []
/-- the leaves of several nested lists -/
def Blocks.flatL : List Blocks → List Tensor
  | [] => []
  | b :: bs => b.flat ++ Blocks.flatL bs
end

/-- `atleast_Nd(x, n)`: axes of length 1 are put in front -/
noncomputable def atleastNd (n : ℕ) (x : Tensor) : Tensor :=
  Tensor.of (List.replicate (n - x.shape.length) 1 ++ x.shape) fun idx => x.val (idx.drop (n - x.shape.length))

mutual
/-- `_recurse` (block.py:122-127) on the promoted blocks: `left` is `list_ndim - depth`, so the axis is `-left` -/
noncomputable def recurse (nd : ℕ) (left : ℕ) : Blocks → Option Tensor
  | .leaf t => some (atleastNd nd t)
  | .tuple => none
  | .list bs => (recurseL nd (left - 1) bs).bind (tjoin (nd - left))
/-- the children -/
noncomputable def recurseL (nd : ℕ) (left : ℕ) : List Blocks → Option (List Tensor)
  | [] => some []
  | b :: bs => (recurse nd left b).bind fun t => (recurseL nd left bs).bind fun ts => some (t :: ts)
end

/-- `block(arrays)` (block.py:53-129). The depth of a nested list whose leaves are all at the same depth is `list_ndim`. -/
noncomputable def blockFn (b : Blocks) : Except BlockErr Tensor :=
  match checkDepths 0 b with
  | .error e => .error e
  | .ok depth =>
    let nd := (b.flat.map fun t => t.shape.length).foldl max (max depth 1)
    match recurse nd depth b with
    | none => .error .concat
    | some t => .ok t

end GE
