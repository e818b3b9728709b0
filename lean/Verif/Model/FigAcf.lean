import Verif.Model.Plotting
import Mathlib.Algebra.Order.Field.Basic
/-!
# `plot_acf` (plotting.py:1324-1576): the autocorrelation figure

A tensor is known by the names of its dimensions, the labels along each, its lags and its entries; where it has sample dimensions the mean and the
highest-density intervals are given (arviz and xarray are not modelled). matplotlib is the list of what is drawn; marker sizes and line widths are
left out, as are keyword arguments. Coordinates of one dimension are assumed different, as for any array `sel` is used on.
-/

namespace GE.Acf
open Plot

/-- an autocorrelation tensor (an `xr.DataArray`). `value i j l`: the entry of the variables number `i` and `j` at the lag number `l`;
`mean`, `hdi p`: mean and interval of probability `p` over the sample dimensions -/
structure Tensor where
  dims : List Str
  labels : Str → List Str
  lags : List ℝ
  value : Nat → Nat → Nat → ℝ
  mean : Nat → Nat → Nat → ℝ
  hdi : ℝ → Nat → Nat → Nat → ℝ × ℝ

/-- the sample dimensions present (plotting.py:1359) -/
def Tensor.present (t : Tensor) (sample : List Str) : List Str := sample.filter fun d => d ∈ t.dims

/-- the variable dimensions (plotting.py:1360) -/
def Tensor.varDims (t : Tensor) (sample : List Str) : List Str :=
  t.dims.filter fun d => decide (d ≠ "lag".toList) && decide (d ∉ t.present sample)

/-- the check and the last variable dimension of `_collect_acf_diagonals` (plotting.py:1355-1369); `dim` is the value of `var_dim` so far -/
def collectDims (sample : List Str) : List (Str × Tensor) → Option Str → Except PErr (Option Str)
  | [], dim => .ok dim
  | (_, t) :: rest, _ =>
    match t.varDims sample with
    | [d, _] => collectDims sample rest (some d)
    | _ => .error .valueError

/-- the coordinates of the diagonal along `dim` (plotting.py:1378, 1541): the diagonal keeps the first variable dimension of its tensor, and reading
another one raises KeyError -/
def Tensor.diagLabels (t : Tensor) (sample : List Str) (dim : Str) : Except PErr (List Str) :=
  match t.varDims sample with
  | [d, _] => if d = dim then .ok (t.labels d) else .error .keyError
  | _ => .error .keyError

/-- a stick plot of one lag: position, mean, inner and outer interval -/
structure Stick where
  x : ℝ
  mean : ℝ
  inner : ℝ × ℝ
  outer : ℝ × ℝ

/-- what is drawn in a panel for one model, or for the reference -/
inductive Mark where
  | stem (colour : Nat) (points : List (ℝ × ℝ))
  | forest (colour : Nat) (sticks : List Stick)
  | reference (points : List (ℝ × ℝ))

open Classical in
/-- `sorted(ci_probs)` (plotting.py:1346) -/
noncomputable def sortedProbs (p : ℝ × ℝ) : ℝ × ℝ := if p.1 ≤ p.2 then p else (p.2, p.1)

/-- one model in one panel (plotting.py:1377-1397): `lags` are those of the first model, which must be as many as the model's own, else matplotlib
raises ValueError; `i` is the number of the variable -/
noncomputable def drawModel (t : Tensor) (sample : List Str) (i : Nat) (lags : List ℝ) (ci : ℝ × ℝ) (offset : ℝ) (colour : Nat) : Except PErr Mark :=
  if t.lags.length = lags.length then
    if (t.present sample).isEmpty then .ok (.stem colour (lags.zipIdx.map fun p => (p.1 + offset, t.value i i p.2)))
    else
      let ps := sortedProbs ci
      .ok (.forest colour (lags.zipIdx.map fun p => ⟨p.1 + offset, t.mean i i p.2, t.hdi ps.1 i i p.2, t.hdi ps.2 i i p.2⟩))
  else .error .valueError

/-- the loop over the models (plotting.py:1377-1397): models without the variable are passed over -/
noncomputable def drawModels (sample : List Str) (dim v : Str) (lags : List ℝ) (ci : ℝ × ℝ) : List ((Str × Tensor) × ℝ × Nat) → Except PErr (List Mark)
  | [] => .ok []
  | ((_, t), offset, colour) :: rest =>
    match t.diagLabels sample dim with
    | .error e => .error e
    | .ok labels =>
      if v ∈ labels then
        match drawModel t sample (labels.idxOf v) lags ci offset colour with
        | .error e => .error e
        | .ok m =>
          match drawModels sample dim v lags ci rest with
          | .error e => .error e
          | .ok ms => .ok (m :: ms)
      else drawModels sample dim v lags ci rest

/-- the reference (an `xr.DataArray` with `lag` and one variable dimension): the labels along its first dimension other than `lag`, if there is one -/
structure Reference where
  labels : Option (List Str)
  lags : List ℝ
  value : Nat → Nat → ℝ

/-- the markers of the reference (plotting.py:1399-1403) -/
def drawReference (r : Option Reference) (v : Str) : List Mark :=
  match r with
  | none => []
  | some r =>
    match r.labels with
    | none => []
    | some labels => if v ∈ labels then [.reference (r.lags.zipIdx.map fun p => (p.1, r.value (labels.idxOf v) p.2))] else []

/-- a panel -/
structure AcfPanel where
  title : Str
  loc : Loc
  marks : List Mark

/-- the loop over the panels (plotting.py:1555-1573): `zip` -/
noncomputable def drawPanels (sample : List Str) (dim : Str) (lags : List ℝ) (ci : ℝ × ℝ) (models : List ((Str × Tensor) × ℝ × Nat)) (r : Option Reference) :
    List (Str × Loc) → Except PErr (List AcfPanel)
  | [] => .ok []
  | (v, loc) :: rest =>
    match drawModels sample dim v lags ci models with
    | .error e => .error e
    | .ok ms =>
      match drawPanels sample dim lags ci models r rest with
      | .error e => .error e
      | .ok ps => .ok (⟨v, loc, ms ++ drawReference r v⟩ :: ps)

/-- `offsets` (plotting.py:1551) of model number `i` of `n` -/
noncomputable def offsetOf (n : Nat) (dodge : ℝ) (i : Nat) : ℝ := ((i : ℝ) - ((n : ℝ) - 1) / 2) * (if 1 < n then dodge else 0)

/-- an entry of the legend: the colour of a model, or the reference marker -/
inductive Entry where
  | model (colour : Nat) (label : Str)
  | data
  deriving DecidableEq

/-- `_add_acf_legend` (plotting.py:1427-1451); no legend is drawn without entries -/
def legend (labels : List Str) (hasReference : Bool) : List Entry :=
  (if 1 < labels.length then labels.zipIdx.map fun p => .model p.2 p.1 else []) ++ (if hasReference then [.data] else [])

/-- a figure -/
structure AcfFigure where
  panels : List AcfPanel
  legend : List Entry

/-- `plot_acf` (plotting.py:1454-1576). A single tensor is the mapping with the label `None` (here the empty one). `min(None, n)` raises TypeError; an
empty mapping raises StopIteration (here an index error). -/
noncomputable def plotAcf (models : List (Str × Tensor)) (vars : Option (List Str)) (sample : List Str) (ci : ℝ × ℝ) (reference : Option Reference)
    (dodge : ℝ) (nCols : Option Nat) : Except PErr AcfFigure :=
  match collectDims sample models none with
  | .error e => .error e
  | .ok none => .error .indexError
  | .ok (some dim) =>
    match models with
    | [] => .error .indexError
    | (_, first) :: _ =>
      match first.diagLabels sample dim with
      | .error e => .error e
      | .ok available =>
        let vs := vars.getD available
        if vs.all fun v => v ∈ available then
          match nCols with
          | none => .error .typeError
          | some c =>
            match prepareGrid (min c vs.length) vs.length with
            | .error e => .error e
            | .ok g =>
              if "lag".toList ∈ first.dims then
                let drawn := models.zipIdx.map fun p => (p.1, offsetOf models.length dodge p.2, p.2)
                match drawPanels sample dim first.lags ci drawn reference (vs.zip g.locs) with
                | .error e => .error e
                | .ok ps => .ok ⟨ps, legend (models.map Prod.fst) reference.isSome⟩
              else .error .keyError
        else .error .valueError

end GE.Acf
