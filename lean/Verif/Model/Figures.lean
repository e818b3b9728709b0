import Verif.Model.Plotting
import Mathlib.Algebra.Order.Field.Basic
/-!
# Other figures of `gEconpy/plotting.py`: heat maps, matrices, solvability grids, eigenvalue sensitivity, legends

As in `Model/Plotting.lean` a figure is the list of what is drawn. Not modelled: colours other than those of annotations, sizes, densities,
tick formats, formatting of numbers.
-/

namespace GE.Fig
open Plot

/-! ## heat maps -/

/-- a `pd.DataFrame` of numbers -/
structure Table where
  rows : List Str
  cols : List Str
  value : Nat → Nat → ℝ

/-- one annotation: position, number, and whether the second text colour is used -/
structure Cell where
  x : Nat
  y : Nat
  value : ℝ
  second : Bool

/-- a heat map: labelled ticks of both axes and annotations -/
structure HeatMap where
  xticks : List (Nat × Str)
  yticks : List (Nat × Str)
  cells : List Cell

/-- `data.loc[rows, cols]` with lists of labels: a missing label raises KeyError -/
def Table.select (t : Table) (rs cs : List Str) : Except PErr Table :=
  if rs.all (fun r => decide (r ∈ t.rows)) && cs.all (fun c => decide (c ∈ t.cols)) then
    .ok ⟨rs, cs, fun i j => t.value (t.rows.idxOf (rs.getD i [])) (t.cols.idxOf (cs.getD j []))⟩
  else .error .keyError

/-- the ticks of `plot_heatmap` (plotting.py:1245-1250): `np.arange(n_rows)` for the columns and `np.arange(n_columns)` for the rows; a number of
labels different from that of the ticks raises ValueError -/
def heatTicks (t : Table) : Except PErr (List (Nat × Str) × List (Nat × Str)) :=
  if t.cols.length = t.rows.length then .ok ((List.range t.rows.length).zip t.cols, (List.range t.cols.length).zip t.rows)
  else .error .valueError

/-- all entries of a table -/
def Table.entries (t : Table) : List ℝ :=
  (List.range t.rows.length).flatMap fun i => (List.range t.cols.length).map fun j => t.value i j

/-- matplotlib's `Normalize` scaled to the data (`im.norm`): zero if all entries are equal -/
noncomputable def norm (lo hi v : ℝ) : ℝ := if lo = hi then 0 else (v - lo) / (hi - lo)

open Classical in
/-- `annotate_heatmap(im)` (plotting.py:1265-1321) without `data` and `threshold`, on an image with entries; `data.max()` of an empty image raises
ValueError -/
noncomputable def annotate (t : Table) : Except PErr (List Cell) :=
  match t.entries with
  | [] => .error .valueError
  | v :: vs =>
    let lo := vs.foldl min v
    let hi := vs.foldl max v
    let threshold := norm lo hi hi / 2
    .ok ((List.range t.rows.length).flatMap fun i => (List.range t.cols.length).map fun j =>
      ⟨j, i, t.value i j, decide (threshold < norm lo hi (t.value i j))⟩)

/-- `plot_heatmap` and `annotate_heatmap` on one table (plotting.py:1204-1321) -/
noncomputable def heatMap (t : Table) : Except PErr HeatMap :=
  match heatTicks t with
  | .error e => .error e
  | .ok (xs, ys) =>
    match annotate t with
    | .error e => .error e
    | .ok cs => .ok ⟨xs, ys, cs⟩

/-- `plot_covariance_matrix` (plotting.py:1138-1201) -/
noncomputable def plotCovariance (t : Table) (vars : Option (List Str)) : Except PErr HeatMap :=
  let vs := vars.getD t.cols
  match t.select vs vs with
  | .error e => .error e
  | .ok s => heatMap s

/-! ## estimated matrices -/

/-- a visible panel of `plot_estimated_matrix`: row, column, the entry shown, the label at the left and the label below -/
structure MatPanel where
  row : Nat
  col : Nat
  shown : Nat × Nat
  ylabel : Option Str
  xlabel : Option Str
  deriving DecidableEq

/-- `plot_estimated_matrix` (plotting.py:1979-2012): `names` are the shocks, already without `epsilon_`; hidden panels are left out -/
def plotMatrix (names : List Str) (symmetrical : Bool) : List MatPanel :=
  (List.range names.length).flatMap fun i => (List.range names.length).filterMap fun j =>
    if decide (i ≤ j) && symmetrical then none
    else some ⟨i, j, (i, j), if j = 0 then names[i]? else none, if i = names.length - 1 then names[j]? else none⟩

/-! ## solvability -/

/-- a numeric column of the table of draws -/
structure Column where
  name : Str
  values : List ℝ

/-- `_SOLVABILITY_META_COLS` (plotting.py:484) -/
def metaCols : List Str := ["failure_step".toList, "norm_deterministic".toList, "norm_stochastic".toList]

/-- `Series.var()`: with one draw or none NaN -/
noncomputable def variance (xs : List ℝ) : Option ℝ :=
  if xs.length < 2 then none
  else
    let m := xs.sum / xs.length
    some ((xs.map fun x => (x - m) ^ 2).sum / (xs.length - 1))

open Classical in
/-- `plot_data.var() < 1e-18` (plotting.py:504); false for NaN -/
noncomputable def isConstant (c : Column) : Bool :=
  match variance c.values with
  | none => false
  | some v => decide (v < 1 / 10 ^ 18)

/-- the parameters of `_solv_prepare_data` (plotting.py:487-509), for tables of numeric columns -/
noncomputable def solvParams (cols : List Column) : List Str :=
  ((cols.filter fun c => decide (c.name ∉ metaCols) && !isConstant c).map Column.name).filter fun n => n ≠ "success".toList

/-- a visible panel of the pair plot: row, column, names of the axes, labels -/
structure SolvPanel where
  row : Nat
  col : Nat
  x : Str
  y : Str
  density : Bool
  ylabel : Option Str
  xlabel : Option Str
  deriving DecidableEq

/-- `plot_solvability` (plotting.py:556-646): what each visible panel shows; `plt.subplots(0, 0)` raises ValueError -/
noncomputable def plotSolvability (cols : List Column) (params : Option (List Str)) : Except PErr (List SolvPanel) :=
  let available := solvParams cols
  let use := params.getD available
  if use.all fun p => decide (p ∈ available) then
    if use.length = 0 then .error .valueError
    else .ok (use.zipIdx.flatMap fun r => (use.zipIdx.filter fun c => decide (c.2 ≤ r.2)).map fun c =>
      ⟨r.2, c.2, c.1, r.1, decide (r.2 = c.2), if c.2 = 0 then some r.1 else none, if r.2 = use.length - 1 then some c.1 else none⟩)
  else .error .valueError

/-! ## time series -/

/-- `plot_timeseries` (plotting.py:149-199): the default number of columns is that of the table; an unknown column raises KeyError -/
def plotTimeseries (columns : List Str) (vars : Option (List Str)) (nCols : Option Nat) : Except PErr (List (Str × Loc)) :=
  let vs := vars.getD columns
  match prepareGrid (nCols.getD (min 4 columns.length)) vs.length with
  | .error e => .error e
  | .ok g => if vs.all fun v => decide (v ∈ columns) then .ok (vs.zip g.locs) else .error .keyError

/-! ## eigenvalue sensitivity -/

/-- the parts of the sensitivity data used: points kept, and for every parameter the gradients of the points kept with their lengths -/
structure Sens where
  params : List Str
  points : List (ℝ × ℝ)
  grads : Nat → List (ℝ × ℝ)
  mags : Nat → List ℝ

/-- one panel of the figure: parameter, the value announced in its title, place, arrows, legend -/
structure SensPanel where
  param : Str
  value : ℝ
  loc : Loc
  arrows : List (Nat × (ℝ × ℝ))
  legend : Bool

/-- `_validate_params_to_plot` (plotting.py:981-992) -/
def sensParams (params : Option (List Str)) (all : List Str) : Except PErr (List Str) :=
  match params with
  | none => .ok all
  | some ps => if ps.all fun p => decide (p ∈ all) then .ok ps else .error .valueError

/-- `param_dict.get(param, 1.0)` where `param_dict` are the model's parameters with the keyword arguments that name one of them
(plotting.py:1103-1110); `defaults` are the model's values -/
def sensValue (defaults kwargs : List (Str × ℝ)) (p : Str) : ℝ :=
  (dget (dupdate defaults (kwargs.filter fun k => k.1 ∈ dkeys defaults)) p).getD 1

/-- `n_cols or min(4, n_params)` (plotting.py:1093) -/
def sensCols (nCols : Option Nat) (n : Nat) : Nat :=
  match nCols with
  | none => min 4 n
  | some 0 => min 4 n
  | some c => c

/-- `plot_eigenvalue_sensitivity` (plotting.py:995-1135) after the filtering of eigenvalues; `n_cols or min(4, n_params)` -/
noncomputable def plotSensitivity (s : Sens) (defaults kwargs : List (Str × ℝ)) (params : Option (List Str)) (perturbation minFrac : ℝ)
    (nCols : Option Nat) : Except PErr (List SensPanel) :=
  match sensParams params s.params with
  | .error e => .error e
  | .ok ps =>
    if ps.length = 0 then .error .valueError
    else
      match prepareGrid (sensCols nCols ps.length) ps.length with
      | .error e => .error e
      | .ok g => .ok ((ps.zip g.locs).zipIdx.map fun q =>
          let v := sensValue defaults kwargs q.1.1
          let k := s.params.idxOf q.1.1
          ⟨q.1.1, v, q.1.2, Plot.arrows s.points (s.grads k) (s.mags k) v perturbation minFrac, decide (q.2 = 0)⟩)

/-! ## legends of impulse responses -/

/-- the entries of `_add_shocks_legend` (plotting.py:372-390): lines of the first panel paired with labels; without shock dimension the labels are those
of the lines, which matplotlib does not show (they begin with an underscore) -/
def shockLegend (ps : List Panel) (shocks : Option (List Str)) : Except PErr (List (Line × Str)) :=
  match ps with
  | [] => .error .indexError
  | p :: _ =>
    match shocks with
    | none => .ok []
    | some ss => .ok ((p.lines.take ss.length).zip ss)

/-- the scenario legend of the first panel (plotting.py:358-362): style and name; none for a single scenario or an empty first name -/
def scenarioLegend (names : List Str) : List (Nat × Str) :=
  match names with
  | [] => []
  | n :: _ => if 1 < names.length ∧ n ≠ [] then names.zipIdx.map fun p => (p.2 % 4, p.1) else []

end GE.Fig
