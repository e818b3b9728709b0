import Verif.Model.Sym
import Mathlib.Data.Real.Basic
/-!
# `gEconpy/plotting.py`: what is drawn where

Modelled: the grid of panels, the choice of variables, shocks, scenarios and parameters, the filtering of eigenvalues, the axis limits, the
arrows, the split of solvability results. Not modelled: matplotlib itself (a figure is the list of its panels, a panel the list of what is
drawn in it), colours and fonts, densities and histograms. Floats are exact, with infinity and NaN where they matter.
-/

namespace GE.Plot

/-- a pair of slices into the grid (plotting.py:70-80) -/
structure Loc where
  top : Nat
  bottom : Nat
  left : Nat
  right : Nat
  deriving DecidableEq

/-- the exceptions raised here -/
inductive PErr where
  | zeroDivision | indexError | valueError | typeError | keyError
  deriving DecidableEq

/-- the grid: number of rows and columns, and the places of the panels -/
structure Grid where
  rows : Nat
  cols : Nat
  locs : List Loc
  deriving DecidableEq

/-- `prepare_gridspec_figure` (plotting.py:46-83); `n_plots % 0` raises ZeroDivisionError -/
def prepareGrid (nCols nPlots : Nat) : Except PErr Grid :=
  if nCols = 0 then .error .zeroDivision
  else
    let remainder := nPlots % nCols
    let extra := if 0 < remainder then 1 else 0
    let nRows := nPlots / nCols + extra
    let full := (List.range (nRows - extra)).flatMap fun i => (List.range nCols).map fun j => ⟨i * 2, (i + 1) * 2, j * 2, (j + 1) * 2⟩
    let last := if 0 < remainder then
        (List.range remainder).map fun j => ⟨(nRows - 1) * 2, nRows * 2, (nCols - remainder) + j * 2, (nCols - remainder) + (j + 1) * 2⟩
      else []
    .ok ⟨2 * nRows, 2 * nCols, full ++ last⟩

/-- `min(4, n_plots) if n_cols is None else n_cols` (plotting.py:239, 322, 1841) -/
def chosenCols (nCols : Option Nat) (nPlots : Nat) : Nat := nCols.getD (min 4 nPlots)

/-- `_prepare_irf_grid` (plotting.py:320-331): the grid, the row of each panel and the rows whose panels keep their tick labels -/
def irfGrid (nPlots : Nat) (nCols : Option Nat) : Except PErr (Grid × List Nat × List Nat) :=
  let c := chosenCols nCols nPlots
  match prepareGrid c nPlots with
  | .error e => .error e
  | .ok g =>
    let rowIdxs := g.locs.map fun l => l.bottom / 2 - 1
    let rows := sortBy (fun a b => decide (a ≤ b)) rowIdxs.eraseDups
    let square := rows.all fun i => rowIdxs.count i = c
    if square then
      match rows.getLast? with
      | none => .error .indexError
      | some r => .ok (g, rowIdxs, [r])
    else .ok (g, rowIdxs, rows.drop (rows.length - 2))

/-! ## impulse responses -/

/-- an argument naming what to plot: `None`, a string, a list, or something else -/
inductive Sel where
  | all
  | one (s : Str)
  | many (l : List Str)
  | other

/-- `_resolve_list_to_plot` (plotting.py:283-298) -/
def resolveList (value : Sel) (available : List Str) : Except PErr (List Str) :=
  let check := fun l : List Str => if l.all fun v => v ∈ available then .ok l else .error .valueError
  match value with
  | .all => .ok available
  | .one s => check [s]
  | .many l => check l
  | .other => .error .typeError

/-- an impulse response array: the coordinates of its `variable` dimension and, if it has one, of its `shock` dimension -/
structure Irf where
  vars : List Str
  shocks : Option (List Str)

/-- the argument `irf`: one array, a list of arrays or a dictionary (plotting.py:270-280) -/
inductive IrfArg where
  | single (a : Irf)
  | list (l : List Irf)
  | dict (d : List (Str × Irf))
  | other

/-- `_irf_to_mapping` (plotting.py:270-280) -/
def irfToMapping : IrfArg → Except PErr (List (Str × Irf))
  | .single a => .ok [([], a)]
  | .list l => .ok (l.zipIdx.map fun p => ("Scenario ".toList ++ natStr p.2, p.1))
  | .dict d => .ok d
  | .other => .error .valueError

/-- `_resolve_vars_and_shocks` (plotting.py:301-317): the coordinates are those of the first scenario (`next` of an empty mapping raises,
here as an index error) -/
def resolveVarsShocks (m : List (Str × Irf)) (vars shocks : Sel) : Except PErr (List Str × Option (List Str)) :=
  match m with
  | [] => .error .indexError
  | (_, a) :: _ =>
    match resolveList vars a.vars with
    | .error e => .error e
    | .ok vs =>
      match a.shocks with
      | none => .ok (vs, none)
      | some ss =>
        match resolveList shocks ss with
        | .error e => .error e
        | .ok s => .ok (vs, some s)

/-- one line of a panel: the scenario it shows, its line style (a number of the list of markers) and the shock, if there are several -/
structure Line where
  scenario : Str
  style : Nat
  shock : Option Str
  deriving DecidableEq

/-- one panel: title, place, lines, whether the x axis is labelled -/
structure Panel where
  title : Str
  loc : Loc
  lines : List Line
  xticks : Bool

/-- `irf_data.sel(variable=v, shock=s)` followed by the line plot, one line per remaining shock (plotting.py:117-122, 346-356): a missing
coordinate raises KeyError -/
def scenarioLines (idx : Nat) (name : Str) (a : Irf) (v : Str) (s : Option (List Str)) : Except PErr (List Line) :=
  if v ∈ a.vars then
    match s, a.shocks with
    | none, none => .ok [⟨name, idx % 4, none⟩]
    | none, some ss => .ok (ss.map fun x => ⟨name, idx % 4, some x⟩)
    | some _, none => .error .keyError
    | some s, some ss => if s.all fun x => x ∈ ss then .ok (s.map fun x => ⟨name, idx % 4, some x⟩) else .error .keyError
  else .error .keyError

/-- the scenarios of one panel (plotting.py:350-356) -/
def panelLines : List ((Str × Irf) × Nat) → Str → Option (List Str) → Except PErr (List Line)
  | [], _, _ => .ok []
  | ((n, a), i) :: rest, v, s =>
    match scenarioLines i n a v s with
    | .error e => .error e
    | .ok l =>
      match panelLines rest v s with
      | .error e => .error e
      | .ok ls => .ok (l ++ ls)

/-- the loop of `plot_irf` (plotting.py:449-462): `plot_locs[idx]`, `plot_row_idxs[idx]` -/
def irfPanels (m : List (Str × Irf)) (s : Option (List Str)) (g : Grid) (rowIdxs lastRows : List Nat) : List (Str × Nat) → Except PErr (List Panel)
  | [] => .ok []
  | (v, i) :: rest =>
    match g.locs[i]?, rowIdxs[i]?, panelLines m.zipIdx v s with
    | some loc, some r, .ok ls =>
      match irfPanels m s g rowIdxs lastRows rest with
      | .error e => .error e
      | .ok ps => .ok (⟨v, loc, ls, decide (r ∈ lastRows)⟩ :: ps)
    | _, _, .error e => .error e
    | _, _, _ => .error .indexError

/-- `plot_irf` (plotting.py:393-464), without the legends -/
def plotIrf (irf : IrfArg) (vars shocks : Sel) (nCols : Option Nat) : Except PErr (List Panel) :=
  match irfToMapping irf with
  | .error e => .error e
  | .ok m =>
    match resolveVarsShocks m vars shocks with
    | .error e => .error e
    | .ok (vs, ss) =>
      match irfGrid vs.length nCols with
      | .error e => .error e
      | .ok (g, rowIdxs, lastRows) => irfPanels m ss g rowIdxs lastRows vs.zipIdx

/-! ## other grids of panels -/

/-- `plot_simulation` (plotting.py:202-267): titles and places; an unknown variable raises when its turn comes, after earlier panels have
been drawn -/
def simPanels (available : List Str) (locs : List Loc) : List (Str × Nat) → Except PErr (List (Str × Loc))
  | [] => .ok []
  | (v, i) :: rest =>
    if v ∈ available then
      match locs[i]? with
      | none => .error .indexError
      | some loc =>
        match simPanels available locs rest with
        | .error e => .error e
        | .ok ps => .ok ((v, loc) :: ps)
    else .error .valueError

/-- `plot_simulation` (plotting.py:202-267) -/
def plotSimulation (available : List Str) (vars : Option (List Str)) (nCols : Option Nat) : Except PErr (List (Str × Loc)) :=
  let vs := vars.getD available
  match prepareGrid (chosenCols nCols vs.length) vs.length with
  | .error e => .error e
  | .ok g => simPanels available g.locs vs.zipIdx

/-- `plot_priors` (plotting.py:1876-1929): the priors with the hyper-priors of the shocks (a dictionary, later entries replacing earlier
ones), the requested ones counted, and the panels: the loop runs over all priors, not over the requested ones, and stops at the last
place. `α` is whatever a prior is -/
def plotPriors {α : Type} (priors hyper : List (Str × α)) (vars : Option (List Str)) (nCols : Nat) : Except PErr (List ((Str × α) × Loc)) :=
  let all := dupdate priors hyper
  let names := vars.getD (dkeys all)
  if names.all fun n => (dget all n).isSome then
    match prepareGrid nCols (names.eraseDups).length with
    | .error e => .error e
    | .ok g => .ok (all.zip g.locs)
  else .error .keyError

/-- the mark of the initial value in a panel of `plot_priors` (plotting.py:1923-1926): `if mark_initial_value and value`, where a value of
zero counts as false -/
def initialMark (mark : Bool) (value : Option Rat) : Option Rat :=
  match value with
  | some v => if mark = true ∧ v ≠ 0 then some v else none
  | none => none

/-- `var_names or vars_available` (plotting.py:1590): an empty list means all -/
def cornerVars (available : List Str) : Option (List Str) → List Str
  | none => available
  | some [] => available
  | some (v :: vs) => v :: vs

/-- `plot_corner` (plotting.py:1578-1609, 1680-1785): the variables shown and the panels left visible, as (row, column). With one variable
`plt.subplots(1, 1)` returns a single `Axes`, which cannot be indexed (`axes[row, col]`); with none it raises ValueError -/
def plotCorner (available : List Str) (vars : Option (List Str)) : Except PErr (List (Str × Str)) :=
  let vs := cornerVars available vars
  if vs.all fun v => v ∈ available then
    if vs.length = 0 then .error .valueError
    else if vs.length = 1 then .error .typeError
    else .ok ((vs.zipIdx.flatMap fun r => (vs.zipIdx.filter fun c => decide (c.2 ≤ r.2)).map fun c => (r.1, c.1)))
  else .error .valueError

/-- `kalman_output.lower()` of an ASCII string -/
def lower (s : Str) : Str := s.map Char.toLower

/-- the group read by `plot_kalman_filter` (plotting.py:1830-1842): the output name keeps the case of the argument; reading a missing group
raises KeyError -/
def kalmanGroup (groups : List Str) (output group : Str) (observed : Bool) : Except PErr Str :=
  if lower output ∈ ["filtered".toList, "predicted".toList, "smoothed".toList] then
    let name := output ++ ['_'] ++ group ++ (if observed then "_observed".toList else [])
    if name ∈ groups then .ok name else .error .keyError
  else .error .valueError

/-! ## eigenvalues -/

/-- a float: a number, infinity or NaN -/
inductive F where
  | num (x : ℝ)
  | inf
  | nan

/-- `a < b` for a float and a finite number; false for infinity and NaN -/
def F.below (a : F) (b : ℝ) : Prop := match a with | .num x => x < b | _ => False
/-- `a > b` for a float and a finite number; true for infinity, false for NaN -/
def F.above (a : F) (b : ℝ) : Prop := match a with | .num x => b < x | .inf => True | .nan => False

open Classical in
/-- `plot_eigenvalues` (plotting.py:768-781): the eigenvalues drawn (with the colour red or not), and the number announced as not shown.
The rows of the table are numbered -/
noncomputable def plotEigenvalues (mods : List F) : List (Nat × Bool) × Nat :=
  ((mods.zipIdx.filter fun p => decide (p.1.below 10)).map fun p => (p.2, decide (p.1.above 1)),
   (mods.filter fun m => decide (m.above 10)).length)

open Classical in
/-- `finite_mods` (plotting.py:966): the moduli below `1e6` -/
noncomputable def finiteMods (mods : List F) : List ℝ :=
  mods.filterMap fun m => match m with | .num x => if x < 1000000 then some x else none | _ => none

/-- the threshold of `_filter_eigenvalues` (plotting.py:966-968): `max(10 * finite_mods.max(), 10.0)`, or `1e6` without finite moduli -/
noncomputable def infTol (given : Option ℝ) (mods : List F) : ℝ :=
  match given with
  | some t => t
  | none =>
    match finiteMods mods with
    | [] => 1000000
    | x :: xs => max (10 * xs.foldl max x) 10

open Classical in
/-- `_filter_eigenvalues` (plotting.py:949-978): the rows kept (for the real parts, the imaginary parts, the moduli and the gradients
alike) and the number left out -/
noncomputable def filterEigenvalues (mods : List F) (zeros infinite : Bool) (zeroTol : ℝ) (tol : Option ℝ) : List Nat × Nat :=
  let t := infTol tol mods
  let keep := fun m : F => (!zeros || decide (m.above zeroTol)) && (!infinite || decide (m.below t))
  let kept := (mods.zipIdx.filter fun p => keep p.1).map Prod.snd
  (kept, mods.length - kept.length)

/-- `_compute_axis_limits` (plotting.py:786-831): the x limits, the y limits and half the range -/
noncomputable def axisLimits (re im : List ℝ) : (ℝ × ℝ) × (ℝ × ℝ) × ℝ :=
  match re, im with
  | r :: rs, i :: is =>
    let reMin := rs.foldl min r
    let reMax := rs.foldl max r
    let imMin := is.foldl min i
    let imMax := is.foldl max i
    let padRe := max (reMax - reMin) (1 / 10) * (3 / 10)
    let padIm := max (imMax - imMin) (1 / 10) * (3 / 10)
    let xlim := (reMin - padRe, reMax + padRe)
    let ylim := (imMin - padIm, imMax + padIm)
    let x := (xlim.1 + xlim.2) / 2
    let y := (ylim.1 + ylim.2) / 2
    let half := max (xlim.2 - xlim.1) (ylim.2 - ylim.1) / 2
    ((x - half, x + half), (y - half, y + half), half)
  | _, _ => ((-3 / 2, 3 / 2), (-3 / 2, 3 / 2), 3 / 2)

open Classical in
/-- the arrows of `_draw_eigenvalue_panel` (plotting.py:909-929): eigenvalue number and end point; `mag` are the lengths of the gradients.
The gradient magnitudes (square roots) are given -/
noncomputable def arrows (pts : List (ℝ × ℝ)) (grads : List (ℝ × ℝ)) (mags : List ℝ) (param perturbation minFrac : ℝ) : List (Nat × (ℝ × ℝ)) :=
  let delta := param * perturbation
  let maxGrad := match mags with | [] => 1 | m :: ms => if 1 / 1000000000000 < ms.foldl max m then ms.foldl max m else 1
  ((pts.zip (grads.zip mags)).zipIdx.filter fun p => decide (maxGrad * minFrac < p.1.2.2)).map fun p =>
    (p.2, (p.1.1.1 + p.1.2.1.1 * delta, p.1.1.2 + p.1.2.1.2 * delta))

/-! ## solvability -/

/-- the bars of `plot_solvability_summary` (plotting.py:649-686): label, left end, width; in this order, skipping absent stages. `none`
stands for success -/
def summaryOrder : List (Option Str) := [none, some "steady_state".toList, some "perturbation".toList, some "blanchard-kahn".toList,
  some "deterministic_norm".toList, some "stochastic_norm".toList]

/-- the loop over the labels (plotting.py:671-678); the frequency of a label is its share of the draws (`value_counts(normalize=True)`) -/
def summaryBars (draws : List (Option Str)) : List (Option Str) → Rat → List (Option Str × Rat × Rat)
  | [], _ => []
  | l :: ls, left =>
    let frac : Rat := (draws.count l : Rat) / draws.length
    if frac = 0 then summaryBars draws ls left else (l, left, frac) :: summaryBars draws ls (left + frac)

/-- `plot_solvability_summary` (plotting.py:649-686) -/
def plotSummary (draws : List (Option Str)) : List (Option Str × Rat × Rat) := summaryBars draws summaryOrder 0

/-- one point of a panel: draw number and series (`none`: success, otherwise the failure stage) -/
abbrev Point := Nat × Option Str

/-- `_solv_plot_offdiag` (plotting.py:526-553): the successes, then one series per reason, in order of first appearance -/
def offDiagonal (draws : List (Option Str)) : List Point :=
  let failed := draws.zipIdx.filterMap fun p => p.1.map fun r => (p.2, r)
  ((draws.zipIdx.filter fun p => p.1.isNone).map fun p => (p.2, none)) ++
    ((failed.map Prod.snd).eraseDups.flatMap fun r => (failed.filter fun p => p.2 = r).map fun p => (p.1, some r))

/-- the series of `_solv_plot_diagonal` (plotting.py:511-523): the draws that enter each density, successes first; a series with fewer
than two draws is skipped -/
def diagonal (draws : List (Option Str)) : List (List Nat) :=
  [(draws.zipIdx.filter fun p => p.1.isNone).map Prod.snd, (draws.zipIdx.filter fun p => !p.1.isNone).map Prod.snd].filter fun l => 2 ≤ l.length

end GE.Plot
