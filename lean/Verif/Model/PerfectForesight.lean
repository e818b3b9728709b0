import Verif.Model.Loader
import Mathlib.Algebra.Field.Defs
/-!
# `gEconpy/model/perfect_foresight/` : assemble.py, solve.py, validation.py

Arrays are functions on indices together with their explicit sizes; floats are elements of a field `K`. The compiled single-period
function (compile.py) is an arbitrary function here. NumPy's broadcasting errors are modelled where user input can trigger them.
-/

namespace GE

/-! ## assemble.py -/

/-- `np.nonzero(J[:, lo : lo + n_vars])` (assemble.py:37-39): the `(row, column)` pairs with a nonzero entry, row by row; columns are
relative to the slice -/
def nonzeroIn {K : Type} [Zero K] [DecidableEq K] (J : Nat → Nat → K) (nEq nVars lo : Nat) : List (Nat × Nat) :=
  (List.range nEq).flatMap fun r => (List.range nVars).filterMap fun c => if J r (lo + c) = 0 then none else some (r, c)

/-- the entries one slice assignment of lines 57-75 writes: positions from the mask, values from the period's Jacobian -/
def blockEntries {K : Type} (J : Nat → Nat → K) (mask : List (Nat × Nat)) (rowOff colOff lo : Nat) : List (Nat × Nat × K) :=
  mask.map fun p => (rowOff + p.1, colOff + p.2, J p.1 (lo + p.2))

/-- the body of the loop for period `t` (assemble.py:53-75) -/
def periodEntries {K : Type} [Zero K] [DecidableEq K] (J : Nat → Nat → Nat → K) (nVars nEq T t : Nat) : List (Nat × Nat × K) :=
  (if t > 0 then blockEntries (J t) (nonzeroIn (J 0) nEq nVars 0) (t * nEq) ((t - 1) * nVars) 0 else []) ++
  blockEntries (J t) (nonzeroIn (J 0) nEq nVars nVars) (t * nEq) (t * nVars) nVars ++
  (if t < T - 1 then blockEntries (J t) (nonzeroIn (J 0) nEq nVars (2 * nVars)) (t * nEq) ((t + 1) * nVars) (2 * nVars) else [])

/-- `assemble_stacked_jacobian` (assemble.py:8-77) as the list of `(row, column, value)` triples in the order written, `J t` being
`period_jacobians[t]`. The masks come from period 0 (lines 36-39). -/
def assembleEntries {K : Type} [Zero K] [DecidableEq K] (J : Nat → Nat → Nat → K) (nVars nEq T : Nat) : List (Nat × Nat × K) :=
  (List.range T).flatMap fun t => periodEntries J nVars nEq T t

/-- `total_nnz` (assemble.py:46): the length of the preallocated arrays -/
def totalNnz {K : Type} [Zero K] [DecidableEq K] (J : Nat → Nat → Nat → K) (nVars nEq T : Nat) : Nat :=
  T * (nonzeroIn (J 0) nEq nVars nVars).length + (T - 1) * (nonzeroIn (J 0) nEq nVars 0).length +
    (T - 1) * (nonzeroIn (J 0) nEq nVars (2 * nVars)).length

/-- `csc_matrix((data, (rows, cols)))[i, j]`: SciPy adds up the values given for the same position -/
def cooAt {K : Type} [AddMonoid K] (es : List (Nat × Nat × K)) (i j : Nat) : K :=
  ((es.filter fun e => e.1 = i ∧ e.2.1 = j).map fun e => e.2.2).sum

/-! ## solve.py -/

/-- `_build_shock_matrix` (solve.py:23-53): entry `(t, i)`. `none` is the broadcasting error of line 52 for a path longer than the
horizon (`validate_perfect_foresight_inputs` rejects those before). Duplicate shock names do not occur. -/
def shockMatrix {K : Type} [Zero K] (shocks : Option (List (Str × List K))) (names : List Str) (T : Nat) : Option (Nat → Nat → K) :=
  let s := shocks.getD []
  if names.any fun n => ((dget s n).getD []).length > T then none
  else some fun t i => match names[i]? with
    | some n => match dget s n with
      | some path => (path[t]?).getD 0
      | none => 0
    | none => 0

/-- a value of `param_paths`: a number, or an array -/
inductive PPath (K : Type) | scalar (v : K) | array (vs : List K)
deriving DecidableEq

/-- the errors raised while building the inputs -/
inductive PFErr | unknownInitial | unknownTerminal | unknownShock | shockLength | unknownParam | paramLength | keyError | valueError
deriving DecidableEq, Repr

/-- the loop of `_build_param_matrix` (solve.py:84-87): column assignments in the order of the dictionary. Assigning an array of length 1
broadcasts, any other length than `T` is a ValueError. -/
def paramLoop {K : Type} (names : List Str) (T : Nat) : List (Str × PPath K) → (Nat → Nat → K) → Except PFErr (Nat → Nat → K)
  | [], M => .ok M
  | (n, v) :: rest, M =>
    if n ∈ names then
      let idx := names.idxOf n
      match v with
      | .scalar a => paramLoop names T rest fun t i => if i = idx then a else M t i
      | .array vs =>
        if vs.length = T then paramLoop names T rest fun t i => if i = idx then (vs[t]?).getD (M t i) else M t i
        else match vs with
          | [a] => paramLoop names T rest fun t i => if i = idx then a else M t i
          | _ => .error .valueError
    else .error .valueError

/-- `_build_param_matrix` (solve.py:56-89); `defaults` is `model.parameters()` -/
def paramMatrix {K : Type} [Zero K] (paths : Option (List (Str × PPath K))) (names : List Str) (defaults : List (Str × K)) (T : Nat) :
    Except PFErr (Nat → Nat → K) :=
  if names.all fun n => (dget defaults n).isSome then
    paramLoop names T (paths.getD []) fun _ i => ((names[i]?).bind (dget defaults)).getD 0
  else .error .keyError

/-- the arguments of the single-period function at one period: `y_tm1, y_t, y_tp1, x[t], *params[t]` (without shocks `x[t]` is not
passed, solve.py:118-121; here it is then an empty row) -/
structure PeriodArgs (K : Type) where
  yPrev : Nat → K
  yNow : Nat → K
  yNext : Nat → K
  x : Nat → K
  params : Nat → K

/-- the arguments of period `t` (solve.py:112-121); `y` is the flat vector, `y.reshape(T, n_vars)[t, c] = y[t * n_vars + c]` -/
def periodArgs {K : Type} (y yInit yTerm : Nat → K) (x params : Nat → Nat → K) (nVars T t : Nat) : PeriodArgs K where
  yPrev := if t = 0 then yInit else fun c => y ((t - 1) * nVars + c)
  yNow := fun c => y (t * nVars + c)
  yNext := if t = T - 1 then yTerm else fun c => y ((t + 1) * nVars + c)
  x := x t
  params := params t

/-- `_evaluate_periods` (solve.py:92-121): what is yielded, in order -/
def evaluatePeriods {K β : Type} (f : PeriodArgs K → β) (y yInit yTerm : Nat → K) (x params : Nat → Nat → K) (nVars T : Nat) :
    List (Nat × β) :=
  (List.range T).map fun t => (t, f (periodArgs y yInit yTerm x params nVars T t))

/-- `residuals[t * n_eq : (t + 1) * n_eq] = r` (solve.py:142, 166) -/
def writeSlice {K : Type} (nEq t : Nat) (r : Nat → K) (res : Nat → K) : Nat → K :=
  fun i => if t * nEq ≤ i ∧ i < (t + 1) * nEq then r (i - t * nEq) else res i

/-- `_compute_stacked_residuals` (solve.py:149-168) -/
def stackedResiduals {K : Type} [Zero K] (f : PeriodArgs K → Nat → K) (y yInit yTerm : Nat → K) (x params : Nat → Nat → K)
    (nVars nEq T : Nat) : Nat → K :=
  (evaluatePeriods f y yInit yTerm x params nVars T).foldl (fun res p => writeSlice nEq p.1 p.2 res) fun _ => 0

/-- `_compute_stacked_residuals_and_jacobian` (solve.py:124-146); `g` returns residuals and Jacobian of one period -/
def stackedSystem {K : Type} [Zero K] [DecidableEq K] (g : PeriodArgs K → (Nat → K) × (Nat → Nat → K)) (y yInit yTerm : Nat → K)
    (x params : Nat → Nat → K) (nVars nEq T : Nat) : (Nat → K) × List (Nat × Nat × K) :=
  let yielded := evaluatePeriods g y yInit yTerm x params nVars T
  let residuals := yielded.foldl (fun res p => writeSlice nEq p.1 p.2.1 res) fun _ => 0
  let jacobians := fun t r c => match yielded[t]? with | some p => p.2.2 r c | none => 0
  (residuals, assembleEntries jacobians nVars nEq T)

/-- the suffix `_ss` -/
def ssSuffix : Str := ['_', 's', 's']

/-- `k.removesuffix("_ss")` -/
def removeSuffixSS (k : Str) : Str := if ssSuffix.isSuffixOf k then k.take (k.length - 3) else k

/-- `_normalize_condition_keys` (solve.py:178-183) -/
def normalizeConditions {K : Type} (d : List (Str × K)) : List (Str × K) := dupdate [] (d.map fun p => (removeSuffixSS p.1, p.2))

/-- `_ss_dict_to_array` (solve.py:186-188) -/
def ssToArray {K : Type} [One K] (ss : List (Str × K)) (names : List Str) : List K :=
  names.map fun n => (dget ss (n ++ ssSuffix)).getD ((dget ss n).getD 1)

/-- one assignment `y[var_names.index(name)] = val` (solve.py:454-456, 462-464) -/
def setCondition {K : Type} (names : List Str) (y : List K) (p : Str × K) : List K := y.set (names.idxOf p.1) p.2

/-- `y_initial` (solve.py:450-456) and, the same code, `y_terminal` (458-464): `conds` are the normalised conditions, `ss` the
steady-state dictionary. Membership of the names was validated before. -/
def boundaryVector {K : Type} [One K] (conds : List (Str × K)) (ss : List (Str × K)) (names : List Str) : List K :=
  if names.all fun n => n ∈ dkeys conds then names.map fun n => (dget conds n).getD 1
  else conds.foldl (setCondition names) (ssToArray ss names)

/-- `_extract_boundary_param_kwargs` (solve.py:260-280): the values at the first and at the last period; an empty array is an IndexError
(`none`) -/
def boundaryParams {K : Type} (paths : List (Str × PPath K)) : Option (List (Str × K) × List (Str × K)) :=
  paths.foldr (fun p acc => do
    let (a, b) ← acc
    match p.2 with
    | .scalar v => pure ((p.1, v) :: a, (p.1, v) :: b)
    | .array vs => do
      let x ← vs.head?
      let y ← vs.getLast?
      pure ((p.1, x) :: a, (p.1, y) :: b)) (some ([], []))

/-- `make_piecewise_x0` (solve.py:202-257): entry `(t, c)`, for natural `transition_start` and `transition_periods`; `np.linspace(0, 1, n)[k]`
is `k / (n - 1)`. Rows are assigned in the order of the code; later assignments win. -/
def piecewiseX0 {K : Type} [Field K] (init term : Nat → K) (T start periods : Nat) (t c : Nat) : K :=
  let stop := min (start + periods) T
  let n := stop - start
  if stop > start ∧ start ≤ t ∧ t < stop then
    if n = 1 then term c
    else
      let w : K := (t - start : Nat) / (n - 1 : Nat)
      (1 - w) * init c + w * term c
  else if stop ≤ t then term c
  else init c

/-! ## validation.py -/

/-- `validate_perfect_foresight_inputs` (validation.py:4-63); the conditions are already normalised -/
def validatePF {K : Type} (init term : List (Str × K)) (shocks : Option (List (Str × List K))) (paths : Option (List (Str × PPath K)))
    (varNames shockNames paramNames : List Str) (T : Nat) : Except PFErr Unit :=
  if (dkeys init).any fun n => n ∉ varNames then .error .unknownInitial
  else if (dkeys term).any fun n => n ∉ varNames then .error .unknownTerminal
  else if (dkeys (shocks.getD [])).any fun n => n ∉ shockNames then .error .unknownShock
  else if (shocks.getD []).any fun p => p.2.length ≠ T then .error .shockLength
  else if (dkeys (paths.getD [])).any fun n => n ∉ paramNames then .error .unknownParam
  else if (paths.getD []).any fun p => match p.2 with | .array vs => vs.length ≠ T | .scalar _ => false then .error .paramLength
  else .ok ()

/-! ## `Model.parameters` (model/model.py:738-769) -/

/-- the free parameters with their default values (`_default_params`) and the deterministic ones as the compiled function computes them
from the free ones (model/parameters.py:50-69) -/
structure ParamModel (K : Type) where
  free : List (Str × K)
  det : List (Str × (List (Str × K) → K))

/-- `Model.parameters(**updates)` (model/model.py:758-769); the error carries the unknown names of `ModelUnknownParameterError` -/
def ParamModel.parameters {K : Type} (m : ParamModel K) (updates : List (Str × K)) : Except (List Str) (List (Str × K)) :=
  let u := updates.filter fun p => p.1 ∉ dkeys m.det
  let unknown := (dkeys u).filter fun k => k ∉ dkeys m.free
  if unknown.isEmpty then
    let p := dupdate m.free u
    .ok (p ++ m.det.map fun d => (d.1, d.2 p))
  else .error unknown

end GE
