import Verif.Model.LinearSolve
import Verif.Model.Time
import Mathlib.Analysis.Real.Sqrt
/-! # Shock covariances, stationary covariances, argument handling (gEconpy/model/statistics)

Arrays are real. -/

open Matrix

namespace GE

/-- the forms of `shock_std` (covariance.py:24): a Python number, a one-dimensional `ndarray`, a `list` -/
inductive ShockStd where
  | scalar (r : ℝ)
  | ndarray (l : List ℝ)
  | list (l : List ℝ)

/-- the three ways to describe the shocks (covariance.py:22-24); `cov` is a two-dimensional array of any shape, dictionary keys are distinct -/
structure ShockOptions where
  stdDict : Option (List (Str × ℝ)) := none
  cov : Option ((m : ℕ) × (p : ℕ) × Mat m p) := none
  std : Option ShockStd := none

inductive StatErr where
  /-- `Exactly one of ... should be provided. You passed n.` (validation.py:141-144) -/
  | exactlyOne (n : ℕ)
  /-- `Incorrect covariance matrix shape` (validation.py:147-149) -/
  | covShape
  /-- `it must give values for all shocks. The following shocks were not found among the provided keys` (validation.py:156-159) -/
  | mustGiveAll (names : List Str)
  /-- `Unexpected shocks in shock_std_dict. The following names were not found among the model shocks` (validation.py:161-164) -/
  | unexpected (names : List Str)
  /-- `Length of shock_std does not match` (validation.py:170-172) -/
  | stdLength
  /-- `TypeError: '>' not supported between instances of 'list' and 'int'` (validation.py:173) -/
  | listCompare
  /-- `Shock standard deviations must be positive` (validation.py:174, 177) -/
  | notPositive
  /-- `LinAlgError` of `scipy.linalg.solve_discrete_lyapunov` (covariance.py:124) -/
  | lyapunov
  deriving DecidableEq, Repr

/-- how many options are not `None` (validation.py:139) -/
def ShockOptions.nProvided (o : ShockOptions) : ℕ := o.stdDict.isSome.toNat + o.cov.isSome.toNat + o.std.isSome.toNat

/-- the checks of the covariance matrix (validation.py:146-149) -/
def validateCov (k : ℕ) : Option ((m : ℕ) × (p : ℕ) × Mat m p) → Except StatErr Unit
  | none => .ok ()
  | some ⟨m, p, _⟩ => if m ≠ k ∨ p ≠ k then .error .covShape else .ok ()

/-- the checks of the dictionary (validation.py:151-164); `missing` and `extra` are the code's names -/
def validateDict (shocks : List Str) : Option (List (Str × ℝ)) → Except StatErr Unit
  | none => .ok ()
  | some d =>
    let missing := (dkeys d).filter fun x => x ∉ shocks
    let extra := shocks.filter fun x => x ∉ dkeys d
    if missing ≠ [] then .error (.mustGiveAll missing)
    else if extra ≠ [] then .error (.unexpected extra)
    else .ok ()

/-- the checks of `shock_std` (validation.py:166-177) -/
noncomputable def validateStd (k : ℕ) : Option ShockStd → Except StatErr Unit
  | none => .ok ()
  | some (.ndarray l) =>
    if l.length ≠ k then .error .stdLength
    else if ∀ x ∈ l, 0 < x then .ok () else .error .notPositive
  | some (.list l) => if l.length ≠ k then .error .stdLength else .error .listCompare
  | some (.scalar r) => if r < 0 then .error .notPositive else .ok ()

/-- `_validate_shock_options` (validation.py:132-177) -/
noncomputable def validateShockOptions (o : ShockOptions) (shocks : List Str) : Except StatErr Unit :=
  if 1 < o.nProvided ∨ o.nProvided = 0 then .error (.exactlyOne o.nProvided)
  else
    match validateCov shocks.length o.cov with
    | .error e => .error e
    | .ok () =>
      match validateDict shocks o.stdDict with
      | .error e => .error e
      | .ok () => validateStd shocks.length o.std

/-- `list.index` -/
def indexOf? {k : ℕ} (names : Fin k → Str) (x : Str) : Option (Fin k) := (List.finRange k).find? fun i => names i = x

/-- the loop of covariance.py:59-62: `Q[i, i] = value ** 2` for the dictionary's entries in order -/
noncomputable def dictQ {k : ℕ} (names : Fin k → Str) : List (Str × ℝ) → (Fin k → ℝ) → Fin k → ℝ
  | [], q => q
  | (x, v) :: d, q =>
    match indexOf? names x with
    | some i => dictQ names d (Function.update q i (v ^ 2))
    | none => dictQ names d q

/-- the variances of `np.eye(n) * shock_std ** 2` (covariance.py:65): a vector is broadcast along the rows and off-diagonal products are zero -/
noncomputable def stdVariance (s : ShockStd) (i : ℕ) : ℝ :=
  match s with
  | .scalar r => r ^ 2
  | .ndarray l => l.getD i 0 ^ 2
  | .list l => l.getD i 0 ^ 2

/-- `build_Q_matrix` (covariance.py:20-65). The last line with no option given cannot be reached. -/
noncomputable def buildQ {k : ℕ} (names : Fin k → Str) (o : ShockOptions) : Except StatErr (Mat k k) :=
  match validateShockOptions o (List.ofFn names) with
  | .error e => .error e
  | .ok () =>
    match o.cov with
    | some ⟨_, _, Q⟩ => .ok fun i j => if h : (i : ℕ) < _ ∧ (j : ℕ) < _ then Q ⟨i, h.1⟩ ⟨j, h.2⟩ else 0
    | none =>
      match o.stdDict with
      | some d => .ok (Matrix.diagonal (dictQ names d 0))
      | none =>
        match o.std with
        | some s => .ok (Matrix.diagonal fun i => stdVariance s i)
        | none => .error (.exactlyOne 0)

/-- `stationary_covariance_matrix` (covariance.py:106-130) for a solved model; `lyap` is `scipy.linalg.solve_discrete_lyapunov` -/
noncomputable def stationaryCov {n k : ℕ} (lyap : Mat n n → Mat n n → Option (Mat n n)) (names : Fin k → Str) (T : Mat n n) (R : Mat n k)
    (o : ShockOptions) : Except StatErr (Mat n n) :=
  match validateShockOptions o (List.ofFn names) with
  | .error e => .error e
  | .ok () =>
    match buildQ names o with
    | .error e => .error e
    | .ok Q =>
      match lyap T (R * Q * Rᵀ) with
      | none => .error .lyapunov
      | some Sigma => .ok Sigma

/-- `_compute_autocovariance_matrix` (covariance.py:133-161): `T^i Sigma`, each entry divided by the normalisation. Where numpy divides by zero
(a variable without variance) it yields NaN or infinity, real division here yields zero. -/
noncomputable def computeAutocov {n : ℕ} (T Sigma : Mat n n) (nLags : ℕ) (correlation : Bool) : List (Mat n n) :=
  let std := fun i => Real.sqrt (Sigma i i)
  (List.range nLags).map fun l => Matrix.of fun i j => (T ^ l * Sigma) i j / (if correlation then std i * std j else 1)

/-- `autocovariance_matrix` (covariance.py:164-234): the dictionary is passed on under the name `shock_dict`, which
`stationary_covariance_matrix` swallows with the solver options -/
noncomputable def autocovarianceMatrix {n k : ℕ} (lyap : Mat n n → Mat n n → Option (Mat n n)) (names : Fin k → Str) (T : Mat n n) (R : Mat n k)
    (o : ShockOptions) (nLags : ℕ) (correlation : Bool) : Except StatErr (List (Mat n n)) :=
  match stationaryCov lyap names T R { o with stdDict := none } with
  | .error e => .error e
  | .ok Sigma => .ok (computeAutocov T Sigma nLags correlation)

/-- `_maybe_solve_model` (validation.py:96-129) with the model's own solution `solved` -/
def maybeSolve {α β : Type} (solved : α × β) (T : Option α) (R : Option β) : Option α × Option β :=
  let n := T.isSome.toNat + R.isSome.toNat
  let T := if n = 1 then none else T
  let R := if n = 1 then none else R
  if T.isNone ∧ R.isNone then (some solved.1, some solved.2) else (T, R)

/-- `_maybe_linearize_model` (validation.py:46-93) with the model's own linearisation `lin`; the reset is inside the verbose branch -/
def maybeLinearize {α : Type} (lin : α × α × α × α) (verbose : Bool) (A B C D : Option α) : Option α × Option α × Option α × Option α :=
  let n := A.isSome.toNat + B.isSome.toNat + C.isSome.toNat + D.isSome.toNat
  let reset : Bool := decide (n < 4) && decide (0 < n) && verbose
  let A := if reset then none else A
  let B := if reset then none else B
  let C := if reset then none else C
  let D := if reset then none else D
  if A.isNone ∧ B.isNone ∧ C.isNone ∧ D.isNone then (some lin.1, some lin.2.1, some lin.2.2.1, some lin.2.2.2) else (A, B, C, D)

/-- the flags `np.abs(resid) > 1e-8` (validation.py:35-36); `none` is a NaN residual, for which the comparison is false -/
noncomputable def unsatisfied (r : Option ℝ) : Bool :=
  match r with
  | none => false
  | some x => open Classical in decide (1 / 100000000 < |x|)

/-- `_maybe_solve_steady_state` with a given steady state (validation.py:33-43): the indices of unsatisfied equations, or acceptance -/
noncomputable def checkGivenSteadyState (resid : List (Option ℝ)) : Except (List ℕ) Unit :=
  let bad := (List.range resid.length).filter fun i => unsatisfied (resid.getD i none)
  if resid.any unsatisfied then .error bad else .ok ()

/-- row and column labels of `matrix_to_dataframe` -/
inductive DimName where
  | variable | shock | equation
  deriving DecidableEq, Repr

/-- a dimension must have the size of the variables or of the shocks (formatting.py:43-47) -/
def dimSizeOk (n nVars nShocks : ℕ) : Bool := n = nVars || n = nShocks

/-- the inferred name of a dimension (formatting.py:49-52) -/
def inferDim (given : Option DimName) (n nVars : ℕ) : DimName :=
  match given with
  | some d => d
  | none => if n = nVars then .variable else .shock

/-- the labels of a dimension (formatting.py:31-35) -/
def dimLabels (vars shocks : List Str) (nEqs : ℕ) : DimName → List Str
  | .variable => vars
  | .shock => shocks
  | .equation => (List.range nEqs).map fun i => "Equation ".toList ++ natStr i

/-- the labels of `matrix_to_dataframe` for a matrix of shape `(r, c)` (formatting.py:4-58); pandas raises if a label list has the wrong length -/
def matrixLabels (vars shocks : List Str) (nEqs r c : ℕ) (dim1 dim2 : Option DimName) : Option (List Str × List Str) :=
  if dimSizeOk r vars.length shocks.length && dimSizeOk c vars.length shocks.length then
    let l1 := dimLabels vars shocks nEqs (inferDim dim1 r vars.length)
    let l2 := dimLabels vars shocks nEqs (inferDim dim2 c vars.length)
    if l1.length = r ∧ l2.length = c then some (l1, l2) else none
  else none

end GE
