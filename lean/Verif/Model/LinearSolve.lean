import Verif.Model.Base
import Mathlib.LinearAlgebra.Matrix.NonsingularInverse
import Mathlib.LinearAlgebra.Matrix.Kronecker
import Mathlib.Data.Matrix.ColumnRowPartitioned
import Mathlib.LinearAlgebra.Matrix.Vec
import Mathlib.Analysis.SpecialFunctions.Log.Basic
/-! # Policy-function solvers (gEconpy/solvers/backward_looking.py, shared.py, cycle_reduction.py)

Floating-point arrays are modelled by real matrices: rounding, overflow and NaN are not modelled. A singular matrix makes `solve` raise
(`none`). -/

open Matrix

namespace GE

/-- an `n × m` array of floats -/
abbrev Mat (n m : ℕ) := Matrix (Fin n) (Fin m) ℝ

/-- `np.linalg.solve(A, B)` / `scipy.linalg.solve(A, B)`: raises `LinAlgError` for a singular `A` -/
noncomputable def linSolve {n : ℕ} {β : Type} (A : Mat n n) (B : Matrix (Fin n) β ℝ) : Option (Matrix (Fin n) β ℝ) :=
  open Classical in if IsUnit A.det then some (A⁻¹ * B) else none

/-! ## backward_looking.py -/

/-- `solve_backward_policy` (backward_looking.py:8-24; the PyTensor twin 27-43) -/
noncomputable def solveBackwardPolicy {n : ℕ} (A B : Mat n n) : Option (Mat n n) := linSolve (-B) A

/-- `solve_backward_shock_matrix` (backward_looking.py:46-77; the PyTensor twin 80-98) -/
noncomputable def solveBackwardShockMatrix {n k : ℕ} (B : Mat n n) (D : Mat n k) : Option (Mat n k) := (linSolve B D).map fun X => -X

/-- `solve_policy_function_with_backward_direct` (backward_looking.py:101-133): `C` is not used -/
noncomputable def solveBackwardDirect {n k : ℕ} (A B _C : Mat n n) (D : Mat n k) : Option (Mat n n × Mat n k) :=
  match solveBackwardPolicy A B, solveBackwardShockMatrix B D with
  | some T, some R => some (T, R)
  | _, _ => none

/-! ## shared.py -/

/-- `pt_compute_selection_matrix` (shared.py:74-75), also `R = -np.linalg.solve(C @ T + B, D)` (cycle_reduction.py:395-396) -/
noncomputable def selectionMatrix {n k : ℕ} (B C : Mat n n) (D : Mat n k) (T : Mat n n) : Option (Mat n k) :=
  (linSolve (C * T + B) D).map fun X => -X

/-- `stabilize(x, jitter)` (shared.py:6-9): the diagonal is incremented -/
noncomputable def stabilize {ι : Type} [DecidableEq ι] (x : Matrix ι ι ℝ) (jitter : ℝ) : Matrix ι ι ℝ := x + jitter • (1 : Matrix ι ι ℝ)

/-- the matrix `M1 + M2 + M3` of `o1_policy_function_adjoints` (shared.py:56-59). `pt.linalg.kron` lists its rows in the order `i * n + k`; the
pair `(i, k)` stands for that row. -/
def adjointMatrix {n : ℕ} (B C T : Mat n n) : Matrix (Fin n × Fin n) (Fin n × Fin n) ℝ :=
  kroneckerMap (· * ·) T Cᵀ + kroneckerMap (· * ·) (1 : Mat n n) (Tᵀ * Cᵀ) + kroneckerMap (· * ·) (1 : Mat n n) Bᵀ

/-- `o1_policy_function_adjoints` (shared.py:12-71); `vec` is `T_bar.T.ravel()` (shared.py:50) and `S = vec_S.reshape((n, n)).T` (line 62)
reads it back. The jitter is 1e-16 in the code and a parameter here. -/
noncomputable def policyAdjoints {n : ℕ} (jitter : ℝ) (B C T Tbar : Mat n n) : Option (Mat n n × Mat n n × Mat n n) :=
  open Classical in
  if IsUnit (stabilize (adjointMatrix B C T) jitter).det then
    let vecS := (stabilize (adjointMatrix B C T) jitter)⁻¹.mulVec (-(vec Tbar))
    let S : Mat n n := fun k i => vecS (i, k)
    some (S, S * Tᵀ, S * Tᵀ * Tᵀ)
  else none

/-! ## cycle_reduction.py -/

/-- `np.linalg.norm(M, ord=1)`: the largest column sum of absolute values (0 for an empty matrix, where numpy raises) -/
noncomputable def norm1 {n m : ℕ} (M : Mat n m) : ℝ := ⨆ j, ∑ i, |M i j|

/-- the matrices rebound by the loop -/
structure CRState (n : ℕ) where
  A0 : Mat n n
  A1 : Mat n n
  A2 : Mat n n
  A1hat : Mat n n

/-- one pass of the loop body up to the norms (cycle_reduction.py:88-93) -/
noncomputable def crStep {n : ℕ} (s : CRState n) : Option (CRState n) :=
  match linSolve s.A1 (fromCols s.A0 s.A2) with
  | none => none
  | some sol =>
    let tmp := fromRows s.A0 s.A2 * sol
    some
      { A1 := s.A1 - tmp.toBlocks₁₂ - tmp.toBlocks₂₁
        A0 := -tmp.toBlocks₁₁
        A2 := -tmp.toBlocks₂₂
        A1hat := s.A1hat - tmp.toBlocks₂₁ }

/-- the strings returned in `result` -/
inductive CRMsg where
  | success
  | a2NotConverged
  | failed
  deriving DecidableEq, Repr

/-- how the loop ends: normally (exhausted or `break`), or by the `return` inside it with a message and a log norm -/
inductive CRExit (n : ℕ) where
  | done (s : CRState n)
  | early (msg : CRMsg) (logNorm : ℝ)

/-- the `for` loop (cycle_reduction.py:87-109); `left` passes remain, so `i == max_iter - 1` is `left = 0` after taking one. The test
`np.isnan` is false for real numbers. -/
noncomputable def crLoop {n : ℕ} (tol : ℝ) : ℕ → CRState n → Option (CRExit n)
  | 0, s => some (.done s)
  | left + 1, s =>
    match crStep s with
    | none => none
    | some s' =>
      open Classical in
      if norm1 s'.A0 < tol then
        if norm1 s'.A2 < tol then some (.done s') else crLoop tol left s'
      else if left = 0 then
        if norm1 s'.A0 < tol then some (.early .a2NotConverged (Real.log (norm1 s'.A2)))
        else some (.early .failed (Real.log (norm1 s'.A1)))
      else crLoop tol left s'

/-- what `cycle_reduction_numpy` returns -/
structure CRResult (n : ℕ) where
  X : Option (Mat n n)
  res : Option (Mat n n)
  msg : CRMsg
  logNorm : ℝ

/-- `cycle_reduction_numpy(A0, A1, A2, max_iter, tol)` (cycle_reduction.py:23-114) -/
noncomputable def cycleReduction {n : ℕ} (A B C : Mat n n) (maxIter : ℕ) (tol : ℝ) : Option (CRResult n) :=
  match crLoop tol maxIter ⟨A, B, C, B⟩ with
  | none => none
  | some (.early msg l) => some ⟨none, none, msg, l⟩
  | some (.done s) =>
    match linSolve s.A1hat A with
    | none => none
    | some Y => some ⟨some (-Y), some (A + B * (-Y) + C * (-Y) * (-Y)), .success, 0⟩

/-- `_cycle_reduction_core` (cycle_reduction.py:127-183), the compiled kernel: the same passes, but it remembers whether both norms passed
the tolerance. The state returned is the one used for the final solve. -/
noncomputable def crCoreLoop {n : ℕ} (tol : ℝ) : ℕ → CRState n → Option (CRState n × Bool)
  | 0, s => some (s, false)
  | left + 1, s =>
    match crStep s with
    | none => none
    | some s' =>
      open Classical in
      if norm1 s'.A0 < tol then
        if norm1 s'.A2 < tol then some (s', true) else crCoreLoop tol left s'
      else crCoreLoop tol left s'

/-- the result `(T, converged)` of the kernel: zeros when it did not converge (cycle_reduction.py:181-183); a singular matrix in a pass gives
infinities there, `none` here -/
noncomputable def cycleReductionCore {n : ℕ} (A B C : Mat n n) (maxIter : ℕ) (tol : ℝ) : Option (Mat n n × Bool) :=
  match crCoreLoop tol maxIter ⟨A, B, C, B⟩ with
  | none => none
  | some (_, false) => some (0, false)
  | some (s, true) => (linSolve s.A1hat A).map fun Y => (-Y, true)

/-- the scan of `_scan_cycle_reduction` (cycle_reduction.py:246-294): passes stop once the norm of `A0` alone is below the tolerance; the
matrices solved with have the jitter added to their diagonal. Returns the last `A1_hat` and the number of steps. -/
noncomputable def scanLoop {n : ℕ} (jitter tol : ℝ) : ℕ → CRState n → ℝ → ℕ → Option (CRState n × ℝ × ℕ)
  | 0, s, norm, k => some (s, norm, k)
  | left + 1, s, norm, k =>
    open Classical in
    if norm < tol then scanLoop jitter tol left s norm k
    else
      match crStep { s with A1 := stabilize s.A1 jitter } with
      | none => none
      | some s' =>
        let A1 := s'.A1 - jitter • (1 : Mat n n)
        scanLoop jitter tol left { s' with A1 := A1 } (norm1 s'.A0) (k + 1)

/-- `_scan_cycle_reduction` (cycle_reduction.py:246-294): `T` and the number of steps; the initial norm is 1e9 -/
noncomputable def scanCycleReduction {n : ℕ} (jitter : ℝ) (A B C : Mat n n) (maxIter : ℕ) (tol : ℝ) : Option (Mat n n × ℕ) :=
  match scanLoop jitter tol maxIter ⟨A, B, C, B⟩ 1000000000 0 with
  | none => none
  | some (s, _, k) => (linSolve (stabilize s.A1hat jitter) A).map fun Y => (-Y, k)

/-- what `solve_policy_function_with_cycle_reduction` returns -/
structure CRPolicy (n k : ℕ) where
  T : Mat n n
  R : Mat n k
  msg : CRMsg
  logNorm : ℝ

/-- the exceptions of the numpy operations involved -/
inductive NpErr where
  /-- `LinAlgError: Singular matrix` -/
  | singular
  /-- `C @ T` where `T = np.ascontiguousarray(None)`, the one-element object array `[None]`: a shape mismatch or a `TypeError` -/
  | badOperand
  deriving DecidableEq, Repr

/-- `solve_policy_function_with_cycle_reduction` (cycle_reduction.py:327-398). Line 382 wraps `T` in an array before the test `T is not None`
of line 395, so a missing `T` is multiplied too. -/
noncomputable def solvePolicyCR {n k : ℕ} (A B C : Mat n n) (D : Mat n k) (maxIter : ℕ) (tol : ℝ) : Except NpErr (CRPolicy n k) :=
  match cycleReduction A B C maxIter tol with
  | none => .error .singular
  | some ⟨none, _, _, _⟩ => .error .badOperand
  | some ⟨some T, _, msg, l⟩ =>
    match selectionMatrix B C D T with
    | none => .error .singular
    | some R => .ok ⟨T, R, msg, l⟩

/-- what happens to `Model._solve_with_cycle_reduction` (model.py:1711-1729): with `on_failure="ignore"` a missing `T` should give
`(None, None)`, the inner `none` -/
noncomputable def solveWithCR {n k : ℕ} (A B C : Mat n n) (D : Mat n k) (maxIter : ℕ) (tol : ℝ) : Except NpErr (Option (Mat n n × Mat n k)) :=
  match solvePolicyCR A B C D maxIter tol with
  | .error e => .error e
  | .ok p => .ok (some (p.T, p.R))

end GE
