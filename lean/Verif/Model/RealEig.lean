import Verif.Model.Gensys
import Mathlib.LinearAlgebra.Matrix.Charpoly.Basic
import Mathlib.Data.Fin.Tuple.Sort
import Mathlib.LinearAlgebra.Matrix.NonsingularInverse
/-! # Differentiable eigenvalues (gEconpy/pytensorf/real_eig.py) and the symbolic Blanchard-Kahn check (gEconpy/model/perturbation.py:448-505, 586-625)

Real numbers replace floating-point numbers; LAPACK's `geev` enters through what it promises in exact arithmetic (`EigOracle`). -/

open Matrix Polynomial

namespace GE

/-- what `np.linalg.eig(M)` / `pt.linalg.eig(M)` return: the eigenvalues with multiplicity and one non-zero eigenvector for each -/
structure EigOracle {m : ℕ} (M : Mat m m) where
  vals : Fin m → ℂ
  V : Matrix (Fin m) (Fin m) ℂ
  charpoly : (toC M).charpoly = ∏ i, (X - C (vals i))
  eigen : toC M * V = V * diagonal vals
  ne : ∀ i, ∃ r, V r i ≠ 0

namespace EigOracle

variable {m : ℕ} {M : Mat m m}

/-- `idx` (real_eig.py:34) and `sort_idx` (real_eig.py:52): positions in order of ascending modulus. numpy leaves the order of ties open; here ties keep the order of `eig`. -/
noncomputable def sortIdx (o : EigOracle M) : Equiv.Perm (Fin m) := Tuple.sort fun i => ‖o.vals i‖

/-- the two outputs of `RealEig.perform` (real_eig.py:31-37) -/
noncomputable def perform (o : EigOracle M) : (Fin m → ℝ) × (Fin m → ℝ) :=
  let eigvals := fun i => o.vals (o.sortIdx i)
  (fun i => (eigvals i).re, fun i => (eigvals i).im)

/-- `RealEig.pullback` (real_eig.py:39-62); `none` is a disconnected cotangent -/
noncomputable def pullback (o : EigOracle M) (gReal gImag : Option (Fin m → ℝ)) : Mat m m :=
  let gr := gReal.getD 0
  let gi := gImag.getD 0
  let V := o.V.submatrix id o.sortIdx
  let g : Fin m → ℂ := fun i => (gr i : ℂ) - Complex.I * (gi i : ℂ)
  let Vinv := V⁻¹
  (Vinvᵀ * diagonal g * Vᵀ).map Complex.re

end EigOracle

/-- `eqs_and_leads_idx` (perturbation.py:494) -/
def eqsAndLeadsPt {n k : ℕ} (lead : Fin k → Fin n) : Fin (n + k) → Fin (n + n) := Fin.append (fun i => Fin.castAdd n i) (fun j => Fin.natAdd n (lead j))

/-- `Gamma_0_sel` (perturbation.py:484-487, 495): no minus sign here -/
def gamma0Sel {n k : ℕ} (B C : Mat n n) (lead : Fin k → Fin n) : Mat (n + k) (n + k) :=
  ((fromBlocks B C (-1) 0).submatrix finSumFinEquiv.symm finSumFinEquiv.symm).submatrix (eqsAndLeadsPt lead) (eqsAndLeadsPt lead)

/-- `Gamma_1_sel` (perturbation.py:488-491, 496) -/
def gamma1Sel {n k : ℕ} (A : Mat n n) (lead : Fin k → Fin n) : Mat (n + k) (n + k) :=
  ((fromBlocks A 0 0 1).submatrix finSumFinEquiv.symm finSumFinEquiv.symm).submatrix (eqsAndLeadsPt lead) (eqsAndLeadsPt lead)

/-- `M` (perturbation.py:501-503); `eps` is `_FLOAT_ZERO_TOL` -/
noncomputable def bkMatrixPt {n k : ℕ} (A B C : Mat n n) (lead : Fin k → Fin n) (eps : ℝ) : Mat (n + k) (n + k) :=
  (-gamma0Sel B C lead + eps • (1 : Mat (n + k) (n + k)))⁻¹ * gamma1Sel A lead

/-- `compute_bk_eigenvalues_pt` (perturbation.py:448-505) -/
noncomputable def bkEigenvaluesPt {n k : ℕ} {A B C : Mat n n} {lead : Fin k → Fin n} {eps : ℝ} (o : EigOracle (bkMatrixPt A B C lead eps)) :
    (Fin (n + k) → ℝ) × (Fin (n + k) → ℝ) := o.perform

/-- `check_bk_condition_pt` (perturbation.py:586-625): the flag, the number of forward-looking variables and the number of unstable eigenvalues -/
noncomputable def checkBkPt {n k : ℕ} {A B C : Mat n n} {lead : Fin k → Fin n} {eps : ℝ} (o : EigOracle (bkMatrixPt A B C lead eps)) : Bool × ℕ × ℕ :=
  open Classical in
  let vals := bkEigenvaluesPt o
  let nUnstable := (Finset.univ.filter fun i => 1 < Real.sqrt (vals.1 i ^ 2 + vals.2 i ^ 2)).card
  (decide (k = nUnstable), k, nUnstable)

end GE
