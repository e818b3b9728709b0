import Verif.Model.Gensys
/-!
# The public pieces of gensys (gEconpy/solvers/gensys.py:26-170)

`determine_n_unstable`, `split_matrix_on_eigen_stability` and `build_u_v_d`. Exact arithmetic; the singular value decomposition itself is
LAPACK's and is an argument.
-/

open Matrix

namespace GE

/-- state of the loop of `_determine_n_unstable_core`: `div`, `n_unstable`, `zxz` -/
structure DivState where
  div : ℝ
  n : ℕ
  zxz : Bool

/-- one turn of the loop (gensys.py:38-47) -/
noncomputable def divStep (computeDiv : Bool) (realsmall : ℝ) (st : DivState) (p : ℂ × ℂ) : DivState :=
  open Classical in
  let absA := ‖p.1‖
  let absB := ‖p.2‖
  let div := if computeDiv = true ∧ 0 < absA then
      (if 1 + realsmall < absB / absA ∧ absB / absA ≤ st.div then (1 / 2) * (1 + absB / absA) else st.div)
    else st.div
  { div := div, n := if div * absA < absB then st.n + 1 else st.n, zxz := decide (absA < realsmall) && decide (absB < realsmall) }

/-- `determine_n_unstable` (gensys.py:27-95): `div = none` asks for Sims's heuristic, starting at 1.01 -/
noncomputable def determineNUnstable (pairs : List (ℂ × ℂ)) (div : Option ℝ) (realsmall : ℝ) : DivState :=
  pairs.foldl (divStep div.isNone realsmall) ⟨div.getD (101 / 100), 0, false⟩

/-- `split_matrix_on_eigen_stability` (gensys.py:97-117) on the list of rows; Python slices with a bound below zero count from the end -/
def splitRows {α : Type} (rows : List α) (nUnstable : ℕ) : List α × List α :=
  let n := rows.length
  let cut := if nUnstable ≤ n then n - nUnstable else n - (nUnstable - n)
  (rows.take cut, rows.drop cut)

/-- what `build_u_v_d` returns -/
structure UVD (a b : Type) (k : ℕ) where
  bigEv : List (Fin k)
  u : Matrix a (Fin bigEv.length) ℂ
  v : Matrix b (Fin bigEv.length) ℂ
  d : Fin bigEv.length → ℝ

/-- `build_u_v_d` (gensys.py:127-170): `u`, `s`, `v = vh.conj().T` is LAPACK's thin decomposition with `k` components. An empty matrix
(`eta.size == 0`) or an invalid system gives empty outputs. -/
noncomputable def buildUVD {a b : Type} {k : ℕ} (u : Matrix a (Fin k) ℂ) (s : Fin k → ℝ) (v : Matrix b (Fin k) ℂ) (realsmall : ℝ) (empty invalid : Bool) :
    UVD a b k :=
  open Classical in
  let big := if invalid || empty then [] else (List.finRange k).filter fun i => decide (realsmall < s i)
  { bigEv := big, u := u.submatrix id big.get, v := v.submatrix id big.get, d := fun i => s (big.get i) }

end GE
