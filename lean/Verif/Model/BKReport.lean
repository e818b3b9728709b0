import Verif.Model.Gensys
import Verif.Model.Sym
/-!
# The public Blanchard-Kahn report and the summary dataset

`gEconpy/model/perturbation.py` 412-445 and 508-583, `gEconpy/model/statistics/perturbation_diagnostics.py` 164-242.
-/

namespace GE

/-- `compute_bk_eigenvalues` (perturbation.py:412-445): the values in the order `np.argsort(np.abs(eigenvalues))` puts them in (`order`; NumPy's
default sort is not stable, so which of two values of the same modulus comes first is left open), and the number of columns of `C` with entries -/
noncomputable def computeBK {n : ℕ} {A B C : Mat n n} {tol : ℝ} (order : List ℂ → List ℂ)
    (q : SortedQZ (toC (-setupG0 B C tol)) (toC (setupG1 A C tol))) : List ℂ × ℕ :=
  (order (bkEigenvalues q), bkForward C tol)

/-- `check_bk_condition` of perturbation.py on matrices (508-583), and that of perturbation_diagnostics.py once the matrices are known (232-242) -/
noncomputable def checkBKCondition {n : ℕ} {A B C : Mat n n} {tol : ℝ} (order : List ℂ → List ℂ)
    (q : SortedQZ (toC (-setupG0 B C tol)) (toC (setupG1 A C tol))) (raiseOnFailure : Bool) (what : BKWhat) : BKOutcome :=
  checkBK (computeBK order q).1 (computeBK order q).2 raiseOnFailure what

/-- the message (perturbation.py:558-567), also the text of the exception -/
def bkMessage (nUnstable nForward : ℕ) : Str :=
  "Model solution has ".toList ++ natStr nUnstable ++ " eigenvalues greater than one in modulus and ".toList ++ natStr nForward ++
  " forward-looking variables.\nBlanchard-Kahn condition is".toList ++ (if nForward = nUnstable then [] else " NOT".toList) ++ " satisfied.".toList ++
  (if nForward = nUnstable then []
   else if nForward < nUnstable then " No stable solution (more unstable eigenvalues than forward-looking variables).".toList
   else " No unique solution (more forward-looking variables than unstable eigenvalues).".toList)

/-- an array with two axes -/
structure NArr where
  rows : ℕ
  cols : ℕ
  at_ : Fin rows → Fin cols → ℝ

inductive SummaryErr where
  /-- `PerturbationSolutionNotFoundException` -/
  | solutionNotFound
  /-- xarray's ValueError for sizes that contradict the coordinates -/
  | conflictingSizes
  deriving DecidableEq, Repr

/-- the dataset of `summarize_perturbation_solution`: coordinates and variables -/
structure Summary where
  equation : List ℕ
  variableNames : List Str
  shockNames : List Str
  A : NArr
  B : NArr
  C : NArr
  D : NArr
  T : NArr
  R : NArr

/-- `summarize_perturbation_solution` (perturbation_diagnostics.py:164-191); `xr.Dataset` refuses a variable whose sizes are not those of the
coordinates of its dimensions -/
def summarize (vars shocks : List TSym) (A B C D : NArr) (T R : Option NArr) : Except SummaryErr Summary :=
  match T, R with
  | some T, some R =>
    let fits (X : NArr) (c : ℕ) : Bool := X.rows == A.rows && X.cols == c
    if fits A vars.length && fits B vars.length && fits C vars.length && fits D shocks.length && fits T vars.length &&
        fits R shocks.length then
      .ok { equation := List.range A.rows, variableNames := vars.map TSym.base, shockNames := shocks.map TSym.base, A, B, C, D, T, R }
    else .error .conflictingSizes
  | _, _ => .error .solutionNotFound

/-- `dataset[X].sel(equation=i, variable=name)`: xarray looks the labels up in the coordinates -/
def NArr.sel (X : NArr) (rowLabels : List ℕ) (colLabels : List Str) (i : ℕ) (name : Str) : Option ℝ :=
  if i ∈ rowLabels ∧ name ∈ colLabels then
    if h : rowLabels.idxOf i < X.rows ∧ colLabels.idxOf name < X.cols then some (X.at_ ⟨_, h.1⟩ ⟨_, h.2⟩) else none
  else none

end GE
