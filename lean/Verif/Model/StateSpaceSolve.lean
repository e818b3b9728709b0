import Verif.Model.StateSpaceBuild
import Verif.Model.StateSpace
import Verif.Model.Diagnostics
import Verif.Props.StateSpaceBuild
/-!
# From the symbolic system to the Kalman filter (gEconpy/model/statespace.py:197-222, 725-785)

`DSGEStateSpace.make_symbolic_graph` evaluated at parameter values: the linearised system becomes four arrays, a solver gives `T` and `R`, both
are put back in the user's order.
-/

namespace GE

/-- a matrix as an array read inside its sizes -/
def NMat.ofMat {n m : ℕ} (M : Mat n m) : NMat := fun i j => if h : i < n ∧ j < m then M ⟨i, h.1⟩ ⟨j, h.2⟩ else 0

/-- a parameter draw: the graphs of `statespace_from_gcn` mention free parameters only -/
def drawOf (par : Str → ℝ) : RealPath := { par := par, path := fun _ _ _ => 0, ss := fun _ _ => 0 }

/-- `self.linearized_system` at a draw of the parameters (statespace.py:751-753): rows in the order of the equations chosen by the
linearisation, columns in `var_order` -/
noncomputable def SSGOut.matsAt (o : SSGOut) (par : Str → ℝ) (n k : ℕ) : LinMats n k where
  A := Matrix.of fun i j => ((entryAt o.A i j).map fun x => x.1.val (drawOf par) 0 * x.2.val (drawOf par)).getD 0
  B := Matrix.of fun i j => ((entryAt o.B i j).map fun x => x.1.val (drawOf par) 0 * x.2.val (drawOf par)).getD 0
  C := Matrix.of fun i j => ((entryAt o.C i j).map fun x => x.1.val (drawOf par) 0 * x.2.val (drawOf par)).getD 0
  D := Matrix.of fun i j => ((entryAt o.D i j).map fun x => x.val (drawOf par) 0).getD 0

/-- the solver call of `_setup_policy_matrices` (statespace.py:200-208). `kernel` is what `GensysWrapper`, `CycleReductionWrapper` or the scan
give for `T` (gensys.py:679-683, cycle_reduction.py:216-219, 297-324): all three compute `R` by `pt_compute_selection_matrix`. -/
noncomputable def solverPair {n k : ℕ} (solver : Str) (kernel : Mat n n → Mat n n → Mat n n → Mat n k → Option (Mat n n)) (m : LinMats n k) :
    Option (Mat n n × Mat n k) :=
  if solver = "backward_direct".toList then solveBackwardDirect m.A m.B m.C m.D
  else (kernel m.A m.B m.C m.D).bind fun T => (selectionMatrix m.B m.C m.D T).map fun R => (T, R)

/-- `np.argsort(var_order)` (statespace.py:131) for a permutation -/
def invOrder (order : List ℕ) (i : ℕ) : ℕ := order.idxOf i

/-- `_setup_policy_matrices` (statespace.py:197-222) at a draw: `T`, `R` in the user's order and the residual -/
noncomputable def SSGOut.policy (o : SSGOut) (par : Str → ℝ) (n k : ℕ) (solver : Str)
    (kernel : Mat n n → Mat n n → Mat n n → Mat n k → Option (Mat n n)) : Option (NMat × NMat × ℝ) :=
  let m := o.matsAt par n k
  (solverPair solver kernel m).map fun p =>
    policyMatrices n (NMat.ofMat m.A) (NMat.ofMat m.B) (NMat.ofMat m.C) (NMat.ofMat p.1) (NMat.ofMat p.2) (invOrder o.varOrder)

end GE
