import Verif.Model.Perturbation
import Verif.Model.Gensys
/-!
# Classification of variables on the `Model` object (gEconpy/model/model.py:634-702)

The properties are cached on first access; as the equations and default parameters of a model do not change, the cache is not modelled.
-/

namespace GE

/-- `{a.set_t(0) for eq in equations for a in eq.atoms(TimeAwareSymbol) if a.time_index == k}` (model.py:638, 652) -/
def shiftedAtoms (eqs : List SExpr) (k : Int) : List TSym :=
  (eqs.flatMap fun e => e.tsyms.filter fun a => decide (a.idx = .t k)).map fun a => a.atT 0

/-- `Model.backward_variables` (model.py:634-640) -/
def backwardVariables (vars : List TSym) (eqs : List SExpr) : List TSym := vars.filter fun v => decide (v ∈ shiftedAtoms eqs (-1))

/-- `Model.symbolic_forward_variables` (model.py:642-654) -/
def symbolicForwardVariables (vars : List TSym) (eqs : List SExpr) : List TSym := vars.filter fun v => decide (v ∈ shiftedAtoms eqs 1)

/-- `np.abs(C).sum(axis=0)` for a matrix with `n` columns (model.py:676) -/
def absColSums {K : Type} [Field K] [LinearOrder K] (n : Nat) (C : List (List K)) : List K :=
  (List.range n).map fun j => (C.map fun row => |row.getD j 0|).sum

/-- `Model.forward_variables` (model.py:656-681); `lin` is the outcome of `linearize_model`, `none` if it raised; `tol` is 1e-8 -/
def forwardVariables {K : Type} [Field K] [LinearOrder K] (tol : K) (vars : List TSym) (eqs : List SExpr) (lin : Option (ABCD K)) : List TSym :=
  match lin with
  | some M => ((vars.zip (absColSums vars.length M.C)).filter fun p => decide (tol < p.2)).map Prod.fst
  | none => symbolicForwardVariables vars eqs

/-- `Model.lead_var_idx` (model.py:697-706) -/
def leadVarIdx (vars fwd : List TSym) : List Nat := (vars.zipIdx.filter fun p => decide (p.1 ∈ fwd)).map Prod.snd

end GE
