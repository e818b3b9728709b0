import Verif.Model.PipelineSpec
/-!
# Specification for C120: what the calibration, the shocks and the priors of a GCN file say

Nothing here models code.
-/

namespace GE.Gcn

/-- the calibration of the block says `n = rhs;` -/
def GBlock.Sets (b : GBlock) (n : Str) (rhs : Expr) : Prop :=
  ∃ e, GCal.eq e ∈ b.calibration ∧ (e.calibrating = none ∨ e.calibrating = some []) ∧ e.lhs = .par n ∧ e.rhs = rhs

/-- the calibration of the block says `l = r -> n;` -/
def GBlock.Calibrates (b : GBlock) (n : Str) (l r : Expr) : Prop :=
  ∃ e, GCal.eq e ∈ b.calibration ∧ e.calibrating = some n ∧ n ≠ [] ∧ e.lhs = l ∧ e.rhs = r

/-- the calibration of the block says `n ~ … = q;` -/
def GBlock.Starts (b : GBlock) (n : Str) (q : Rat) : Prop :=
  ∃ d, GCal.prior d ∈ b.calibration ∧ d.param = n ∧ d.initial = some q

/-- no variable and no parameter occurs -/
def Closed (e : Expr) : Prop := e.vars = [] ∧ e.pars = []

/-- what stands left of `=` in the calibration of a model block, arrows aside, is a parameter -/
def GFile.ParametersOnly (m : GFile) : Prop :=
  ∀ b, m.IsModelBlock b → ∀ e, GCal.eq e ∈ b.calibration → (e.calibrating = none ∨ e.calibrating = some []) → ∃ n, e.lhs = .par n

/-- `v` has the value of the expression as written, on every path -/
def SameValue (asm : List (Str × Asm)) (v : SExpr) (e : Expr) : Prop :=
  ∀ (R : RealPath) (t : Int), v.val R t = e.eval (realInterp asm R) (pathOf asm R) t

end GE.Gcn
