import Verif.Model.PrintSpec
import Verif.Model.PrintText
import Verif.Model.ToDistribution
/-!
# Specification for C149: the files that printing and loading leave alone

Nothing here models code.
-/

namespace GE.Gcn

/-- no variable is given more than one assumption besides `real` and `finite`. (Of several assumptions the printed text may keep another
order than the file, and the model compares assumptions as lists; sympy does not.) -/
def GFile.OneExtra (m : GFile) : Prop :=
  ∀ p ∈ m.assumptions, ∀ k ∈ p.2, ∀ k' ∈ p.2, k.1 ∉ ["real".toList, "finite".toList] → k'.1 ∉ ["real".toList, "finite".toList] → k.1 = k'.1

/-- the equations of a block, wherever they stand -/
def GBlock.everyEqn (b : GBlock) (e : Eqn) : Prop :=
  e ∈ b.definitions ∨ e ∈ b.objective ∨ e ∈ b.constraints ∨ e ∈ b.identities ∨ GCal.eq e ∈ b.calibration

/-- no equation of the file has a tag such as `@exclude` -/
def GFile.Untagged (m : GFile) : Prop := ∀ b ∈ m.blocks, ∀ e, b.everyEqn e → e.tags = []

end GE.Gcn
