import Verif.Model.CalibrationSpec
/-!
# Specification for C148: two files that say the same

Nothing here models code.
-/

namespace GE.Gcn

/-- a block of the name the loader looks for when it wants the steady state: `STEADY_STATE`, `SS` or `STEADY`, in any case, with any
underscores -/
def SteadyName (n : Str) : Prop := Spells n "STEADYSTATE".toList ∨ Spells n "SS".toList ∨ Spells n "STEADY".toList

/-- there is at most one steady-state block -/
def GFile.OneSteady (m : GFile) : Prop := ∀ b ∈ m.blocks, ∀ c ∈ m.blocks, SteadyName b.name → SteadyName c.name → b = c

/-- `m` says what `m'` says: each model block of `m'` is one of `m`, or it is a plain block whose equations `m` states too, in whatever blocks -/
def GFile.Includes (m m' : GFile) : Prop :=
  ∀ b', m'.IsModelBlock b' → m.IsModelBlock b' ∨ (b'.Plain ∧ ∀ e ∈ b'.stated, ∃ b, m.IsModelBlock b ∧ e ∈ b.stated)

/-- no parameter has priors in two blocks -/
def GFile.OnePrior (m : GFile) : Prop :=
  m.blocks.Pairwise fun a b => ∀ d d', GCal.prior d ∈ a.calibration → GCal.prior d' ∈ b.calibration → d.param ≠ d'.param

/-- no shock has distributions in two blocks -/
def GFile.OneShockDist (m : GFile) : Prop :=
  m.blocks.Pairwise fun a b => ∀ d ∈ a.shockDists, ∀ d' ∈ b.shockDists, d.param ≠ d'.param

/-- priors that the distribution of a shock names are stated in the block of the distribution -/
def GFile.PriorsAtHand (m : GFile) : Prop :=
  ∀ b ∈ m.blocks, ∀ j ∈ b.shockDists, ∀ k n, (k, NTree.str n) ∈ j.kwargs → ∀ b' ∈ m.blocks, ∀ d, GCal.prior d ∈ b'.calibration → d.param = n → b' = b

end GE.Gcn
