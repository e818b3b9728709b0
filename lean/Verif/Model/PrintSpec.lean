import Verif.Model.GcnSpec
import Verif.Model.GrammarSpec
import Verif.Props.Printer
/-!
# Specification for C108: the models whose printed text can be read

Nothing here models code.
-/

namespace GE.Prt
open Gcn

/-- `num` writes this number as a GCN number, after a minus sign when negative -/
def NumOk (num : Rat → Str) (q : Rat) : Prop :=
  (0 ≤ q ∧ Writes (num q) (.num q)) ∨ (q < 0 ∧ ∃ w, num q = '-' :: w ∧ Writes w (.num (-q)))

mutual
/-- the names are words; `num` writes the numbers that are not whole -/
def ExprOk (num : Rat → Str) : Expr → Prop
  | .num v => v.den = 1 ∨ Writes (num v) (.num v)
  | .par n => IsWord n
  | .var n _ => IsWord n
  | .neg e => ExprOk num e
  | .bin _ l r => ExprOk num l ∧ ExprOk num r
  | .call f as => IsWord f ∧ ArgsOk num as
  | .expect e => ExprOk num e
def ArgsOk (num : Rat → Str) : List Expr → Prop
  | [] => True
  | a :: as => ExprOk num a ∧ ArgsOk num as
end

/-- an equation between expressions that survive printing (`Expr.Stable`, C11) -/
structure EqnOk (num : Rat → Str) (e : Eqn) : Prop where
  left : e.lhs.Stable ∧ ExprOk num e.lhs
  right : e.rhs.Stable ∧ ExprOk num e.rhs
  lagrange : ∀ n, e.lagrange = some n → IsWord n
  calibrating : ∀ n, e.calibrating = some n → IsWord n

/-- an argument of a prior: `None`, a name or a number -/
def ValOk (num : Rat → Str) : NTree → Prop
  | .none => True
  | .str s => IsWord s ∧ s ≠ "None".toList
  | .num q => NumOk num q
  | .list _ => False

/-- the arguments of a prior: a dict -/
def KwOk (num : Rat → Str) (l : List (Str × NTree)) : Prop :=
  (l.map Prod.fst).Nodup ∧ ∀ p ∈ l, IsWord p.1 ∧ ValOk num p.2

/-- a prior -/
structure DistOk (num : Rat → Str) (d : GDist) : Prop where
  param : IsWord d.param
  dist : d.dist ∈ dists
  kwargs : KwOk num d.kwargs
  wrapper : ∀ w, d.wrapper = some w → w ∈ wrappers
  wrapperKwargs : KwOk num d.wrapperKwargs
  plain : d.wrapper = none → d.wrapperKwargs = []
  initial : ∀ q, d.initial = some q → NumOk num q

/-- an entry of the calibration; the right side of an equation does not begin with a name that starts like a distribution -/
def CalOk (num : Rat → Str) : GCal → Prop
  | .eq e => EqnOk num e ∧ ∀ n r, e.rhs.toks 0 = .id n :: r → ∀ d ∈ wrappers ++ dists, ¬ d <+: n
  | .prior d => DistOk num d

/-- a block -/
structure BlockOk (num : Rat → Str) (b : GBlock) : Prop where
  name : IsWord b.name
  definitions : ∀ e ∈ b.definitions, EqnOk num e
  controls : ∀ v ∈ b.controls, IsWord v.name
  objective : ∀ e ∈ b.objective, EqnOk num e
  constraints : ∀ e ∈ b.constraints, EqnOk num e
  identities : ∀ e ∈ b.identities, EqnOk num e
  shocks : ∀ v ∈ b.shocks, IsWord v.name
  calibration : ∀ c ∈ b.calibration, CalOk num c

/-- an option: the key is words with spaces between them -/
def OptOk (p : Str × OptVal) : Prop :=
  (∃ ks, ks ≠ [] ∧ (∀ k ∈ ks, IsWord k) ∧ p.1 = [' '].intercalate ks) ∧
    ∀ w, p.2 = .word w → IsWord w ∧ ¬ Keyword w "true" ∧ ¬ Keyword w "false"

/-- what the assumption block of a file always gives (C44): known assumptions that hold, `real` among them, `positive` with
`unit_interval` -/
structure AsmOk (p : Str × Asm) : Prop where
  name : IsWord p.1
  known : ∀ k v, (k, v) ∈ p.2 → v = true ∧ k ∈ assumptionNames
  nodup : (p.2.map Prod.fst).Nodup
  real : ("real".toList, true) ∈ p.2
  unit : ("unit_interval".toList, true) ∈ p.2 → ("positive".toList, true) ∈ p.2

/-- a model that can be printed and read -/
structure Printable (num : Rat → Str) (m : GFile) : Prop where
  blocks : ∀ b ∈ m.blocks, BlockOk num b
  some_block : m.blocks ≠ []
  options : ∀ p ∈ m.options, OptOk p
  options_dict : (m.options.map Prod.fst).Nodup
  assumptions : ∀ p ∈ m.assumptions, AsmOk p
  assumptions_dict : (m.assumptions.map Prod.fst).Nodup

/-- an equation without its tags -/
def bare (e : Eqn) : Eqn := { e with tags := [] }

/-- a block without the tags of its equations and without the distributions of its shocks -/
def bareBlock (b : GBlock) : GBlock where
  name := b.name
  definitions := b.definitions.map bare
  controls := b.controls
  objective := b.objective.map bare
  constraints := b.constraints.map bare
  identities := b.identities.map bare
  shocks := b.shocks
  shockDists := []
  calibration := b.calibration.map fun
    | .eq e => .eq (bare e)
    | .prior d => .prior d

/-- the same assumptions -/
def SameAsm (d d' : List (Str × Asm)) : Prop :=
  ∀ v, (dget d v).isSome = (dget d' v).isSome ∧ ∀ k, (dget d v).bind (dget · k) = (dget d' v).bind (dget · k)

end GE.Prt
