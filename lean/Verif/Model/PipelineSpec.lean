import Verif.Model.Pipeline
import Verif.Model.GrammarSpec
import Verif.Props.BlockValidate
/-!
# Specification for C112: what the equations of a GCN file say

Nothing here models code.
-/

namespace GE

/-- the value of a variable of the file along a path: the variable carries the assumptions the file declares for it -/
def pathOf (asm : List (Str × Asm)) (R : RealPath) (n : Str) (t : Int) : ℝ := R.path n (mergeAssumptions (dget asm n)) t

/-- an equation of the file, as written, holds along a path at every date -/
def Eqn.holdsOn (asm : List (Str × Asm)) (R : RealPath) (e : Eqn) : Prop := ∀ t, e.holds (realInterp asm R) (pathOf asm R) t

namespace Gcn

/-- the equations a block imposes directly: its identities, the constraints not tagged `@exclude`, its objective -/
def GBlock.stated (b : GBlock) : List Eqn := b.identities ++ b.constraints.filter (fun e => Tag.exclude ∉ e.tags) ++ b.objective

/-- the blocks that describe the model: all but those called `STEADY_STATE` or `SS` (in any case, with any underscores) -/
def GFile.IsModelBlock (m : GFile) (b : GBlock) : Prop :=
  b ∈ m.blocks ∧ ¬ Spells b.name "STEADYSTATE".toList ∧ ¬ Spells b.name "SS".toList

/-- model blocks have different names -/
def GFile.DistinctNames (m : GFile) : Prop := m.blocks.Pairwise fun b c =>
  b.name = c.name → Spells b.name "STEADYSTATE".toList ∨ Spells b.name "SS".toList

/-- the definitions of the model blocks hold along a path -/
def GFile.DefinitionsHold (m : GFile) (R : RealPath) : Prop :=
  ∀ b, m.IsModelBlock b → ∀ e ∈ b.definitions, e.holdsOn m.assumptions R

/-- definitions whose variables are dated `t-1`, `t`, `t+1` or steady state -/
def GFile.NearDefinitions (m : GFile) : Prop :=
  ∀ b, m.IsModelBlock b → ∀ e ∈ b.definitions, ∀ n k, (n, TIdx.t k) ∈ e.vars → -1 ≤ k ∧ k ≤ 1

/-- the equations of the model blocks, as written, hold along a path -/
def GFile.EquationsHold (m : GFile) (R : RealPath) : Prop :=
  ∀ b, m.IsModelBlock b → ∀ e ∈ b.stated, e.holdsOn m.assumptions R

/-- the variables of a file: those of the equations and the controls of the model blocks -/
def GFile.IsVariable (m : GFile) (n : Str) : Prop :=
  ∃ b, m.IsModelBlock b ∧ ((∃ e ∈ b.definitions ++ b.objective ++ b.constraints ++ b.identities, ∃ t, (n, t) ∈ e.vars) ∨
    ∃ v ∈ b.controls, v.name = n)

/-- `n` is the name `y__lagK` or `y__leadK` for a variable `y` of the file and a number `K` -/
def GFile.IsShiftName (m : GFile) (n : Str) : Prop :=
  ∃ y, m.IsVariable y ∧ ∃ k : Nat, n = y ++ "__lag".toList ++ (Nat.repr k).toList ∨ n = y ++ "__lead".toList ++ (Nat.repr k).toList

/-- along the path, `y__lagK` is `y` moved `K` periods back and `y__leadK` is `y` moved `K` periods ahead, wherever a model block mentions
`y[-(K+1)]` or `y[K+1]` with `K ≥ 1` (a file with dates `-1`, `0`, `1` only asks for nothing) -/
def GFile.ShiftsHold (m : GFile) (R : RealPath) : Prop :=
  ∀ b, m.IsModelBlock b → ∀ e ∈ b.definitions ++ b.objective ++ b.constraints ++ b.identities, ∀ n (K : Nat), 1 ≤ K →
    ((n, TIdx.t (-(K + 1))) ∈ e.vars → ∀ t, pathOf m.assumptions R (n ++ "__lag".toList ++ (Nat.repr K).toList) t = pathOf m.assumptions R n (t - K)) ∧
    ((n, TIdx.t (K + 1)) ∈ e.vars → ∀ t, pathOf m.assumptions R (n ++ "__lead".toList ++ (Nat.repr K).toList) t = pathOf m.assumptions R n (t + K))

/-! ## optimisation problems -/

mutual
/-- the expression is evaluated inside the domain of its operations: no division by zero, powers of positive numbers or constant powers
of non-zero numbers, logarithms and roots of non-zero numbers -/
def SmoothOn (I : Interp ℝ) (path : Str → Int → ℝ) (t : Int) : Expr → Prop
  | .num _ => True
  | .par _ => True
  | .var _ _ => True
  | .bin .div l r => SmoothOn I path t l ∧ SmoothOn I path t r ∧ r.eval I path t ≠ 0
  | .bin .pow l r => SmoothOn I path t l ∧ SmoothOn I path t r ∧ (0 < l.eval I path t ∨ l.eval I path t ≠ 0 ∧ ∃ q, r = .num q)
  | .bin _ l r => SmoothOn I path t l ∧ SmoothOn I path t r
  | .neg e => SmoothOn I path t e
  | .call f as => SmoothArgs I path t as ∧ (f ≠ "exp".toList → ∀ x ∈ Expr.evalArgs I path t as, x ≠ 0) ∧
      (∀ x b, Expr.evalArgs I path t as = [x, b] → Real.log b ≠ 0)
  | .expect e => SmoothOn I path t e
/-- all arguments of a call -/
def SmoothArgs (I : Interp ℝ) (path : Str → Int → ℝ) (t : Int) : List Expr → Prop
  | [] => True
  | a :: as => SmoothOn I path t a ∧ SmoothArgs I path t as
end

/-- a block that states the problem `max V[] = u + β * E[][V[1]]` subject to its constraints: no definitions, one objective of that form
with `β` made of parameters and numbers, all variables of the objective and the constraints dated `t-1`, `t` or `t+1` -/
structure GBlock.Bellman (b : GBlock) (o : Eqn) (V : Str) (u β : Expr) : Prop where
  definitions : b.definitions = []
  objective : b.objective = [o]
  lhs : o.lhs = .var V (.t 0)
  rhs : o.rhs = .bin .add u (.bin .mul β (.expect (.var V (.t 1))))
  utility : (V, TIdx.t 1) ∉ u.vars
  discount : β.vars = []
  near : ∀ e ∈ b.objective ++ b.constraints, ∀ n i, (n, i) ∈ e.vars → ∃ k, i = .t k ∧ -1 ≤ k ∧ k ≤ 1
  identities : ∀ e ∈ b.identities, ∀ n k, (n, TIdx.t k) ∈ e.vars → -1 ≤ k ∧ k ≤ 1
  controls : ∀ v ∈ b.controls, v.t = .t 0

/-- the Lagrangian of the problem at a date: the objective (its negative for `@minimize`) less, for each constraint, its multiplier times
`lhs - rhs`; the multipliers are given by name and assumptions -/
noncomputable def lagrangianAt (asm : List (Str × Asm)) (b : GBlock) (o : Eqn) (ms : List (Str × Asm)) (R : RealPath) (t : Int) : ℝ :=
  (if Tag.minimize ∈ o.tags then - o.rhs.eval (realInterp asm R) (pathOf asm R) t else o.rhs.eval (realInterp asm R) (pathOf asm R) t) -
    ((b.constraints.zip ms).map fun p => R.path p.2.1 p.2.2 t *
      (p.1.lhs.eval (realInterp asm R) (pathOf asm R) t - p.1.rhs.eval (realInterp asm R) (pathOf asm R) t)).sum

/-- the functions in the problem are evaluated inside their domains -/
def GBlock.SmoothProblem (asm : List (Str × Asm)) (b : GBlock) (R : RealPath) (t : Int) : Prop :=
  ∀ e ∈ b.objective ++ b.constraints, SmoothOn (realInterp asm R) (pathOf asm R) t e.lhs ∧ SmoothOn (realInterp asm R) (pathOf asm R) t e.rhs

/-- a block without a problem of its own, all variables of its equations dated `t-1`, `t`, `t+1` or steady state -/
def GBlock.Plain (b : GBlock) : Prop :=
  b.controls = [] ∧ ∀ e ∈ b.definitions ++ b.objective ++ b.constraints ++ b.identities, ∀ n k, (n, TIdx.t k) ∈ e.vars → -1 ≤ k ∧ k ≤ 1

/-- the discounted Lagrangian of the problem, over any horizon of at least two periods, has derivative zero in each control at each date -/
def GBlock.Stationary (asm : List (Str × Asm)) (b : GBlock) (o : Eqn) (β : Expr) (ms : List (Str × Asm)) (R : RealPath) : Prop :=
  ∀ v ∈ b.controls, ∀ t : Int, ∀ N : Nat, 2 ≤ N →
    HasDerivAt (fun y => ∑ k ∈ Finset.range N, β.eval (realInterp asm R) (pathOf asm R) t ^ k *
      lagrangianAt asm b o ms (R.bump v.name (mergeAssumptions (dget asm v.name)) t y) (t + k)) 0
      (R.path v.name (mergeAssumptions (dget asm v.name)) t)

/-! ## optimisation problems with definitions -/

/-- the block defines `n`: one of its definitions has `n[]`, at some date, on the left -/
def GBlock.Defines (b : GBlock) (n : Str) : Prop := ∃ e ∈ b.definitions, ∃ i, e.lhs = .var n i

/-- the objective is `V[] = u + β * E[][V[1]]`, `u` without `V[1]` and `β` made of parameters and numbers -/
def BellmanForm (o : Eqn) (β : Expr) : Prop :=
  ∃ V u, o.lhs = .var V (.t 0) ∧ o.rhs = .bin .add u (.bin .mul β (.expect (.var V (.t 1)))) ∧ (V, TIdx.t 1) ∉ u.vars ∧ β.vars = []

/-- the objective is about one period: its variables are dated `t` or `t-1`; there is nothing to discount -/
def StaticForm (o : Eqn) (β : Expr) : Prop := β = .num 1 ∧ ∀ n i, (n, i) ∈ o.vars → i = .t 0 ∨ i = .t (-1)

/-- a block that states a problem with one objective of either form, discounted by `β`, subject to its constraints, with definitions `n[] = …`
of different variables, used by other definitions at date `t` only and not by themselves; all variables dated `t-1`, `t` or `t+1` and the controls `t` or `t-1`; controls and
multipliers are not defined, and no defined variable is called `lambda__…`, the form of generated multipliers -/
structure GBlock.Problem (b : GBlock) (o : Eqn) (β : Expr) : Prop where
  objective : b.objective = [o]
  form : BellmanForm o β ∨ StaticForm o β
  near : ∀ e ∈ b.definitions ++ b.objective ++ b.constraints, ∀ n i, (n, i) ∈ e.vars → ∃ k, i = .t k ∧ -1 ≤ k ∧ k ≤ 1
  identities : ∀ e ∈ b.identities, ∀ n k, (n, TIdx.t k) ∈ e.vars → -1 ≤ k ∧ k ≤ 1
  controls : ∀ v ∈ b.controls, v.t = .t 0 ∨ v.t = .t (-1)
  definitions : ∀ e ∈ b.definitions, ∃ n, e.lhs = .var n (.t 0)
  distinct : (b.definitions.map Eqn.lhs).Nodup
  current : ∀ e ∈ b.definitions, ∀ n i, (n, i) ∈ e.rhs.vars → b.Defines n → i = .t 0 ∧ e.lhs ≠ .var n (.t 0)
  free : ∀ v ∈ b.controls, ¬ b.Defines v.name
  multipliers : ∀ e ∈ b.constraints, ∀ n, e.lagrange = some n → ¬ b.Defines n
  generated : ∀ n, b.Defines n → ¬ "lambda__".toList <+: n

/-- `F y` is the path `R` with the control `v` set to `y` at date `t`: the definitions of the block hold on it, and nothing else but the
defined variables changes -/
def GBlock.Variation (asm : List (Str × Asm)) (b : GBlock) (R : RealPath) (v : VarRef) (t : Int) (F : ℝ → RealPath) : Prop :=
  ∀ y, (F y).par = R.par ∧ (F y).ss = R.ss ∧
    (∀ n, ¬ b.Defines n → ∀ a u, (F y).path n a u = (R.bump v.name (mergeAssumptions (dget asm v.name)) t y).path n a u) ∧
    ∀ e ∈ b.definitions, e.holdsOn asm (F y)

/-- the functions in the problem and in the definitions are evaluated inside their domains -/
def GBlock.SmoothWithDefs (asm : List (Str × Asm)) (b : GBlock) (R : RealPath) (t : Int) : Prop :=
  ∀ e ∈ b.definitions ++ b.objective ++ b.constraints,
    SmoothOn (realInterp asm R) (pathOf asm R) t e.lhs ∧ SmoothOn (realInterp asm R) (pathOf asm R) t e.rhs

/-- the discounted Lagrangian of the problem, over any horizon of at least three periods, has derivative zero in each control at each date,
a control written `x[-1]` being the value of `x` one period before the Lagrangian starts, the defined variables moving with the control -/
def GBlock.StationaryWithDefs (asm : List (Str × Asm)) (b : GBlock) (o : Eqn) (β : Expr) (ms : List (Str × Asm)) (R : RealPath) : Prop :=
  ∀ v ∈ b.controls, ∀ i : Int, v.t = .t i → ∀ t : Int, ∀ F : ℝ → RealPath, b.Variation asm R v (t + i) F → ∀ N : Nat, 3 ≤ N →
    HasDerivAt (fun y => ∑ k ∈ Finset.range N, β.eval (realInterp asm R) (pathOf asm R) t ^ k * lagrangianAt asm b o ms (F y) (t + k)) 0
      (R.path v.name (mergeAssumptions (dget asm v.name)) (t + i))

end Gcn
end GE
