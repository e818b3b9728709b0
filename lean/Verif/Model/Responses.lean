import Verif.Model.Diagnostics
import Verif.Props.Perturbation
/-!
# From the equations of a model to its impulse responses

`Model.solve_model` (model/model.py:1731-2026) hands the four arrays of `linearize_model` to a solver, `impulse_response_function`
(model/simulate.py) hands its result to the simulation. This file is the glue and the specification.
-/

namespace GE

/-- the arrays of `linearize_model` (model/model.py:1665-1680) as matrices: numpy arrays are lists of rows in `Model/Perturbation.lean` and
matrices in `Model/LinearSolve.lean`; entries outside a list do not occur and read as 0 -/
def matsOf (n k : ℕ) (M : ABCD ℝ) : LinMats n k where
  A := Matrix.of fun i j => (entryAt M.A i j).getD 0
  B := Matrix.of fun i j => (entryAt M.B i j).getD 0
  C := Matrix.of fun i j => (entryAt M.C i j).getD 0
  D := Matrix.of fun i j => (entryAt M.D i j).getD 0

/-- `Model.linearize_model` as `solve_model` uses it (model/model.py:1969-1985): the matrices at a steady state -/
noncomputable def linearMats (vars : List TSym) (eqs : List SExpr) (shocks loglin : List TSym) (par : Str → ℝ) (ss : List (Str × ℝ)) :
    Option (LinMats vars.length shocks.length) :=
  (linearizeModel vars eqs shocks loglin ss (evalAt par)).map (matsOf vars.length shocks.length)

/-! ## specification -/

/-- the variable is expressed in percent of its steady state `s`: it was asked for, is not declared negative, and is declared positive or
has a positive steady state -/
def InLogs (loglin : List TSym) (v : TSym) (s : ℝ) : Prop :=
  v.base ∈ loglin.map TSym.base ∧ ¬ v.assumed "negative".toList ∧ (v.assumed "positive".toList ∨ 0 < s)

open Classical in
/-- the value of a variable with steady state `s` that is `x` away from it -/
noncomputable def deviated (loglin : List TSym) (v : TSym) (s x : ℝ) : ℝ := if InLogs loglin v s then s * Real.exp x else s + x

/-- `R` is a path of the economy on which, up to date `last`, each variable is `h` times `dev` away from its steady state and each shock is
`h` times `eps`. Anything that is neither a variable nor a shock is left open. -/
structure Deviates (vars shocks loglin : List TSym) (par : Str → ℝ) (ss : List (Str × ℝ)) (dev : Int → Fin vars.length → ℝ)
    (eps : Int → Fin shocks.length → ℝ) (last : Int) (h : ℝ) (R : RealPath) : Prop where
  par : R.par = par
  steady : ∀ v ∈ vars, R.ss v.base v.asm = ssOf ss v
  quiet : ∀ s ∈ shocks, R.ss s.base s.asm = 0
  moves : ∀ (j : Fin vars.length) (u : Int), u ≤ last → R.path vars[j].base vars[j].asm u = deviated loglin vars[j] (ssOf ss vars[j]) (h * dev u j)
  hits : ∀ (i : Fin shocks.length) (u : Int), u ≤ last → R.path shocks[i].base shocks[i].asm u = h * eps u i

/-- the equations speak about the variables at dates `t-1`, `t`, `t+1` and in the steady state, and about the shocks at date `t` -/
def Shallow (vars shocks : List TSym) (eqs : List SExpr) : Prop :=
  ∀ q ∈ eqs, ∀ s ∈ q.tsyms,
    (∃ v ∈ vars, s.base = v.base ∧ s.asm = v.asm ∧ (s.idx = .ss ∨ s.idx = .t (-1) ∨ s.idx = .t 0 ∨ s.idx = .t 1)) ∨
    ∃ e ∈ shocks, s.base = e.base ∧ s.asm = e.asm ∧ (s.idx = .ss ∨ s.idx = .t 0)

/-- the lists are those of a model: different variables have different names, shocks too, and no variable is a shock; shocks are dated `t` -/
structure Named (vars shocks : List TSym) : Prop where
  varNames : (vars.map TSym.base).Nodup
  shockNames : (shocks.map TSym.base).Nodup
  apart : ∀ v ∈ vars, ∀ s ∈ shocks, v.base ≠ s.base
  now : ∀ s ∈ shocks, s.idx = .t 0

/-- the deviations a table of responses shows: nothing before date 0, row `u` at date `u` -/
def tableDev {n : ℕ} (d : List (Fin n → ℝ)) (u : Int) (j : Fin n) : ℝ := if u < 0 then 0 else (d.getD u.toNat 0) j

open Classical in
/-- one shock of the given size at date 0 -/
noncomputable def oneShock {k : ℕ} (i : Fin k) (size : ℝ) (u : Int) (j : Fin k) : ℝ := if u = 0 ∧ j = i then size else 0

end GE
