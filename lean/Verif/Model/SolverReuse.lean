import Verif.Model.PFSolve
/-!
# One solver object, many solves

`sparse_root` (gEconpy/solvers/sparse_root/sparse_root.py:55-104) and `solve_perfect_foresight` (gEconpy/model/perfect_foresight/solve.py:474-489)
are handed a solver object, which they change: `init` and `step` write its fields, and `solve_perfect_foresight` stores its own residual
function in the object's line search. The systems of different calls may have different sizes.
-/

namespace GE
open Matrix

noncomputable section

/-- what a user chooses when making a `LineSearchSolver` (line_search.py:32-78): the constants of the line search, the direction strategy (its
memory is of type `δ`; `fresh` is that memory after `reset`), and `memory` for a `NonmonotoneBacktracking` (globalization.py:104-178; `none` is
`ArmijoBacktracking`) -/
structure LSClass (δ : Type) where
  c1 : ℝ
  beta : ℝ
  maxIter : Nat
  fresh : δ
  dir : ∀ n : Nat, δ → SState n n → δ × Proposal n
  memory : Option Nat := none

/-- the fields of a `LineSearchSolver` that change: the direction's memory, `globalization.merit_fun` with the size of the vectors it takes, and
`globalization._phi_history` (newest first) -/
structure LSObj (δ : Type) where
  mem : δ
  meritFun : Option ((N : Nat) × ((Fin N → ℝ) → Fin N → ℝ)) := none
  history : List ℝ := []

/-- `_root_find_core` (sparse_root.py:35-52) with the object, using the given merit function -/
def LSObj.solveWith {δ : Type} (cls : LSClass δ) (o : LSObj δ) {n : Nat} (mf : Option ((Fin n → ℝ) → Fin n → ℝ)) (f : RootFun n n)
    (x0 : Fin n → ℝ) (fTol xTol : ℝ) (maxiter : Nat) : LSObj δ × RootResult n n :=
  let cfg : LineSearchCfg n n := { c1 := cls.c1, beta := cls.beta, maxIter := cls.maxIter, meritFun := mf }
  match cls.memory with
  | none =>
    let r := rootFind (armijoSolver cls.fresh (cls.dir n) cfg) o.mem f x0 fTol xTol maxiter
    ({ o with mem := r.1 }, r.2)
  | some M =>
    let r := rootFind (nonmonotoneSolver cls.fresh (cls.dir n) cfg M) (o.mem, o.history) f x0 fTol xTol maxiter
    ({ o with mem := r.1.1, history := r.1.2 }, r.2)

open Classical in
/-- `sparse_root(f, x0, solver=object)` (sparse_root.py:55-104). `none` is an exception: the stored merit function takes vectors of another size
(`y.reshape` refuses, assembly.py), which is noticed when the first trial point is evaluated; the object then has the direction's new memory and
the start's merit in its history. -/
def LSObj.sparseRoot {δ : Type} (cls : LSClass δ) (o : LSObj δ) {n : Nat} (f : RootFun n n) (x0 : Fin n → ℝ) (fTol xTol : ℝ) (maxiter : Nat) :
    LSObj δ × Option (RootResult n n) :=
  match o.meritFun with
  | none => let r := o.solveWith cls none f x0 fTol xTol maxiter; (r.1, some r.2)
  | some ⟨N, g⟩ =>
    if h : N = n then let r := o.solveWith cls (some (h ▸ g)) f x0 fTol xTol maxiter; (r.1, some r.2)
    else if maxAbs (f x0).1 < fTol ∨ maxiter = 0 ∨ cls.maxIter = 0 then
      let r := o.solveWith cls none f x0 fTol xTol maxiter; (r.1, some r.2)
    else
      ({ o with
          mem := (cls.dir n cls.fresh (startState f x0)).1
          history := match cls.memory with | none => o.history | some M => pushHistory M o.history (startState f x0).phi }, none)

/-- the end of `solve_perfect_foresight(…, solver=object)` (solve.py:476-489): the call's own merit function is stored in the object, then
`sparse_root` runs with its defaults (base.py:6-7) -/
def LSObj.foresight {δ : Type} (cls : LSClass δ) (o : LSObj δ) {n : Nat} (f : RootFun n n) (g : (Fin n → ℝ) → Fin n → ℝ) (x0 : Fin n → ℝ) :
    LSObj δ × Option (RootResult n n) :=
  { o with meritFun := some ⟨n, g⟩ }.sparseRoot cls f x0 1e-10 1e-10 1000

/-- the object in a `solve_perfect_foresight` call, as `Model/PFSolve.lean` has it -/
def LSObj.forPF {δ : Type} (cls : LSClass δ) (o : LSObj δ) : SolverOf := fun N g =>
  let cfg : LineSearchCfg N N := { c1 := cls.c1, beta := cls.beta, maxIter := cls.maxIter, meritFun := some g }
  match cls.memory with
  | none => ⟨armijoSolver cls.fresh (cls.dir N) cfg, o.mem⟩
  | some M => ⟨nonmonotoneSolver cls.fresh (cls.dir N) cfg M, (o.mem, o.history)⟩

/-- a call with one object: of `sparse_root`, or of `solve_perfect_foresight` (the system, its residual-only version and the start it has built) -/
inductive SolveCall where
  | root (n : Nat) (f : RootFun n n) (x0 : Fin n → ℝ) (fTol xTol : ℝ) (maxiter : Nat)
  | foresight (n : Nat) (f : RootFun n n) (g : (Fin n → ℝ) → Fin n → ℝ) (x0 : Fin n → ℝ)

/-- the size of the call's system -/
def SolveCall.size : SolveCall → Nat
  | .root n .. => n
  | .foresight n .. => n

/-- one call -/
def LSObj.call {δ : Type} (cls : LSClass δ) (o : LSObj δ) : (c : SolveCall) → LSObj δ × Option (RootResult c.size c.size)
  | .root _ f x0 fTol xTol k => o.sparseRoot cls f x0 fTol xTol k
  | .foresight _ f g x0 => o.foresight cls f g x0

/-- a call of an object without a line search (`SparseDogleg`, `GaussNewtonTrustRegion`, `LevenbergMarquardt`), whose only changing field is a
number: nothing is stored in it by `solve_perfect_foresight` (solve.py:484-486) -/
def radiusCall (S : ∀ n : Nat, RootSolver n n) (hσ : ∀ n, (S n).σ = ℝ) (o : ℝ) : (c : SolveCall) → ℝ × Option (RootResult c.size c.size)
  | .root n f x0 fTol xTol k =>
    let r := rootFind (S n) (cast (hσ n).symm o) f x0 fTol xTol k
    (cast (hσ n) r.1, some r.2)
  | .foresight n f _ x0 =>
    let r := rootFind (S n) (cast (hσ n).symm o) f x0 1e-10 1e-10 1000
    (cast (hσ n) r.1, some r.2)

/-! ## specification -/

/-- the object after a series of calls -/
def after {σ : Type} (call : σ → (c : SolveCall) → σ × Option (RootResult c.size c.size)) (o : σ) : List SolveCall → σ
  | [] => o
  | c :: cs => after call (call o c).1 cs

/-- after the calls `before`, the call `c` answers as the object would have answered at the beginning -/
def AnswersAfresh {σ : Type} (call : σ → (c : SolveCall) → σ × Option (RootResult c.size c.size)) (o : σ) (before : List SolveCall)
    (c : SolveCall) : Prop := (call (after call o before) c).2 = (call o c).2

end

end GE
