import Verif.Model.PFCompile
import Verif.Model.SparseRoot
/-!
# `solve_perfect_foresight` (gEconpy/model/perfect_foresight/solve.py:283-498): the whole run

The pieces are in `Model/PerfectForesight.lean`, `Model/PFCompile.lean` and `Model/SparseRoot.lean`. Numbers are exact reals. `steady` is
`model.steady_state(**steady_state_kwargs, **params)` as a function of the parameter values passed, `none` if it raises; `steady_state_kwargs`
are fixed. The progress bar and the evaluation budget of `ObjectiveWrapper` are not modelled. The equations are as many as the variables
(`Model` has checked that; otherwise `residuals[...] = r` raises unless NumPy can broadcast).
-/

namespace GE
open Matrix

noncomputable section

/-- the argument `x0`: nothing, a steady-state dictionary, a data frame (its columns, its number of rows, its entries), an array -/
inductive Guess where
  | none
  | steady (d : List (Str × ℝ))
  | frame (cols : List Str) (rows : Nat) (v : Nat → Nat → ℝ)
  | array (rows cols : Nat) (v : Nat → Nat → ℝ)

/-- what ends a run without a result -/
inductive RunErr where
  | compile (e : PFCErr)
  | emptyPath
  | guessShape
  | notANumber
  | steady
  | input (e : PFErr)
  | parameters
  | notSquare
  | noPeriods

/-- the arguments of `solve_perfect_foresight` besides the model, the solver and the options -/
structure RunArgs where
  T : Nat
  guess : Guess := .none
  initial : List (Str × ℝ) := []
  terminal : List (Str × ℝ) := []
  shocks : Option (List (Str × List ℝ)) := Option.none
  paths : Option (List (Str × PPath ℝ)) := Option.none

/-- what is returned: the columns and entries of the trajectory, and the result of the root finder -/
structure RunOut where
  columns : List Str
  trajectory : Nat → Nat → ℝ
  size : Nat
  result : RootResult size size

/-- `_compute_ss` (solve.py:392-393) -/
def computeSS (steady : List (Str × ℝ) → Option (List (Str × ℝ))) (kw : List (Str × ℝ)) : Except RunErr (List (Str × ℝ)) :=
  match steady kw with
  | some d => .ok d
  | Option.none => .error .steady

open Classical in
/-- `init_ss_dict`, `term_ss_dict` (solve.py:395-437); a dictionary that is not computed is not used and empty here -/
def steadyDicts (steady : List (Str × ℝ) → Option (List (Str × ℝ))) (guess : Guess) (needsInitial needsTerminal : Bool)
    (first last : List (Str × ℝ)) : Except RunErr (List (Str × ℝ) × List (Str × ℝ)) :=
  match guess with
  | .steady d => .ok (d, d)
  | .none =>
    match computeSS steady first with
    | .error e => .error e
    | .ok i =>
      match (if last ≠ first then computeSS steady last else .ok i) with
      | .error e => .error e
      | .ok t => .ok (i, t)
  | .frame _ _ _ | .array _ _ _ =>
    match (if needsInitial then computeSS steady first else .ok []) with
    | .error e => .error e
    | .ok i =>
      match (if needsTerminal then (if needsInitial ∧ last = first then .ok i else computeSS steady last) else .ok []) with
      | .error e => .error e
      | .ok t => .ok (i, t)

/-- `x0_vec` (solve.py:398, 401-403, 416-418, 437): row by row. `reindex` refuses a frame with two columns of one name; a variable without a
column starts as NaN. -/
def guessVector (guess : Guess) (init : List (Str × ℝ)) (names : List Str) (T : Nat) : Except RunErr (Nat → ℝ) :=
  match guess with
  | .none | .steady _ => .ok fun i => ((ssToArray init names)[i % names.length]?).getD 0
  | .frame cols rows v =>
    if rows ≠ T ∨ ¬ cols.Nodup then .error .guessShape
    else if names.all fun n => n ∈ cols then .ok fun i => v (i / names.length) (((names[i % names.length]?).map cols.idxOf).getD 0)
    else .error .notANumber
  | .array rows cols v => if rows ≠ T ∨ cols ≠ names.length then .error .guessShape else .ok fun i => v (i / names.length) (i % names.length)

/-- a vector of the root finder as the flat array of the assembly -/
def flat {N : Nat} (x : Fin N → ℝ) (i : Nat) : ℝ := if h : i < N then x ⟨i, h⟩ else 0

open Classical in
/-- `system` (solve.py:471-472) -/
def pfSystem (c : PFCompiled) (yInit yTerm : Nat → ℝ) (x params : Nat → Nat → ℝ) (n T : Nat) : RootFun (T * n) (T * n) := fun y =>
  let s := stackedSystem (fun a => (c.parts.residual a, c.jacobian a)) (flat y) yInit yTerm x params n n T
  (fun i => s.1 i, Matrix.of fun i j => cooAt s.2 i j)

/-- `merit_fun` (solve.py:478-479) -/
def pfMerit (f : PFParts) (yInit yTerm : Nat → ℝ) (x params : Nat → Nat → ℝ) (n T : Nat) (y : Fin (T * n) → ℝ) (i : Fin (T * n)) : ℝ :=
  stackedResiduals f.residual (flat y) yInit yTerm x params n n T i

/-- a solver object in its current state; its line search, if it has one, is given the merit function (solve.py:481-486) -/
abbrev SolverOf := ∀ N : Nat, ((Fin N → ℝ) → Fin N → ℝ) → (S : RootSolver N N) × S.σ

/-- the default `NewtonArmijo(globalization=ArmijoBacktracking(merit_fun=merit_fun))` (solve.py:482; line_search.py:81-89,
globalization.py:62-65, base.py:8-10); `lin` is SciPy's sparse solver -/
def defaultSolver (lin : ∀ N : Nat, Matrix (Fin N) (Fin N) ℝ → (Fin N → ℝ) → Option (Fin N → ℝ)) : SolverOf := fun N g =>
  ⟨armijoSolver () (fun _ s => ((), newtonDirection (lin N) s)) { c1 := 1e-4, beta := 0.5, maxIter := 50, meritFun := some g }, ()⟩

/-- solve.py:467-491: the boundary vectors and the matrices are given. `tol` and `maxiter` are the defaults of `sparse_root` (base.py:6-7).
The trajectory is `result.x.reshape(T, n_vars)` (solve.py:171-175). -/
def runSolver (c : PFCompiled) (f : PFParts) (solver : SolverOf) (x0 : Nat → ℝ) (yInit yTerm : List ℝ) (x params : Nat → Nat → ℝ) (T : Nat) : RunOut :=
  let n := c.varNames.length
  let yi := fun i => (yInit[i]?).getD 0
  let yt := fun i => (yTerm[i]?).getD 0
  let S := solver (T * n) (pfMerit f yi yt x params n T)
  let r := (rootFind S.1 S.2 (pfSystem c yi yt x params n T) (fun i => x0 i) 1e-10 1e-10 1000).2
  { columns := c.varNames, trajectory := fun t k => flat r.final.x (t * n + k), size := T * n, result := r }

/-- a Python number: an integer or a float. `truncate` is what NumPy stores of it in an integer array. -/
inductive PyNumber where
  | int (z : Int)
  | float (x : ℝ)

/-- the number -/
def PyNumber.val : PyNumber → ℝ
  | .int z => z
  | .float x => x

/-- `arr[i] = val` for an integer array: the fraction is dropped -/
def PyNumber.truncate : PyNumber → ℝ
  | .int z => z
  | .float x => if 0 ≤ x then ⌊x⌋ else ⌈x⌉

/-- whether NumPy makes an integer array of the numbers -/
def allInts (l : List PyNumber) : Bool := l.all fun v => match v with | .int _ => true | .float _ => false

/-- `y_initial` and `y_terminal` (solve.py:450-464) with the types of the numbers: `np.array` of integers (solve.py:186-188) is an integer
array, into which `y_initial[idx] = val` (456, 464) writes integers. `solvePF` has floats only. -/
def boundaryVectorPy (conds ss : List (Str × PyNumber)) (names : List Str) : List ℝ :=
  if names.all fun n => n ∈ dkeys conds then names.map fun n => ((dget conds n).map PyNumber.val).getD 1
  else
    let start := names.map fun n => (dget ss (n ++ ssSuffix)).getD ((dget ss n).getD (.float 1))
    conds.foldl (fun y p => y.set (names.idxOf p.1) (if allInts start then p.2.truncate else p.2.val)) (start.map PyNumber.val)

/-- `solve_perfect_foresight` (solve.py:375-491) -/
def solvePF (ord : List TSym → List TSym) (subsOrd : List (Sym × SExpr) → List (Sym × SExpr)) (m : PFModel) (pm : ParamModel ℝ)
    (steady : List (Str × ℝ) → Option (List (Str × ℝ))) (solver : SolverOf) (a : RunArgs) : Except RunErr RunOut :=
  let initial := normalizeConditions a.initial
  let terminal := normalizeConditions a.terminal
  match compileProblem ord subsOrd m with
  | .error e => .error (.compile e)
  | .ok (c, f) =>
  match boundaryParams (a.paths.getD []) with
  | Option.none => .error .emptyPath
  | some (first, last) =>
  let needsInitial := !(c.varNames.all fun n => n ∈ dkeys initial)
  let needsTerminal := !(c.varNames.all fun n => n ∈ dkeys terminal)
  match steadyDicts steady a.guess needsInitial needsTerminal first last with
  | .error e => .error e
  | .ok (ssInit, ssTerm) =>
  match guessVector a.guess ssInit c.varNames a.T with
  | .error e => .error e
  | .ok x0 =>
  match validatePF initial terminal a.shocks a.paths c.varNames c.shockNames c.paramNames a.T with
  | .error e => .error (.input e)
  | .ok () =>
  match shockMatrix a.shocks c.shockNames a.T with
  | Option.none => .error (.input .valueError)
  | some X =>
  match pm.parameters [] with
  | .error _ => .error .parameters
  | .ok defaults =>
  match paramMatrix a.paths c.paramNames defaults a.T with
  | .error e => .error (.input e)
  | .ok P =>
  if m.eqs.length ≠ c.varNames.length then .error .notSquare
  else if a.T = 0 then .error .noPeriods
  else .ok (runSolver c f solver x0 (boundaryVector initial ssInit c.varNames) (boundaryVector terminal ssTerm c.varNames) X P a.T)

end

/-! ## specification -/

/-- the key by which a user may name the variable: `K` or `K_ss` -/
def Names (key n : Str) : Prop := key = n ++ ['_', 's', 's'] ∨ (key = n ∧ ¬ ['_', 's', 's'] <:+ n)

/-- the value a run starts from (ends with) for a variable: the user's, given under the name or the name with `_ss`; otherwise the one in
the steady-state dictionary; 1 where this has none -/
def BoundaryValue (user ss : List (Str × ℝ)) (n : Str) (v : ℝ) : Prop :=
  (∃ key, (key, v) ∈ user ∧ Names key n) ∨
  ((∀ key w, (key, w) ∈ user → ¬ Names key n) ∧ (dget ss (n ++ ['_', 's', 's']) = some v ∨
    (dget ss (n ++ ['_', 's', 's']) = none ∧ (dget ss n = some v ∨ (dget ss n = none ∧ v = 1)))))

/-- the size of a shock in a period: on the user's path, otherwise nothing -/
def ShockValue (shocks : List (Str × List ℝ)) (n : Str) (t : Nat) (v : ℝ) : Prop :=
  (∃ path, (n, path) ∈ shocks ∧ path[t]? = some v) ∨ ((∀ path, (n, path) ∉ shocks) ∧ v = 0)

/-- the value of a parameter in a period: the user's number, or the one on the user's path, otherwise the model's -/
def ParamValue (paths : List (Str × PPath ℝ)) (defaults : List (Str × ℝ)) (n : Str) (t : Nat) (v : ℝ) : Prop :=
  (n, .scalar v) ∈ paths ∨ (∃ vs, (n, .array vs) ∈ paths ∧ vs[t]? = some v) ∨ ((∀ p, (n, p) ∉ paths) ∧ dget defaults n = some v)

/-- the value of the variable in column `i` at date `u` on the path of a run: the table inside the horizon, the boundary values one period
before and after it -/
def OnPath (a : RunArgs) (ssInit ssTerm : List (Str × ℝ)) (o : RunOut) (i : Nat) (n : Str) (u : Int) (v : ℝ) : Prop :=
  (u = -1 ∧ BoundaryValue a.initial ssInit n v) ∨ (∃ t : Nat, t < a.T ∧ u = t ∧ v = o.trajectory t i) ∨
  (u = a.T ∧ BoundaryValue a.terminal ssTerm n v)

/-- the symbols' values `σ` are those of period `t` of the run -/
structure InPeriod (m : PFModel) (defaults : List (Str × ℝ)) (a : RunArgs) (ssInit ssTerm : List (Str × ℝ)) (o : RunOut) (t : Nat) (σ : Sym → ℝ) :
    Prop where
  vars : ∀ (i : Nat) n asm k, o.columns[i]? = some n → (k = -1 ∨ k = 0 ∨ k = 1) → OnPath a ssInit ssTerm o i n (t + k) (σ (.tv ⟨n, .t k, asm⟩))
  shocks : ∀ s ∈ m.shocks, ∀ asm, ShockValue (a.shocks.getD []) s.base t (σ (.tv ⟨s.base, .t 0, asm⟩))
  params : ∀ n ∈ m.params ++ m.determ, ParamValue (a.paths.getD []) defaults n t (σ (.par n))
  steady : ∀ p ∈ m.ssDict, ∀ x : TSym, x.idx = .ss → symName (safeToSS p.1) = createName x → σ (.tv x) = p.2.eval σ

/-- the value of a parameter's path in a period -/
def PathValue (p : PPath ℝ) (t : Nat) (v : ℝ) : Prop := p = .scalar v ∨ ∃ vs, p = .array vs ∧ vs[t]? = some v

/-- the steady state for the parameter values the user gives for period `t` -/
def SteadyIn (steady : List (Str × ℝ) → Option (List (Str × ℝ))) (a : RunArgs) (t : Nat) (ss : List (Str × ℝ)) : Prop :=
  ∃ kw, List.Forall₂ (fun p q => q.1 = p.1 ∧ PathValue p.2 t q.2) (a.paths.getD []) kw ∧ steady kw = some ss

/-- the steady-state dictionary behind a boundary: the one passed as the guess; otherwise the steady state for the parameter values of period
`t`; with a table as the guess none is needed if the user states every variable -/
def DictFor (steady : List (Str × ℝ) → Option (List (Str × ℝ))) (a : RunArgs) (t : Nat) (user : List (Str × ℝ)) (columns : List Str)
    (ss : List (Str × ℝ)) : Prop :=
  match a.guess with
  | .steady d => ss = d
  | .none => SteadyIn steady a t ss
  | _ => SteadyIn steady a t ss ∨ ∀ n ∈ columns, ∃ key v, (key, v) ∈ user ∧ Names key n

/-- the model's own parameters and the two steady states a run refers to -/
structure RefersTo (pm : ParamModel ℝ) (steady : List (Str × ℝ) → Option (List (Str × ℝ))) (a : RunArgs) (columns : List Str)
    (defaults ssInit ssTerm : List (Str × ℝ)) : Prop where
  own : pm.parameters [] = .ok defaults
  before : DictFor steady a 0 a.initial columns ssInit
  after : DictFor steady a (a.T - 1) a.terminal columns ssTerm

/-- the value the iteration starts from for the variable of column `i` at date `t`: the initial steady state in every period, or the entry of
the table given -/
def GuessValue (a : RunArgs) (ssInit : List (Str × ℝ)) (n : Str) (i t : Nat) (v : ℝ) : Prop :=
  match a.guess with
  | .frame cols _ w => ∃ j, cols[j]? = some n ∧ v = w t j
  | .array _ _ w => v = w t i
  | _ => BoundaryValue [] ssInit n v

end GE
