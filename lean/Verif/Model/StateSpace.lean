import Verif.Model.Sym
import Verif.Model.SSDriver
import Verif.Model.LinearSolve
/-!
# `gEconpy/model/statespace.py`

Matrices are functions of two natural numbers together with their sizes: pytensor graphs are evaluated at given parameter values, so an
entry is a real number. -/

namespace GE

/-- a two-dimensional array, read inside its sizes -/
abbrev NMat := ℕ → ℕ → ℝ

/-- `pt.zeros(...)` -/
def NMat.zeros : NMat := fun _ _ => 0

/-- `pt.set_subtensor(M[i, j], v)` -/
def NMat.setAt (M : NMat) (i j : ℕ) (v : ℝ) : NMat := fun a b => if a = i ∧ b = j then v else M a b

/-- `pt.inc_subtensor(M[i, j], v)` -/
def NMat.incAt (M : NMat) (i j : ℕ) (v : ℝ) : NMat := fun a b => if a = i ∧ b = j then M a b + v else M a b

/-- `block([[A, B], [C, D]])` (pytensorf/block.py:50-135) where `A` has `r` rows and `c` columns -/
def NMat.block (r c : ℕ) (A B C D : NMat) : NMat := fun i j =>
  if i < r then (if j < c then A i j else B i (j - c)) else (if j < c then C (i - r) j else D (i - r) (j - c))

/-- `np.kron(np.eye(n), M)` for an `m × m` matrix `M` -/
def NMat.kronEye (m : ℕ) (M : NMat) : NMat := fun i j => if i / m = j / m then M (i % m) (j % m) else 0

/-- the four methods of `VALID_AGGREGATIONS` (statespace.py:47) -/
inductive Agg where
  | sum | mean | first | last
  deriving DecidableEq, Repr

/-- membership in `CUMULATOR_AGGREGATIONS` (statespace.py:48) -/
def Agg.cumulates : Agg → Bool
  | .sum | .mean => true
  | .first | .last => false

/-- a linearised observation equation at given parameter values (statespace.py:163-167) -/
structure ObsEq where
  intercept : ℝ
  coeffs : List ((Str × Int) × ℝ)

/-- what `configure` stores (statespace.py:1020-1050) -/
structure SSCfg where
  vars : List Str
  observed : List Str
  agg : List (Str × Agg)
  period : ℕ
  obsEqs : List (Str × ObsEq)
  ssObs : List Str := []
  loglin : List Str := []

namespace SSCfg

/-- `self._temporal_aggregation.get(name) in CUMULATOR_AGGREGATIONS` -/
def cumulates (c : SSCfg) (name : Str) : Bool := ((dget c.agg name).map Agg.cumulates).getD false

/-- `_cumulator_variables` (statespace.py:561-571) -/
def cumVars (c : SSCfg) : List Str := (c.agg.filter fun p => p.2.cumulates && decide (p.1 ∉ dkeys c.obsEqs)).map Prod.fst

/-- `_n_cumulator_states` (statespace.py:557-559) -/
def nCum (c : SSCfg) : ℕ := c.cumVars.length * (c.period - 1)

/-- one coefficient of one observation equation in the computation of `_obs_lag_depths` (statespace.py:1044-1049) -/
def depthStep (broadcast : ℕ) (d : List (Str × ℕ)) (key : Str × Int) : List (Str × ℕ) :=
  let required : Int := -key.2 + broadcast
  if required > 0 then dset d key.1 (max ((dget d key.1).getD 0) required.toNat) else d

/-- `_obs_lag_depths` (statespace.py:1043-1049) -/
def depths (c : SSCfg) : List (Str × ℕ) :=
  c.obsEqs.foldl (fun d p => (p.2.coeffs.map Prod.fst).foldl (depthStep (if c.cumulates p.1 then c.period - 1 else 0)) d) []

/-- `_n_obs_lag_states` (statespace.py:585-587) -/
def nObsLag (c : SSCfg) : ℕ := (c.depths.map Prod.snd).sum

/-- `_obs_lag_starts` (statespace.py:1072-1076): consecutive slots in the order of the dictionary -/
def startsFrom : ℕ → List (Str × ℕ) → List (Str × ℕ)
  | _, [] => []
  | off, (v, d) :: ds => (v, off) :: startsFrom (off + d) ds

/-- `_obs_lag_starts` (statespace.py:1070-1076) -/
def starts (c : SSCfg) : List (Str × ℕ) := startsFrom (c.vars.length + c.nCum) c.depths

/-- `k_states_aug` (statespace.py:1068) -/
def kAug (c : SSCfg) : ℕ := c.vars.length + c.nCum + c.nObsLag

/-- `_obs_lag_column` (statespace.py:593-596); a missing name would raise KeyError, 0 here -/
def lagColumn (c : SSCfg) (name : Str) (lag : Int) : ℕ := (dget c.starts name).getD 0 + ((-lag).toNat - 1)

/-- the rows written by one aggregated variable into `F` (statespace.py:636-639) -/
def loadCum (c : SSCfg) (F : NMat) (p : Str × ℕ) : NMat := F.setAt (p.2 * (c.period - 1)) (c.vars.idxOf p.1) 1

/-- the lower shift companion matrix (statespace.py:631-634) -/
def shiftMat : NMat := fun i j => if i = j + 1 then 1 else 0

/-- `_augment_transition` (statespace.py:598-650) -/
def augTransition (c : SSCfg) (T : NMat) : NMat :=
  if c.cumVars = [] then T else
    NMat.block c.vars.length c.vars.length T NMat.zeros (c.cumVars.zipIdx.foldl c.loadCum NMat.zeros)
      (NMat.kronEye (c.period - 1) shiftMat)

/-- the entries of one variable's chain (statespace.py:680-685) -/
def chainStep (c : SSCfg) (kPrev : ℕ) (s : NMat × NMat) (p : Str × ℕ) : NMat × NMat :=
  let start := (dget c.starts p.1).getD 0 - kPrev
  (s.1.setAt start (c.vars.idxOf p.1) 1,
   (List.range' 1 (p.2 - 1)).foldl (fun C k => C.setAt (start + k) (start + k - 1) 1) s.2)

/-- `_append_obs_lag_block` (statespace.py:652-694) -/
def appendLags (c : SSCfg) (Taug : NMat) : NMat :=
  if c.nObsLag = 0 then Taug else
    let kPrev := c.vars.length + c.nCum
    let FC := c.depths.foldl (c.chainStep kPrev) (NMat.zeros, NMat.zeros)
    NMat.block kPrev kPrev Taug NMat.zeros FC.1 FC.2

/-- `ssm["transition"]` (statespace.py:781-785) -/
def transition (c : SSCfg) (T : NMat) : NMat := c.appendLags (c.augTransition T)

/-- `_augment_selection` (statespace.py:696-723) -/
def selection (c : SSCfg) (R : NMat) : NMat :=
  if c.nCum + c.nObsLag = 0 then R else fun i s => if i < c.vars.length then R i s else 0

/-- the weight of a selector row (statespace.py:291, 325) -/
noncomputable def selWeight (c : SSCfg) (name : Str) : ℝ := if dget c.agg name = some .mean then 1 / (c.period : ℝ) else 1

/-- first column of the cumulator block of a variable (statespace.py:289-290, 329-330) -/
def cumStart (c : SSCfg) (name : Str) : ℕ := c.vars.length + c.cumVars.idxOf name * (c.period - 1)

/-- a row of the pure selector design (statespace.py:285-297) -/
noncomputable def selectorRow (c : SSCfg) (Z : NMat) (p : Str × ℕ) : NMat :=
  if c.cumulates p.1 then
    (List.range (c.period - 1)).foldl (fun Z k => Z.setAt p.2 (c.cumStart p.1 + k) (c.selWeight p.1))
      (Z.setAt p.2 (c.vars.idxOf p.1) (c.selWeight p.1))
  else Z.setAt p.2 (c.vars.idxOf p.1) 1

/-- the number of periods and the weight of an observation-equation row (statespace.py:307-313) -/
noncomputable def obsWindow (c : SSCfg) (name : Str) : ℕ × ℝ :=
  match dget c.agg name with
  | some .sum => (c.period, 1)
  | some .mean => (c.period, 1 / (c.period : ℝ))
  | _ => (1, 1)

/-- the column of `v` at an effective lag (statespace.py:316-321) -/
def obsColumn (c : SSCfg) (v : Str) (lag : Int) : ℕ := if lag = 0 then c.vars.idxOf v else c.lagColumn v lag

/-- the row of an observation equation (statespace.py:305-322) -/
noncomputable def obsRow (c : SSCfg) (eq : ObsEq) (Z : NMat) (p : Str × ℕ) : NMat :=
  let w := c.obsWindow p.1
  eq.coeffs.foldl (fun Z kc =>
    (List.range w.1).foldl (fun Z (d : ℕ) => Z.incAt p.2 (c.obsColumn kc.1.1 (kc.1.2 - d)) (w.2 * kc.2)) Z) Z

/-- the selector row of the symbolic branch (statespace.py:323-332) -/
noncomputable def symSelectorRow (c : SSCfg) (Z : NMat) (p : Str × ℕ) : NMat :=
  let Z := Z.setAt p.2 (c.vars.idxOf p.1) (c.selWeight p.1)
  if c.cumulates p.1 then
    (List.range (c.period - 1)).foldl (fun Z k => Z.setAt p.2 (c.cumStart p.1 + k) (c.selWeight p.1)) Z
  else Z

/-- a row of the symbolic design (statespace.py:302-332) -/
noncomputable def symRow (c : SSCfg) (Z : NMat) (p : Str × ℕ) : NMat :=
  match dget c.obsEqs p.1 with
  | some eq => c.obsRow eq Z p
  | none => c.symSelectorRow Z p

/-- `_make_design_matrix` (statespace.py:260-332) -/
noncomputable def design (c : SSCfg) : NMat :=
  if c.obsEqs = [] then c.observed.zipIdx.foldl c.selectorRow NMat.zeros else c.observed.zipIdx.foldl c.symRow NMat.zeros

/-- errors of `_make_obs_intercept` (statespace.py:373-378) -/
inductive InterceptErr where
  | noSteadyState (name : Str)

/-- one entry of the observation intercept (statespace.py:366-386); `ss` is the steady state by name `v_ss` (without its suffix here) -/
noncomputable def interceptEntry (c : SSCfg) (ss : List (Str × ℝ)) (name : Str) : Except InterceptErr ℝ :=
  let scaled : ℝ → ℝ := fun base => if dget c.agg name = some .sum then (c.period : ℝ) * base else base
  match dget c.obsEqs name with
  | some eq => .ok (scaled eq.intercept)
  | none =>
    if name ∈ c.ssObs then
      match dget ss name with
      | none => .error (.noSteadyState name)
      | some v => .ok (scaled (if name ∈ c.loglin then Real.log v else v))
    else .ok 0

/-- `_make_obs_intercept` (statespace.py:334-388); only used when there is something to put in (statespace.py:788), zero otherwise -/
noncomputable def obsIntercept (c : SSCfg) (ss : List (Str × ℝ)) : Except InterceptErr (List ℝ) :=
  if c.ssObs = [] ∧ c.obsEqs = [] then .ok (c.observed.map fun _ => 0) else c.observed.mapM (c.interceptEntry ss)

/-- the names of the hidden states in the order of their slots (statespace.py:573-591, 1092-1098) -/
def stateNames (c : SSCfg) : List Str :=
  c.vars ++ (c.cumVars.flatMap fun v => (List.range' 1 (c.period - 1)).map fun l => v ++ "_cumulator_lag".toList ++ natStr l) ++
    c.depths.flatMap fun p => (List.range' 1 p.2).map fun k => p.1 ++ "_obs_lag".toList ++ natStr k

end SSCfg

/-! ## `configure` -/

/-- the refusals of `configure`, in the order of the checks (statespace.py:903-1002) -/
inductive CfgErr where
  | unknownObserved (names : List Str)
  | unobservedError (names : List Str)
  | unobservedAgg (names : List Str)
  | badMethod (names : List Str)
  | badPeriod
  | unobservedIntercept (names : List Str)
  | unknownIntercept (names : List Str)
  | unobservedEquation (names : List Str)
  | overlap (names : List Str)
  | unknownConstant (names : List Str)
  | badSolver
  | singular (kEndog df : ℕ)
  | badEquation
  deriving DecidableEq

/-- `VALID_AGGREGATIONS` (statespace.py:47) -/
def aggOfStr (s : Str) : Option Agg :=
  if s = "sum".toList then some .sum else if s = "mean".toList then some .mean
  else if s = "first".toList then some .first else if s = "last".toList then some .last else none

/-- `VALID_SOLVERS` (statespace.py:46) -/
def validSolvers : List Str := ["gensys".toList, "cycle_reduction".toList, "scan_cycle_reduction".toList, "backward_direct".toList]

/-- `constant_params` -/
inductive ConstArg where
  | none
  | auto
  | names (l : List Str)

/-- the arguments of `configure` used here; observation equations are given by what parsing and linearising them yields (`none`: it
raised). An omitted optional argument is the empty list. -/
structure CfgArgs where
  observed : List Str
  measurementError : List Str := []
  constantParams : ConstArg := .none
  agg : List (Str × Str) := []
  period : Int := 4
  ssObs : List Str := []
  obsEqs : List (Str × Option ObsEq) := []
  solver : Str := "gensys".toList

/-- the part of the statespace object `configure` reads -/
structure SSObj where
  vars : List Str
  shocks : List Str
  inputParams : List Str
  priorNames : List Str
  loglin : List Str := []
  /-- `self.state_names`: the hidden states of the current configuration -/
  stateNames : List Str

/-- a configured model -/
structure Configured where
  cfg : SSCfg
  errorStates : List Str
  constants : List Str

/-- raise `e` when the list of offenders is not empty -/
def refuse (bad : List Str) (e : List Str → CfgErr) : Except CfgErr Unit := if bad = [] then .ok () else .error (e bad)

/-- raise `e` when the condition holds -/
def refuseIf (b : Bool) (e : CfgErr) : Except CfgErr Unit := if b then .error e else .ok ()

/-- `constant_params` (statespace.py:975-987) -/
def constantsOf (o : SSObj) : ConstArg → Except CfgErr (List Str)
  | .none => .ok []
  | .auto => .ok (o.inputParams.filter fun x => decide (x ∉ o.priorNames))
  | .names l => do
    refuse (l.filter fun x => decide (x ∉ o.inputParams)) .unknownConstant
    pure l

/-- `DSGEStateSpace.configure` (statespace.py:822-1090), what it accepts and stores -/
def configure (o : SSObj) (a : CfgArgs) : Except CfgErr Configured := do
  refuse (a.observed.filter fun x => decide (x ∉ o.stateNames) && decide (x ∉ dkeys a.obsEqs)) .unknownObserved
  refuse (a.measurementError.filter fun x => decide (x ∉ a.observed)) .unobservedError
  refuse ((dkeys a.agg).filter fun x => decide (x ∉ a.observed)) .unobservedAgg
  refuse ((a.agg.filter fun p => (aggOfStr p.2).isNone).map Prod.fst) .badMethod
  let agg : List (Str × Agg) := a.agg.filterMap fun p => (aggOfStr p.2).map fun m => (p.1, m)
  refuseIf (agg.any (fun p => p.2.cumulates) && decide (a.period < 2)) .badPeriod
  refuse (a.ssObs.filter fun x => decide (x ∉ a.observed)) .unobservedIntercept
  refuse (a.ssObs.filter fun x => decide (x ∉ o.vars)) .unknownIntercept
  refuse ((dkeys a.obsEqs).filter fun x => decide (x ∉ a.observed)) .unobservedEquation
  refuse ((dkeys a.obsEqs).filter fun x => decide (x ∈ a.ssObs)) .overlap
  let constants ← constantsOf o a.constantParams
  refuseIf (decide (a.solver ∉ validSolvers)) .badSolver
  refuseIf (decide (a.measurementError.length + o.shocks.length < a.observed.length))
    (.singular a.observed.length (a.measurementError.length + o.shocks.length))
  match a.obsEqs.mapM (fun p => p.2.map fun e => (p.1, e)) with
  | none => .error .badEquation
  | some eqs => .ok (
    { cfg := { vars := o.vars, observed := a.observed, agg := agg, period := a.period.toNat, obsEqs := eqs, ssObs := a.ssObs, loglin := o.loglin }
      errorStates := a.measurementError, constants := constants })

/-- the object after `configure` returned: its hidden states are those of the new configuration -/
def Configured.obj (o : SSObj) (r : Configured) : SSObj := { o with stateNames := r.cfg.stateNames }

/-- `ssm["obs_cov"]` (statespace.py:800-810): the variances are put on the diagonal from position 0, in the order of `error_states` -/
def obsCov (errorStates : List Str) (sigma : Str → ℝ) : NMat := fun i j =>
  if i = j then ((errorStates[i]?).map fun s => sigma s ^ 2).getD 0 else 0

/-- `ssm["state_cov"]` without full covariance (statespace.py:252-258) -/
def stateCov (shocks : List Str) (sigma : Str → ℝ) : NMat := fun i j =>
  if i = j then ((shocks[i]?).map fun s => sigma s ^ 2).getD 0 else 0

/-- `set_parameters` (statespace.py:1100-1124): the names of the parameters a PyMC model must supply -/
def paramNames (o : SSObj) (fullCov : Bool) (r : Configured) : List Str :=
  o.inputParams.filter (fun x => decide (x ∉ r.constants)) ++
  (if fullCov then ["state_cov".toList] else o.shocks.map fun s => "sigma_".toList ++ s) ++
  r.errorStates.map fun s => "error_sigma_".toList ++ s

/-! ## Observation equations -/

/-- the checks of `_parse_observation_equation` (statespace.py:422-443) on the symbols of the parsed expression -/
def obsSymOk (vars params : List Str) : Sym → Bool
  | .tv s => match s.idx with
    | .ss => true
    | .t k => decide (k ≤ 0) && decide (s.base ∈ vars)
  | .par n => decide (n ∈ params)

/-- `_parse_observation_equation` after parsing (statespace.py:390-444) -/
def checkObsEq (vars params : List Str) (e : SExpr) : Option SExpr := if e.syms.all (obsSymOk vars params) then some e else none

/-- `_tilde_{vname}_{lag_tag}` (statespace.py:490-491) -/
def tildeName (v : Str) (lag : Int) : Str :=
  "_tilde_".toList ++ v ++ ['_'] ++ (if lag = 0 then ['0'] else 'm' :: natStr lag.natAbs)

/-- `appearing` (statespace.py:478-482); a Python set, listed here in the order of the expression -/
def appearing (e : SExpr) : List (Str × Int) :=
  (e.tsyms.filterMap fun s => match s.idx with
    | .t k => some (s.base, k)
    | .ss => none).eraseDups

/-- one entry of `forward` (statespace.py:487-496) -/
def tildeForm (loglin : List Str) (v : TSym) (lag : Int) : SExpr :=
  let ss : SExpr := .sym (.tv { v with idx := .ss })
  let tilde : SExpr := .sym (.par (tildeName v.base lag))
  if v.base ∈ loglin then .mul ss (.exp tilde) else .add ss tilde

/-- `forward` (statespace.py:484-496); `none` is a KeyError of `var_by_name` -/
def forwardDict (vars : List TSym) (loglin : List Str) (e : SExpr) : Option (List (Sym × SExpr)) :=
  (appearing e).mapM fun k => (vars.find? fun v => v.base = k.1).map fun v => (Sym.tv { v with idx := .t k.2 }, tildeForm loglin v k.2)

/-- simultaneous replacement (`xreplace`) -/
def SExpr.xreplace (e : SExpr) (d : List (Sym × SExpr)) : SExpr := e.replace fun s => (dget d s).getD (.sym s)

/-- `_linearize_observation_equation` (statespace.py:446-507) -/
def linearizeObs (vars : List TSym) (loglin : List Str) (e : SExpr) : Option (SExpr × List ((Str × Int) × SExpr)) := do
  let fwd ← forwardDict vars loglin e
  let g := e.xreplace fwd
  let zeros : List (Sym × SExpr) := (appearing e).map fun k => (Sym.par (tildeName k.1 k.2), .num 0)
  pure (g.xreplace zeros, (appearing e).map fun k => (k, (g.diff (.par (tildeName k.1 k.2))).xreplace zeros))

/-- the linearised equation at given values of parameters and steady state (`_obs_eq_to_pytensor`, statespace.py:509-555, evaluated) -/
noncomputable def obsEqAt (env : Sym → ℝ) (l : SExpr × List ((Str × Int) × SExpr)) : ObsEq :=
  { intercept := l.1.eval env, coeffs := l.2.map fun kc => (kc.1, kc.2.eval env) }

/-! ## Policy matrices -/

/-- `M[:, p]` / `M[p]` for an index array -/
def NMat.cols (M : NMat) (p : ℕ → ℕ) : NMat := fun i j => M i (p j)
def NMat.rows (M : NMat) (p : ℕ → ℕ) : NMat := fun i j => M (p i) j

/-- product of arrays with inner size `n` -/
def NMat.dot (n : ℕ) (M N : NMat) : NMat := fun i j => ∑ k ∈ Finset.range n, M i k * N k j

/-- what `_setup_policy_matrices` (statespace.py:197-222) returns for the solver's `T` and `R`; `inv` is `argsort(var_order)`. The case
distinction of line 217 skips an identity reordering. -/
noncomputable def policyMatrices (n : ℕ) (A B C T R : NMat) (inv : ℕ → ℕ) : NMat × NMat × ℝ :=
  ((T.rows inv).cols inv, R.rows inv,
   ∑ i ∈ Finset.range n, ∑ j ∈ Finset.range n, (A i j + (B.dot n T) i j + ((C.dot n T).dot n T) i j) ^ 2)

/-- `deterministic_norm` and `stochastic_norm` of `build_statespace_graph` (statespace.py:1181-1204), squared: `A`, `B`, `C` have the
solver's column order, `T`, `R` and the mask the user's -/
noncomputable def normCheck (n nState m : ℕ) (A B C D T R : NMat) (state : ℕ → ℕ) : ℝ × ℝ :=
  let P := (T.rows state).cols state
  let Q := R.rows state
  let A' := A.cols state
  let R' := T.cols state
  (∑ i ∈ Finset.range n, ∑ j ∈ Finset.range nState, (A' i j + (B.dot n R') i j + ((C.dot n R').dot nState P) i j) ^ 2,
   ∑ i ∈ Finset.range n, ∑ j ∈ Finset.range m, ((B.dot n R) i j + ((C.dot n R').dot nState Q) i j + D i j) ^ 2)

/-- the potentials of `build_statespace_graph` (statespace.py:1206-1215): added to the log-density, `none` stands for minus infinity -/
noncomputable def potentials (addBK addSuccess : Bool) (bkSatisfied : Bool) (resid solverTol : ℝ) : Option ℝ :=
  open Classical in
  if (addBK && !bkSatisfied) || (addSuccess && !decide (resid < solverTol)) then none else some 0

/-! ## `sample_autocorrelation_matrices` (statespace.py:1217-1303) -/

open Matrix in
/-- `T_step` (statespace.py:1276-1278) -/
def stepPower {n : ℕ} (T : Mat n n) (lagStep : ℕ) : Mat n n := (List.range (lagStep - 1)).foldl (fun S _ => S * T) T

open Matrix in
/-- `T_powers` (statespace.py:1279-1287): the identity followed by the scan `prev @ mat` -/
def stepPowers {n : ℕ} (T : Mat n n) (lagStep : ℕ) : ℕ → Mat n n
  | 0 => 1
  | k + 1 => stepPowers T lagStep k * stepPower T lagStep

open Matrix in
/-- the latent autocorrelations (statespace.py:1292-1298, `observed=False`) -/
noncomputable def acfStates {n : ℕ} (T Sigma : Mat n n) (lagStep nLags : ℕ) : List (Mat n n) :=
  (List.range (nLags + 1)).map fun k =>
    let cov := if k = 0 then Sigma else stepPowers T lagStep k * Sigma
    Matrix.of fun i j => cov i j / (Real.sqrt (Sigma i i) * Real.sqrt (Sigma j j))

open Matrix in
/-- the observed autocorrelations (statespace.py:1289-1298, `observed=True`) -/
noncomputable def acfObserved {n p : ℕ} (T Sigma : Mat n n) (Z : Mat p n) (H : Mat p p) (lagStep nLags : ℕ) : List (Mat p p) :=
  let cov0 := Z * Sigma * Zᵀ + H
  (List.range (nLags + 1)).map fun k =>
    let cov := if k = 0 then cov0 else (Z * (stepPowers T lagStep k * Sigma)) * Zᵀ
    Matrix.of fun i j => cov i j / (Real.sqrt (cov0 i i) * Real.sqrt (cov0 j j))

/-! ## `prepare_mixed_frequency_data` (statespace.py:1432-1505) -/

/-- the expanded table: high-frequency dates with the low-frequency row observed there, if any. `grid` is `pd.date_range(start=first_date,
periods=..., freq=high_freq)`; dates are integers (days). Rows of the table are the values of type `α`. -/
def placeRows {α : Type} (grid : List Int) (period posIdx : ℕ) (rows : List (Int × α)) : List (Int × Option α) :=
  rows.foldl (fun res r =>
    match ((grid.filter fun d => decide (r.1 ≤ d)).take period)[posIdx]? with
    | none => res
    | some d => res.map fun q => if q.1 = d then (d, some r.2) else q) (grid.map fun d => (d, none))

/-- `result.loc[:result.last_valid_index()]` (statespace.py:1499-1502); a row is valid here when an observation was placed on it -/
def trimTail {α : Type} (l : List (Int × Option α)) : List (Int × Option α) :=
  if l.all (fun q => q.2.isNone) then l else (l.reverse.dropWhile fun q => q.2.isNone).reverse

/-- `prepare_mixed_frequency_data` (statespace.py:1432-1505); `dateRange start n` is pandas' `date_range` for the chosen frequency -/
def prepareMixed {α : Type} (dateRange : Int → ℕ → List Int) (rows : List (Int × α)) (period : ℕ) (last : Bool) : Option (List (Int × Option α)) :=
  match (rows.map Prod.fst).min? with
  | none => none
  | some first => some (trimTail (placeRows (dateRange first (rows.length * period)) period (if last then period - 1 else 0) rows))

end GE
