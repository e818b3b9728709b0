import Verif.Model.SteadyState
import Verif.Model.PerfectForesight
import Verif.Model.ParserMisc
import Mathlib.Analysis.SpecialFunctions.Exp
import Mathlib.Analysis.SpecialFunctions.Log.Basic
/-!
# `Model.steady_state` and its helpers (`gEconpy/model/model.py`)

Numbers are `Num`: a real number, or NaN (and the infinities, which behave the same in every comparison made here). Rounding is not
modelled. Evaluating a compiled graph is the arbitrary function `nv`, the optimizers of scipy are the arbitrary function `solve`.
-/

namespace GE

/-- a floating point number: exact, or NaN -/
abbrev Num := Option ℝ

/-! ## Bounds and transforms -/

/-- `(lower, upper)`, either may be missing -/
abbrev Bound := Option Rat × Option Rat

/-- `"negative"` -/
def negativeStr : Str := ['n','e','g','a','t','i','v','e']

/-- `assumptions.get(name, False)`; what sympy deduces from other assumptions a GCN file may make does not concern these names -/
def Asm.has (a : Asm) (name : Str) : Bool := dget a name = some true

/-- `infer_variable_bounds` (model/model.py:60-67) -/
def inferBounds (a : Asm) : Bound :=
  (if a.has positiveStr then some (1 / 100000000) else none, if a.has negativeStr then some (-1 / 100000000) else none)

/-- the PyMC transforms used by the package -/
inductive Transform where
  | interval (lo hi : Option Rat)
  | logodds
  | log
  deriving DecidableEq, Repr

/-- `infer_variable_transform` (model/model.py:70-102) -/
def inferTransform (a : Asm) (userBound : Option Bound) : Option Transform :=
  match userBound with
  | some (some lo, hi) => some (.interval (some lo) hi)
  | some (none, some hi) => some (.interval none (some hi))
  | _ =>
    if a.has unitInterval then some .logodds
    else if a.has positiveStr then some .log
    else if a.has negativeStr then some (.interval none (some 0))
    else none

/-- `1 / (1 + exp(-y))`, as a graph -/
def sigmoidExpr (y : SExpr) : SExpr := .pow (.add (.num 1) (.exp (.neg y))) (.num (-1))

/-- `transform.backward(y)` (pymc `Interval`, `LogTransform`, `LogOddsTransform`), `y` itself without a transform
(model/model.py:140); PyMC is not in /repo, the formulas are those it documents -/
def backwardExpr (t : Option Transform) (y : SExpr) : SExpr :=
  match t with
  | none => y
  | some .log => .exp y
  | some .logodds => sigmoidExpr y
  | some (.interval none none) => y
  | some (.interval (some lo) none) => .add (.exp y) (.num lo)
  | some (.interval none (some hi)) => .sub (.num hi) (.exp y)
  | some (.interval (some lo) (some hi)) =>
    .add (.mul (sigmoidExpr y) (.num hi)) (.mul (.sub (.num 1) (sigmoidExpr y)) (.num lo))

/-- `transform.forward(x)` (pymc), NaN or infinite outside the open region -/
noncomputable def forwardNum (t : Option Transform) (x : ℝ) : Num :=
  open Classical in
  match t with
  | none => some x
  | some .log => if 0 < x then some (Real.log x) else none
  | some .logodds => if 0 < x ∧ x < 1 then some (Real.log x - Real.log (1 - x)) else none
  | some (.interval none none) => some x
  | some (.interval (some lo) none) => if (lo : ℝ) < x then some (Real.log (x - lo)) else none
  | some (.interval none (some hi)) => if x < hi then some (Real.log (hi - x)) else none
  | some (.interval (some lo) (some hi)) =>
    if (lo : ℝ) < x ∧ x < hi then some (Real.log (x - lo) - Real.log (hi - x)) else none

/-- value of an expression for given values of its symbols, in exact real arithmetic -/
noncomputable def SExpr.eval (env : Sym → ℝ) : SExpr → ℝ
  | .num q => q
  | .sym s => env s
  | .add a b => a.eval env + b.eval env
  | .mul a b => a.eval env * b.eval env
  | .pow a b => a.eval env ^ b.eval env
  | .exp a => Real.exp (a.eval env)
  | .log a => Real.log (a.eval env)

/-- `transform_steady_state_system` (model/model.py:105-156), the rewritten equations: `clone_replace` replaces all nodes at once. The
fresh inputs carry the names of the variables they replace (line 137), so they are written with the same symbol. -/
def transformEquations (eqs : List SExpr) (nodes : List Sym) (ts : List (Option Transform)) : List SExpr :=
  let repl := dupdate [] (nodes.zip ts)
  eqs.map fun e => e.replace fun s => match dget repl s with
    | some t => backwardExpr t (.sym s)
    | none => .sym s

/-- `to_constrained` (model/model.py:149-150) -/
noncomputable def toConstrained (ts : List (Option Transform)) (y : List ℝ) : List ℝ :=
  List.zipWith (fun t v => (backwardExpr t (.sym (.par []))).eval fun _ => v) ts y

/-- `to_unconstrained` (model/model.py:152-153) -/
noncomputable def toUnconstrained (ts : List (Option Transform)) (x : List ℝ) : List Num := List.zipWith forwardNum ts x

/-- the name of a symbol in compiled functions (`x.name`) -/
def symName : Sym → Str
  | .tv s => createName s
  | .par n => n

/-- the assumptions of a variable to solve for: a `TimeAwareSymbol` carries its own, those of a calibrated parameter are given -/
def asmOf (parAsm : Str → Asm) : Sym → Asm
  | .tv s => s.asm
  | .par n => parAsm n

/-- `bound_dict` (model/model.py:1268-1270): bounds from the assumptions, overwritten by the user's, by the name of the symbol -/
def boundDict (parAsm : Str → Asm) (vars : List Sym) (user : List (Str × Bound)) : List (Str × Bound) :=
  dupdate (dupdate [] (vars.map fun v => (symName v, inferBounds (asmOf parAsm v)))) user

/-- the methods for which `_solve_steady_state_with_minimize` may use box constraints (model/model.py:1278) -/
def boxMethods : List Str := ["trust-constr".toList, "L-BFGS-B".toList, "powell".toList]

/-- how bounds are imposed by `_solve_steady_state_with_minimize` (model/model.py:1277-1290): box constraints for scipy, or one
transform per variable; and the method used -/
inductive BoundPlan where
  | box (method : Str) (bounds : List Bound)
  | transformed (method : Str) (ts : List (Option Transform))

/-- the choice made in model/model.py:1268-1290 -/
def boundPlan (parAsm : Str → Asm) (vars : List Sym) (user : List (Str × Bound)) (preferTransform : Bool) (method : Option Str) :
    BoundPlan :=
  let d := boundDict parAsm vars user
  match method with
  | some m =>
    if !preferTransform && decide (m ∈ boxMethods) then .box m (vars.map fun v => (dget d (symName v)).getD (none, none))
    else .transformed m (vars.map fun v => inferTransform (asmOf parAsm v) (some ((dget d (symName v)).getD (none, none))))
  | none => .transformed "trust-ncg".toList (vars.map fun v => inferTransform (asmOf parAsm v) (some ((dget d (symName v)).getD (none, none))))

/-- the point `_solve_steady_state_with_minimize` reports (model/model.py:1324-1341): what the optimizer returns, mapped back -/
noncomputable def minimizePoint (plan : BoundPlan) (optimum : List ℝ) : List ℝ :=
  match plan with
  | .box _ _ => optimum
  | .transformed _ ts => toConstrained ts optimum

/-- `_initialize_x0` (model/model.py:159-173) without jitter; a variable is `(name, negative?)` -/
def initialX0 (x0 : Option (List Rat)) (vars : List Asm) : List Rat :=
  match x0 with
  | some x => x
  | none => vars.map fun a => if a.has negativeStr then -(8 / 10) else 8 / 10

/-! ## Names -/

/-- `Model.get` raises IndexError, with a suggestion when there is a close match, or AttributeError (a parameter has no steady state) -/
inductive GetErr where
  | notFound (suggestion : Str)
  | indexOutOfRange
  | noSteadyState
  deriving DecidableEq, Repr

/-- a `Model`, as far as its steady state is concerned (model/model.py:258-348): `calib` is `calib_dict.to_sympy()`, `ssSol` is
`ss_solution_dict.to_sympy()` -/
structure SSModel where
  vars : List TSym
  shocks : List TSym := []
  params : ParamModel Num
  calib : List (Sym × SExpr) := []
  ssEqs : List SExpr
  ssSol : List (Sym × SExpr) := []
  linear : Bool := false

/-- `get_name(x, base_name=True)` (utilities.py:238-262) -/
def baseOf : Sym → Str
  | .tv s => s.base
  | .par n => n

/-- `_all_names_to_symbols` (model/model.py:325-328) -/
def SSModel.names (m : SSModel) : List (Str × Sym) :=
  dupdate [] ((m.vars.map Sym.tv ++ (dkeys m.params.free).map Sym.par ++ dkeys m.calib ++ (dkeys m.params.det).map Sym.par
    ++ m.shocks.map Sym.tv).map fun s => (baseOf s, s))

/-- `Model.get` (model/model.py:771-796); `close` is `difflib.get_close_matches(..., n=1)` -/
def SSModel.get (m : SSModel) (close : Str → List Str → List Str) (name : Str) : Except GetErr Sym :=
  let requested := ssSuffix.isSuffixOf name
  let name := removeSuffixSS name
  match dget m.names name with
  | none =>
    match close name (dkeys m.names) with
    | c :: _ => .error (.notFound c)
    | [] => .error .indexOutOfRange
  | some s =>
    if requested then
      match s with
      | .tv v => .ok (.tv (toSS v))
      | .par _ => .error .noSteadyState
    else .ok s

/-- the exceptions of `Model.steady_state` -/
inductive SSErr where
  | unknownParams (names : List Str)
  | providedTwice (names : List Str)
  | unknownFixed (names : List Str)
  | get (e : GetErr)
  | invalidFixed (eqs : List Nat)
  | missingInput
  | duplicateKeyword
  | missingKey (s : Sym)
  | emptyResidual
  | notSquare (nVars nEqs : Nat)
  | notImplemented
  deriving DecidableEq, Repr

/-- `_validate_provided_steady_state_variables` (model/model.py:798-821). The set difference is listed in the order given. -/
def SSModel.validateFixed (m : SSModel) (given : List Str) : Except SSErr Unit :=
  let normed := given.map removeSuffixSS
  let duplicates := normed.filter fun x => 1 < normed.count x
  if duplicates.isEmpty then
    let unknown := normed.filter fun x => x ∉ m.vars.map TSym.base
    if unknown.isEmpty then .ok () else .error (.unknownFixed unknown)
  else .error (.providedTwice duplicates)

/-! ## Evaluating residuals -/

/-- evaluation of compiled graphs: value of an expression for given values of its inputs -/
abbrev NumEval := SExpr → (Sym → Num) → Num

/-- `f(**a, **b)`: TypeError when a keyword occurs twice -/
def kwMerge (a b : List (Str × Num)) : Except SSErr (List (Str × Num)) :=
  if (dkeys a).any (fun k => k ∈ dkeys b) then .error .duplicateKeyword else .ok (a ++ b)

/-- `compile_for_scipy` (model/compile.py:381-399) applied to keyword arguments: unused ones are ignored, a missing one raises; `pt.stack`
of no equations raises as well -/
def evalResid (nv : NumEval) (eqs : List SExpr) (env : List (Str × Num)) : Except SSErr (List Num) :=
  if eqs.isEmpty then .error .emptyResidual
  else if eqs.all fun e => e.syms.all fun s => symName s ∈ dkeys env then
    .ok (eqs.map fun e => nv e fun s => (dget env (symName s)).getD none)
  else .error .missingInput

/-- `np.allclose(residual, 0.0, atol=1e-8)` -/
noncomputable def allClose (r : List Num) : Bool :=
  open Classical in r.all fun x => match x with | some v => decide (|v| ≤ 1 / 100000000) | none => false

/-- `abs(val) > 1e-8` -/
noncomputable def isBad (x : Num) : Bool :=
  open Classical in match x with | some v => decide (1 / 100000000 < |v|) | none => false

/-- all equations of the steady-state system, `equation_tensors()` (model/model.py:499-525): steady-state and calibrating equations -/
def SSModel.equations (m : SSModel) : List SExpr := ssResidual m.ssEqs [] m.vars m.calib

/-- the steady-state variables and calibrated parameters -/
def SSModel.ssVars (m : SSModel) : List Sym := (m.vars.map fun v => Sym.tv (toSS v)) ++ dkeys m.calib

/-- `self.parameters(**updates)` (model/model.py:738-769) -/
def SSModel.parameters (m : SSModel) (updates : List (Str × Num)) : Except SSErr (List (Str × Num)) :=
  match m.params.parameters updates with
  | .ok p => .ok p
  | .error n => .error (.unknownParams n)

/-- `self.f_ss(**param_dict)` (model/model.py:480-497, steady_state.py:313-356): the known values at these parameters. The compilation fails
when a known value mentions anything but free and deterministic parameters. -/
def SSModel.known (m : SSModel) (nv : NumEval) (pd : List (Str × Num)) : Except SSErr (Option (List (Sym × Num))) :=
  match knownSS m.ssSol (m.vars.map Sym.tv) with
  | none => .ok none
  | some out =>
    if out.all fun p => p.2.syms.all fun s => match s with | .par n => n ∈ dkeys pd | .tv _ => false then
      .ok (some (out.map fun p => (p.1, nv p.2 fun s => (dget pd (symName s)).getD none)))
    else .error .missingInput

/-- the result: named values and the flag -/
structure SSRes where
  values : List (Str × Num)
  success : Bool

/-- `SteadyStateResults(d).to_string()` -/
def toNames (d : List (Sym × Num)) : List (Str × Num) := dupdate [] (d.map fun p => (symName p.1, p.2))

/-- `_linear_steady_state` (model/model.py:823-827) -/
def SSModel.linearResult (m : SSModel) : SSRes :=
  { values := toNames (m.vars.map fun v => (.tv (toSS v), some 0)), success := true }

/-- `_try_analytic_steady_state` (model/model.py:829-852) -/
noncomputable def SSModel.tryAnalytic (m : SSModel) (nv : NumEval) (pd : List (Str × Num)) (known : Option (List (Sym × Num))) :
    Except SSErr (Option SSRes) :=
  match known with
  | none => .ok none
  | some ss =>
    if ss.length ≠ m.vars.length then .ok none
    else do
      let env ← kwMerge (toNames ss) pd
      let r ← evalResid nv m.equations env
      return some { values := toNames ss, success := allClose r }

/-- `[get(k) for k in fixed_values]`, moved to the steady state -/
def SSModel.fixedSyms (m : SSModel) (close : Str → List Str → List Str) : List (Str × Rat) → Except SSErr (List (Sym × Rat))
  | [] => .ok []
  | (n, v) :: l =>
    match m.get close n with
    | .error e => .error (.get e)
    | .ok s => do
      let r ← m.fixedSyms close l
      return (safeToSS s, v) :: r

/-- the values known without solving: analytic ones, overwritten by the fixed ones (model/model.py:861-863, 888-890) -/
def providedValues (known : Option (List (Sym × Num))) (fixed : List (Sym × Rat)) : List (Sym × Num) :=
  dupdate (known.getD []) (fixed.map fun p => (p.1, some (p.2 : ℝ)))

/-- looking up the result for every steady-state variable and calibrated parameter; KeyError when one is missing -/
def collect (d : List (Sym × Num)) : List Sym → Except SSErr (List (Sym × Num))
  | [] => .ok []
  | s :: l =>
    match dget d s with
    | none => .error (.missingKey s)
    | some v => do
      let r ← collect d l
      return (s, v) :: r

/-- `_evaluate_all_resolved` (model/model.py:854-873); `str(k)` of a symbol is its name -/
noncomputable def SSModel.allResolved (m : SSModel) (nv : NumEval) (pd : List (Str × Num)) (known : Option (List (Sym × Num)))
    (fixed : List (Sym × Rat)) : Except SSErr SSRes := do
  let provided := providedValues known fixed
  let env ← kwMerge (toNames provided) pd
  let r ← evalResid nv m.equations env
  let out ← collect provided m.ssVars
  return { values := toNames out, success := allClose r }

/-- `numeric_success` (utilities.py:195-205): NaN is never below the tolerance -/
noncomputable def numericSuccess (tol : ℝ) (resid grad : List Num) : Bool :=
  open Classical in
  match resid.mapM id, grad.mapM id with
  | some r, some g =>
    decide ((r.map fun x => x ^ 2).sum < tol) && decide ((r.map fun x => |x|).foldr max 0 < tol)
      && decide (Real.sqrt (g.map fun x => x ^ 2).sum < tol) && decide ((g.map fun x => |x|).foldr max 0 < tol)
  | _, _ => false

/-- the optimizer (`solve`: point and `res.success`) and the gradient it is checked with -/
structure SSSolver where
  solve : List SExpr → List Sym → List (Str × Num) → (Nat → Num) × Bool
  grad : List SExpr → List Sym → List (Str × Num) → List Num

/-- `_postprocess_numerical_result` and `postprocess_optimizer_res` (model/model.py:875-927, utilities.py:185-235) -/
noncomputable def SSModel.postprocess (m : SSModel) (nv : NumEval) (s : SSSolver) (tol : ℝ) (eqs : List SExpr) (toSolve : List Sym)
    (pd : List (Str × Num)) (known : Option (List (Sym × Num))) (fixed : List (Sym × Rat)) : Except SSErr SSRes := do
  let res := s.solve eqs toSolve pd
  let optimum := (toSolve.zipIdx).map fun p => (p.1, res.1 p.2)
  let out ← collect (dupdate (dupdate [] optimum) (providedValues known fixed)) m.ssVars
  let env ← kwMerge (toNames out) pd
  let r ← evalResid nv eqs env
  return { values := toNames out, success := res.2 || numericSuccess tol r (s.grad eqs toSolve env) }

/-- `_validate_fixed_value_equations` (model/model.py:1134-1183): equations without an input that is not fixed are evaluated -/
noncomputable def SSModel.validateEquations (m : SSModel) (nv : NumEval) (fixed : List (Sym × Rat)) (pd : List (Str × Num)) :
    Except SSErr Unit :=
  let kw := toNames (fixed.map fun p => (p.1, some (p.2 : ℝ)))
  let nonFixed := m.ssVars.filter fun s => symName s ∉ dkeys kw
  let determined := (m.equations.zipIdx).filter fun p => p.1.syms.all fun s => s ∉ nonFixed
  if determined.isEmpty then .ok ()
  else do
    let r ← evalResid nv (determined.map Prod.fst) (dupdate kw pd)
    let bad := ((determined.map Prod.snd).zip r).filter fun p => isBad p.2
    if bad.isEmpty then .ok () else .error (.invalidFixed (bad.map Prod.fst))

/-- `how` -/
inductive How where
  | analytic | root | minimize | other
  deriving DecidableEq, Repr

/-- the system to solve: its equations and its unknowns; without fixed values `equation_tensors(filter_known=True)` and `_vars_to_solve`
(model/model.py:532-539, 1041-1043), else `_build_resid_with_fixed_values` (model/model.py:1097-1132) -/
def SSModel.system (m : SSModel) (fixed : List (Sym × Rat)) : List SExpr × List Sym :=
  let merged := dupdate m.ssSol (fixed.map fun p => (p.1, SExpr.num p.2))
  let names := (dkeys merged).map fun k => symName (safeToSS k)
  (ssResidual m.ssEqs merged m.vars m.calib, m.ssVars.filter fun s => symName s ∉ names)

/-- solving numerically (model/model.py:1045-1095) -/
noncomputable def SSModel.solveNumerically (m : SSModel) (nv : NumEval) (root minimize : SSSolver) (tol : ℝ) (how : How)
    (pd : List (Str × Num)) (known : Option (List (Sym × Num))) (fixed : List (Sym × Rat)) : Except SSErr SSRes :=
  let eqs := (m.system fixed).1
  let toSolve := (m.system fixed).2
  if toSolve.isEmpty then m.allResolved nv pd known fixed
  else
    match how with
    | .root =>
      if eqs.length ≠ toSolve.length then .error (.notSquare toSolve.length eqs.length)
      else m.postprocess nv root tol eqs toSolve pd known fixed
    | .analytic | .minimize => m.postprocess nv minimize tol eqs toSolve pd known fixed
    | .other => .error .notImplemented

/-- `Model.steady_state` (model/model.py:929-1095) -/
noncomputable def SSModel.steadyState (m : SSModel) (nv : NumEval) (close : Str → List Str → List Str) (root minimize : SSSolver) (tol : ℝ)
    (how : How) (fixed : Option (List (Str × Rat))) (updates : List (Str × Num)) : Except SSErr SSRes := do
  let pd ← m.parameters updates
  let known ← m.known nv pd
  if m.linear then .ok m.linearResult
  else
    match fixed with
    | none =>
      match ← m.tryAnalytic nv pd known with
      | some r => .ok r
      | none => m.solveNumerically nv root minimize tol how pd known []
    | some f => do
      m.validateFixed (dkeys f)
      let fs ← m.fixedSyms close f
      m.validateEquations nv fs pd
      m.solveNumerically nv root minimize tol how pd known fs

/-! ## Packing variables into a vector -/

/-- `pack_and_compile` (model/compile.py:402-475): the compiled function of the flat vector, for graphs `G` with inputs `syms` evaluated by `ev`.
`ssNodes` are the steady-state inputs in order; `params` are the frozen parameter values. `none` is a KeyError of a missing parameter (a
TypeError when no steady-state input occurs at all). -/
def packGraph {G V W : Type} (syms : G → List Sym) (ev : G → (Sym → V) → W) (missing : V) (outputs : List G) (ssNodes : List Sym)
    (params : List (Str × V)) (x : Nat → V) : Option (List W) :=
  let inputs := outputs.flatMap syms
  let active := ssNodes.filter fun n => n ∈ inputs
  let needSlice : Bool := active.length ≠ ssNodes.length
  let activeIndices := (ssNodes.zipIdx).filterMap fun p => if p.1 ∈ inputs then some p.2 else none
  let xs : List V := if needSlice then activeIndices.map x else (List.range ssNodes.length).map x
  let paramInputs := inputs.filter fun s => s ∉ active
  if paramInputs.all fun s => symName s ∈ dkeys params then
    some (outputs.map fun e => ev e fun s => match dget (active.zip xs) s with
      | some v => v
      | none => (dget params (symName s)).getD missing)
  else none

/-- `pack_and_compile` (model/compile.py:402-475) of equations, evaluated by `nv` -/
def packEval (nv : NumEval) (outputs : List SExpr) (ssNodes : List Sym) (params : List (Str × Num)) (x : Nat → Num) : Option (List Num) :=
  packGraph SExpr.syms nv none outputs ssNodes params x

end GE
