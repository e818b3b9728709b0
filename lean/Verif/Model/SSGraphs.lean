import Verif.Model.SSDriver
/-!
# The functions handed to scipy (`gEconpy/model/steady_state.py:44-311`, `gEconpy/model/model.py:1192-1341`)

A pytensor scalar is an equation (`SExpr`) or is made of equations by the operations `pt_error_from_resid` and pytensor's derivatives use.
`pt.grad` is pytensor's: the derivative rules are the ones of its operations. Numbers are exact reals.
-/

namespace GE

/-- a pytensor scalar graph; `dir i` is entry `i` of the input vector `hess_eval_point` (steady_state.py:305-308) -/
inductive TG where
  | s (e : SExpr)
  | add (a b : TG)
  | mul (a b : TG)
  | abs (a : TG)
  | sgn (a : TG)
  | sqrt (a : TG)
  | inv (a : TG)
  | dir (i : Nat)
  deriving DecidableEq

namespace TG

/-- the inputs of a graph (`explicit_graph_inputs`), with repetitions; without the direction -/
def syms : TG → List Sym
  | .s e => e.syms
  | .add a b => a.syms ++ b.syms
  | .mul a b => a.syms ++ b.syms
  | .abs a => a.syms
  | .sgn a => a.syms
  | .sqrt a => a.syms
  | .inv a => a.syms
  | .dir _ => []

/-- the value of a graph; a division by zero gives zero here, see `evalN` -/
noncomputable def eval (p : Nat → ℝ) (env : Sym → ℝ) : TG → ℝ
  | .s e => e.eval env
  | .add a b => a.eval p env + b.eval p env
  | .mul a b => a.eval p env * b.eval p env
  | .abs a => |a.eval p env|
  | .sgn a => SignType.sign (a.eval p env)
  | .sqrt a => Real.sqrt (a.eval p env)
  | .inv a => (a.eval p env)⁻¹
  | .dir i => p i

/-- the value of a graph in floating point: after a division by zero NaN or an infinity, which here are one thing -/
noncomputable def evalN (p : Nat → ℝ) (env : Sym → ℝ) : TG → Num
  | .s e => some (e.eval env)
  | .add a b => do return (← a.evalN p env) + (← b.evalN p env)
  | .mul a b => do return (← a.evalN p env) * (← b.evalN p env)
  | .abs a => do return |← a.evalN p env|
  | .sgn a => do return SignType.sign (← a.evalN p env)
  | .sqrt a => do return Real.sqrt (← a.evalN p env)
  | .inv a => (a.evalN p env).bind fun v => open Classical in if v = 0 then none else some v⁻¹
  | .dir i => some (p i)

/-- `pt.grad(a, x)` (pytensor): the chain rule; the derivative of `abs` is `sgn`, that of `sgn` is zero -/
def grad (x : Sym) : TG → TG
  | .s e => .s (e.diff x)
  | .add a b => .add (a.grad x) (b.grad x)
  | .mul a b => .add (.mul (a.grad x) b) (.mul a (b.grad x))
  | .abs a => .mul (.sgn a) (a.grad x)
  | .sgn _ => .s (.num 0)
  | .sqrt a => .mul (a.grad x) (.inv (.mul (.s (.num 2)) (.sqrt a)))
  | .inv a => .mul (a.grad x) (.mul (.s (.num (-1))) (.inv (.mul a a)))
  | .dir _ => .s (.num 0)

/-- `.sum()` of a vector -/
def sum (l : List TG) : TG := l.foldr .add (.s (.num 0))

end TG

/-- `pt_error_from_resid` (steady_state.py:44-73) as a graph; `none` is the NotImplementedError -/
def errorGraph (resid : List SExpr) : ErrFn → Option TG
  | .squared => some (TG.sum (resid.map fun r => .mul (.s r) (.s r)))
  | .meanSquared => some (.mul (TG.sum (resid.map fun r => .mul (.s r) (.s r))) (.inv (.s (.num resid.length))))
  | .abs => some (TG.sum (resid.map fun r => .abs (.s r)))
  | .l2norm => some (.sqrt (TG.sum (resid.map fun r => .mul (.s r) (.s r))))
  | .other => none

/-- `pt.stack(columns, axis=1)` of columns of length `n`: row `i` holds entry `i` of every column -/
def stackColumns {α : Type} (n : Nat) (columns : List (List α)) : List (List α) :=
  (List.range n).map fun i => columns.filterMap fun c => c[i]?

/-- what can go wrong while the graphs are built: pytensor's DisconnectedInputError names the inputs the graph does not depend on; `pt.stack`
of nothing; an unknown error function -/
inductive GraphErr where
  | disconnected (nodes : List Sym)
  | emptyStack
  | notImplemented
  deriving DecidableEq

/-- `pt_jacobian(outputs, nodes)` and `pt.grad` raise for an input no output depends on -/
def connected (outputs : List (List Sym)) (nodes : List Sym) : Except GraphErr Unit :=
  let bad := nodes.filter fun n => n ∉ outputs.flatten
  if bad = [] then .ok () else .error (.disconnected bad)

/-- `build_root_graphs` (steady_state.py:213-244): residuals and, if asked for, the Jacobian by rows -/
def buildRootGraphs (equations : List SExpr) (nodes : List Sym) (useJac : Bool) : Except GraphErr (List SExpr × Option (List (List SExpr))) :=
  if useJac then
    if equations ≠ [] ∧ nodes ≠ [] then
      match connected (equations.map SExpr.syms) nodes with
      | .error e => .error e
      | .ok () => .ok (equations, some (stackColumns equations.length (nodes.map fun x => equations.map (SExpr.diff x))))
    else .ok (equations, some (List.replicate equations.length (List.replicate nodes.length (.num 0))))
  else .ok (equations, none)

/-- the graphs of `build_minimize_graphs` -/
structure MinGraphs where
  error : TG
  grad : Option (List TG)
  hess : Option (List (List TG))
  hessp : Option (List TG)

/-- pytensor's `hessian_vector_product(error, nodes, [p[i] for i in range(len(nodes))])`: the gradient of the sum of gradient times direction -/
def hessianVectorProduct (error : TG) (nodes : List Sym) : List TG :=
  let g := TG.sum ((nodes.zipIdx).map fun x => .mul (error.grad x.1) (.dir x.2))
  nodes.map fun x => g.grad x

/-- `build_minimize_graphs` (steady_state.py:247-311) -/
def buildMinimizeGraphs (equations : List SExpr) (nodes : List Sym) (f : ErrFn) (useJac useHess useHessp : Bool) : Except GraphErr MinGraphs :=
  match errorGraph equations f with
  | none => .error .notImplemented
  | some error =>
    if useJac || useHess || useHessp then
      match connected [error.syms] nodes with
      | .error e => .error e
      | .ok () =>
        if nodes = [] then .error .emptyStack
        else
          let grad := nodes.map fun x => error.grad x
          match if useHess then connected (grad.map TG.syms) nodes else .ok () with
          | .error e => .error e
          | .ok () => .ok
            { error := error, grad := some grad
              hess := if useHess then some (stackColumns nodes.length (nodes.map fun x => grad.map fun g => g.grad x)) else none
              hessp := if useHessp then some (hessianVectorProduct error nodes) else none }
    else .ok { error := error, grad := none, hess := none, hessp := none }

/-- calling a vector graph compiled by `pack_and_compile` (model/compile.py:402-475) -/
noncomputable def callVector (nodes : List Sym) (params : List (Str × ℝ)) (g : List TG) (x : Nat → ℝ) : Option (List ℝ) :=
  (packGraph (fun g : List TG => g.flatMap TG.syms) (fun g env => g.map (TG.eval 0 env)) 0 [g] nodes params x).bind List.head?

/-- calling a matrix graph compiled by `pack_and_compile` -/
noncomputable def callMatrix (nodes : List Sym) (params : List (Str × ℝ)) (g : List (List TG)) (x : Nat → ℝ) : Option (List (List ℝ)) :=
  (packGraph (fun g : List (List TG) => g.flatten.flatMap TG.syms) (fun g env => g.map fun row => row.map (TG.eval 0 env)) 0 [g] nodes params x).bind
    List.head?

/-- calling a scalar graph compiled by `pack_and_compile` -/
noncomputable def callScalar (nodes : List Sym) (params : List (Str × ℝ)) (g : TG) (x : Nat → ℝ) : Option ℝ :=
  (packGraph TG.syms (fun g env => TG.eval 0 env g) 0 [g] nodes params x).bind List.head?

/-- `f_hessp(x, p)` (model/model.py:1320-1328): inputs by name, `f(**kw, **param_dict)`; a parameter named `hess_eval_point` is not modelled.
`none` is a TypeError: a keyword given twice, or missing. -/
noncomputable def callHessp (nodes : List Sym) (params : List (Str × ℝ)) (g : List TG) (x p : Nat → ℝ) : Option (List ℝ) :=
  let kw := dupdate [] ((nodes.map symName).zipIdx.map fun n => (n.1, x n.2))
  if (dkeys kw).any fun k => k ∈ dkeys params then none
  else if (g.flatMap TG.syms).all fun s => symName s ∈ dkeys (kw ++ params) then
    some (g.map (TG.eval p fun s => (dget (kw ++ params) (symName s)).getD 0))
  else none

/-- `optimizer_kwargs`, the keys the solvers look at; other keys are passed on and not modelled. `options` holds integers here. -/
structure OptKw where
  x0 : Option (List Rat) := none
  method : Option Str := none
  maxiter : Option Nat := none
  tol : Option Rat := none
  options : Option (List (Str × Nat)) := none

/-- the call of `better_optimize.root` (model/model.py:1233) -/
structure RootCall where
  f : (Nat → ℝ) → Option (List ℝ)
  x0 : List Rat
  jac : Option ((Nat → ℝ) → Option (List (List ℝ)))
  method : Str
  tol : Option Rat
  options : List (Str × Nat)

/-- `_solve_steady_state_with_root` (model/model.py:1192-1239) up to the call; `nodes` are the steady-state inputs of the unknowns, whose
assumptions are `asm`; without jitter -/
noncomputable def rootCall (equations : List SExpr) (nodes : List Sym) (asm : List Asm) (params : List (Str × ℝ)) (useJac : Bool) (kw : OptKw) :
    Except GraphErr RootCall :=
  let method := kw.method.getD "hybr".toList
  let key := if method ∈ ["hybr".toList, "df-sane".toList] then "maxfev".toList else "maxiter".toList
  let options := dset (kw.options.getD []) key (kw.maxiter.getD 5000)
  match buildRootGraphs equations nodes useJac with
  | .error e => .error e
  | .ok (resid, jac) => .ok
    { f := callVector nodes params (resid.map TG.s), x0 := initialX0 kw.x0 asm
      jac := jac.map fun j => callMatrix nodes params (j.map fun row => row.map TG.s)
      method := method, tol := kw.tol, options := options }

/-- the call of `better_optimize.minimize` (model/model.py:1330-1341) -/
structure MinCall where
  f : (Nat → ℝ) → Option ℝ
  x0 : List Num
  jac : Option ((Nat → ℝ) → Option (List ℝ))
  hess : Option ((Nat → ℝ) → Option (List (List ℝ)))
  hessp : Option ((Nat → ℝ) → (Nat → ℝ) → Option (List ℝ))
  method : Str
  bounds : Option (List Bound)
  tol : Rat
  options : List (Str × Nat)

/-- what depends on how bounds are imposed: method, equations, start and bounds for scipy -/
structure MinSetup where
  method : Str
  eqs : List SExpr
  start : List Num
  bounds : Option (List Bound)

/-- model/model.py:1277-1290 -/
noncomputable def BoundPlan.setup (plan : BoundPlan) (equations : List SExpr) (nodes : List Sym) (x0 : List Rat) : MinSetup :=
  match plan with
  | .box m b => ⟨m, equations, x0.map fun q => some (q : ℝ), some b⟩
  | .transformed m ts => ⟨m, transformEquations equations nodes ts, toUnconstrained ts (x0.map fun q => (q : ℝ)), none⟩

/-- the `options` dictionary (model/model.py:1287-1291) -/
def minOptions (method : Str) (kw : OptKw) : List (Str × Nat) :=
  let maxiter := kw.maxiter.getD 5000
  let options := dset (kw.options.getD []) "maxiter".toList maxiter
  if method = "L-BFGS-B".toList then dset options "maxfun".toList maxiter else options

/-- `_solve_steady_state_with_minimize` (model/model.py:1241-1341) up to the call -/
noncomputable def minimizeCall (parAsm : Str → Asm) (equations : List SExpr) (nodes : List Sym) (params : List (Str × ℝ)) (f : ErrFn)
    (useJac useHess useHessp : Bool) (user : List (Str × Bound)) (preferTransform : Bool) (kw : OptKw) : Except GraphErr MinCall :=
  let x0 := initialX0 kw.x0 (nodes.map (asmOf parAsm))
  let st := (boundPlan parAsm nodes user preferTransform kw.method).setup equations nodes x0
  let useHess := if useHess && useHessp then false else useHess
  match buildMinimizeGraphs st.eqs nodes f useJac useHess useHessp with
  | .error e => .error e
  | .ok g => .ok
    { f := callScalar nodes params g.error, x0 := st.start
      jac := g.grad.map (callVector nodes params)
      hess := g.hess.map (callMatrix nodes params)
      hessp := g.hessp.map (callHessp nodes params)
      method := st.method, bounds := st.bounds, tol := kw.tol.getD (1 / 10 ^ 30), options := minOptions st.method kw }

/-- `f_jac_for_postprocess` (model/model.py:901-908) after `root`: `2.0 * jac.T @ resid`, zeros without a Jacobian. Values in the order of
`nodes`. -/
noncomputable def rootGradient (equations : List SExpr) (nodes : List Sym) (useJac : Bool) (env : Sym → ℝ) : List ℝ :=
  if useJac then
    let resid := equations.map (SExpr.eval env)
    let jac := equations.map fun e => nodes.map fun x => (e.diff x).eval env
    (List.range nodes.length).map fun j => 2 * (List.zipWith (fun row r => row.getD j 0 * r) jac resid).sum
  else List.replicate nodes.length 0

end GE
