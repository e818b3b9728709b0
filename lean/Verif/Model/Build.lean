import Verif.Model.SteadyState
import Verif.Model.Simplification
/-!
# `gEconpy/model/build.py`: from the parsed primitives to the objects of a model

Parameter dictionaries have string keys; `to_sympy()` turns a key into the plain symbol of that name (C03). A float value is the number
it stands for. The relations `sp.Eq(var, value)` are represented by `var - value`, which has the same symbols (sympy evaluates a relation
between identical sides to a truth value without symbols; this is not modelled).
-/

namespace GE

/-- `del d[k]` -/
def ddel {κ ν : Type} [DecidableEq κ] (d : List (κ × ν)) (k : κ) : List (κ × ν) := d.filter fun p => p.1 ≠ k

/-- `all_hyper_params` (build.py:74) -/
def hyperNames (shockPriors : List (Str × ShockDist)) : List Str := shockPriors.flatMap fun p => p.2.names.map Prod.snd

/-- one turn of the loop of `split_out_hyper_params` (build.py:76-79) -/
def hyperStep {ν : Type} (param : List (Str × ν)) (st : List (Str × ν) × List (Str × ν)) (n : Str) : List (Str × ν) × List (Str × ν) :=
  if n ∈ dkeys st.1 then
    match dget param n with
    | some v => (ddel st.1 n, dset st.2 n v)
    | none => st
  else st

/-- `split_out_hyper_params` (build.py:47-81) -/
def splitOutHyper {ν : Type} (param : List (Str × ν)) (shockPriors : List (Str × ShockDist)) : List (Str × ν) × List (Str × ν) :=
  (hyperNames shockPriors).foldl (hyperStep param) (param, [])

/-- the orphans found by `check_for_orphan_params` (build.py:107-120), with repetitions -/
def orphanParams (eqs : List SExpr) (joint : List (Str × SExpr)) : List Str :=
  eqs.flatMap fun e => e.syms.filterMap fun s =>
    match s with
    | .tv _ => none
    | .par n => if n ∉ dkeys joint ∧ ¬ joint.any (fun p => p.2.syms.contains (.par n)) then some n else none

/-- the extras found by `check_for_extra_params` (build.py:147-154) -/
def extraParams (eqs : List SExpr) (joint : List (Str × SExpr)) (distAtoms : List Str) : List Str :=
  (dkeys joint).filter fun n => ¬ (eqs ++ joint.map Prod.snd).any (fun e => e.syms.contains (.par n)) ∧ n ∉ distAtoms

/-- `on_unused_parameters`; any other string behaves like `ignore` (build.py:155-159) -/
inductive OnUnused where
  | raise | warn | ignore
  deriving DecidableEq

/-- errors of model building -/
inductive BuildErr where
  | orphan (names : List Str)
  | extra (names : List Str)
  | cycle
  | indexError

/-- `_collect_distribution_atoms` (build.py:162-184): the symbols among the arguments of the priors (`args`, an oracle for PreliZ
objects) and the defined parameters named in shock distributions -/
def distributionAtoms (args : List Str) (distParams : List Str) (joint : List (Str × SExpr)) : List Str :=
  args ++ distParams.filter fun n => n ∈ dkeys joint

/-- `validate_results` (build.py:187-234); the result lists the parameters named in the ExtraParameterWarning, if one is given -/
def validateResults (eqs ssRel : List SExpr) (param calib determ : List (Str × SExpr)) (onUnused : OnUnused) (args distParams : List Str) :
    Except BuildErr (List Str) :=
  let joint := dupdate (dupdate param calib) determ
  let orphans := orphanParams (eqs ++ ssRel) joint
  if orphans ≠ [] then .error (.orphan orphans)
  else
    let extras := extraParams (eqs ++ ssRel) joint (distributionAtoms args distParams joint)
    if extras ≠ [] then
      match onUnused with
      | .raise => .error (.extra extras)
      | .warn => .ok extras
      | .ignore => .ok []
    else .ok []

/-- the deterministic parameters with sympy keys -/
def symKeys (d : List (Str × SExpr)) : List (Sym × SExpr) := d.map fun p => (.par p.1, p.2)

/-- `_resolve_deterministic_params` (build.py:260-298): the parameters kept, with resolved values, and those dropped. `none` is the
ValueError of a circular definition. -/
def resolveDeterministic (determ : List (Str × SExpr)) (eqs ssRel : List SExpr) : Option (List (Str × SExpr) × List Str) :=
  match flattenSubs (symKeys determ) with
  | some (some flat) =>
    let used : Str → Bool := fun n => (eqs ++ ssRel).any fun e => e.syms.contains (.par n)
    some ((determ.filter fun p => used p.1).map (fun p => (p.1, (dget flat (.par p.1)).getD p.2)), (dkeys determ).filter fun n => ¬ used n)
  | _ => none

/-- `_split_distributions` (build.py:301-329): priors of parameters and of shocks -/
def splitDistributions {δ : Type} (dists : List (Str × δ)) (shockDists : List (Str × ShockDist)) (shockNames : List Str) :
    List (Str × δ) × List (Str × ShockDist) :=
  (dupdate [] (dists.filter fun p => p.1 ∉ shockNames ∧ p.1 ∉ hyperNames shockDists), dupdate [] shockDists)

/-- what `_compile_gcn` starts from: `ModelPrimitives` (loader.py:23-41), the steady-state dictionary with sympy keys -/
structure BuildIn where
  equations : List SExpr
  vars : List TSym
  shocks : List TSym
  param : List (Str × SExpr)
  calib : List (Str × SExpr)
  determ : List (Str × SExpr)
  ss : List (Sym × SExpr)
  tryreduce : List TSym
  blocks : List Block
  dists : List (Str × Dist)
  shockDists : List (Str × ShockDist)
  distParams : List Str

/-- the keyword arguments of `model_from_gcn` (build.py:466-478) that matter here -/
structure BuildFlags where
  tryreduce : Bool := true
  constants : Bool := true
  inferSS : Bool := true
  onUnused : OnUnused := .raise

/-- sympy and PreliZ: `simp` is `simplify` (and automatic evaluation) -/
structure BuildOracle where
  simp : SExpr → SExpr
  solve : Solver
  norm : SExpr → SExpr
  ss : SSOracle
  order : SExpr → List TSym
  distArgs : List (Str × Dist) → List Str

/-- what `_compile_gcn` returns (build.py:459-463), with the lists of eliminated names and the warning of unused parameters -/
structure BuildOut where
  vars : List TSym
  shocks : List TSym
  equations : List SExpr
  ssRel : List (Sym × SExpr)
  ssEqs : List SExpr
  param : List (Str × SExpr)
  hyper : List (Str × SExpr)
  determ : List (Str × SExpr)
  calib : List (Str × SExpr)
  paramPriors : List (Str × Dist)
  shockPriors : List (Str × ShockDist)
  reducedVars : List TSym
  singletons : List TSym
  reducedParams : List Str
  unused : List Str
  /-- `user_provided_ss_vars` (build.py:428) -/
  userSS : List Sym

/-- `_apply_simplifications` (build.py:237-257) -/
def applySimplifications (o : BuildOracle) (f : BuildFlags) (i : BuildIn) : Option (List SExpr × List TSym × List TSym × List TSym) :=
  let r1 := if f.tryreduce then simplifyTryreduce o.simp i.tryreduce i.equations i.vars (blockSubDict i.blocks)
    else (i.equations, i.vars, [], false)
  if f.constants then
    match simplifyConstants o.solve o.norm r1.1 r1.2.1 with
    | none => none
    | some r2 => some (r2.1, r2.2.1, r1.2.2.1, r2.2.2.1)
  else some (r1.1, r1.2.1, r1.2.2.1, [])

/-- `sp.Eq(var, value)` for the entries of the steady-state dictionary (build.py:407, 438) -/
def ssRelations (d : List (Sym × SExpr)) : List SExpr := d.map fun p => .sub (.sym p.1) p.2

/-- `_compile_gcn` (build.py:332-463) from the parsed primitives -/
def compileGcn (o : BuildOracle) (f : BuildFlags) (i : BuildIn) : Except BuildErr BuildOut :=
  match applySimplifications o f i with
  | none => .error .indexError
  | some (eqs, vars, reducedVars, singletons) =>
    let priors := splitDistributions i.dists i.shockDists (i.shocks.map TSym.base)
    let params := splitOutHyper i.param priors.2
    match simplifyProvided i.ss vars with
    | none => .error .cycle
    | some ss0 =>
      match resolveDeterministic i.determ eqs (ssRelations ss0) with
      | none => .error .cycle
      | some (determ, reducedParams) =>
        match validateResults eqs (ssRelations ss0) params.1 i.calib determ f.onUnused (o.distArgs i.dists) i.distParams with
        | .error e => .error e
        | .ok unused =>
          let ssEqs := systemToSS o.simp o.order eqs i.shocks
          .ok { vars := naturalSort vars
                shocks := naturalSort i.shocks
                equations := eqs
                ssRel := if f.inferSS then propagateSS o.ss ss0 ssEqs vars else ss0
                ssEqs := ssEqs
                param := params.1
                hyper := params.2
                determ := determ
                calib := i.calib
                paramPriors := priors.1
                shockPriors := priors.2
                reducedVars := reducedVars
                singletons := singletons
                reducedParams := reducedParams
                unused := unused
                userSS := dkeys ss0 }

/-- `distribution_param_names` (loader.py:443-446): the names used as values in shock distributions (names are never numerals) -/
def distParamNames (bs : List Blk) : List Str :=
  bs.flatMap fun b => b.shockDists.flatMap fun d => d.kwargs.filterMap fun p => match p.2 with | .inl _ => none | .inr n => some n

end GE
