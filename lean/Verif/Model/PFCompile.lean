import Verif.Model.PerfectForesight
import Verif.Model.Simplification
import Verif.Model.SSDriver
import Verif.Model.Perturbation
/-!
# `gEconpy/model/perfect_foresight/compile.py`: the single-period function of the perfect-foresight problem

A pytensor graph is written as the expression it computes and a table saying which input each of its variables has become. `as_tensor` and
the common-subexpression pass do not change values and are not modelled; the numbers are exact reals. Python's set of symbols is iterated in
an arbitrary order: `ord` puts the set in that order (the same for both compiled functions); `subsOrd` is the order in which `eq.subs(dict)`
replaces (sympy sorts the keys).
-/

namespace GE

/-- a variable of the pytensor graph: sympytensor's cache identifies it by name and class (`make_cache_key`, model/compile.py:314-332; the
assumptions of the symbol are not part of the key); the two kinds of dummies of `_build_jacobian_var_lists` are fresh objects -/
inductive Node where
  | par (n : Str)
  | tv (name : Str)
  | lagDummy (n : Str)
  | leadDummy (n : Str)
  deriving DecidableEq

/-- `cache[make_cache_key(sym.name, cls)]` (perfect_foresight/compile.py:130-131, 138-141) -/
def Sym.node : Sym → Node
  | .par n => .par n
  | .tv s => .tv (createName s)

/-- an input of the compiled function: an element of `y_tm1`, `y_t`, `y_tp1`, `x_t`, or a scalar parameter -/
inductive Slot where
  | prev (i : Nat)
  | now (i : Nat)
  | next (i : Nat)
  | shock (i : Nat)
  | param (i : Nat)
  deriving DecidableEq

/-- the value of the input at given arguments -/
def Slot.read {K : Type} (a : PeriodArgs K) : Slot → K
  | .prev i => a.yPrev i
  | .now i => a.yNow i
  | .next i => a.yNext i
  | .shock i => a.x i
  | .param i => a.params i

/-- what can go wrong while compiling: steady-state symbols without analytic value (perfect_foresight/compile.py:58-64), symbols at other
dates (timing.py:75-80), `pt.stack` of nothing (compile.py:163), the same input twice and a graph variable that is no input
(`pytensor.function`, 185 and 255) -/
inductive PFCErr where
  | noAnalytic (atoms : List TSym)
  | timing (bad : List TSym)
  | emptyStack
  | duplicateInput
  | missingInput (n : Node)

/-- what the compilation reads of the model -/
structure PFModel where
  eqs : List SExpr
  shocks : List TSym
  params : List Str
  determ : List Str
  ssDict : List (Sym × SExpr)

/-- `_substitute_steady_state_values` (perfect_foresight/compile.py:21-66): a key gives the value of the atom whose name it has; the first
such key counts -/
def substituteSS (subsOrd : List (Sym × SExpr) → List (Sym × SExpr)) (eqs : List SExpr) (ssDict : List (Sym × SExpr)) :
    Except PFCErr (List SExpr) :=
  let atoms := ((eqs.flatMap SExpr.tsyms).filter fun a => a.idx = .ss).eraseDups
  if atoms = [] then .ok eqs else
  let subDict := atoms.filterMap fun a => (ssDict.find? fun p => symName (safeToSS p.1) = createName a).map fun p => (Sym.tv a, p.2)
  let remaining := atoms.filter fun a => Sym.tv a ∉ dkeys subDict
  if remaining ≠ [] then .error (.noAnalytic remaining)
  else .ok (eqs.map fun e => e.subsSeq (subsOrd subDict))

/-- `_build_jacobian_var_lists` (perfect_foresight/compile.py:69-79) -/
def jacobianVarLists (names : List Str) (lagOf leadOf : List (Str × Node)) (varsT : List Node) : List Node × List Node × List Node :=
  (names.map fun n => (dget lagOf n).getD (.lagDummy n), varsT, names.map fun n => (dget leadOf n).getD (.leadDummy n))

/-- `_build_vector_replacements` (perfect_foresight/compile.py:82-102); without shocks the second loop does nothing -/
def vectorReplacements (names : List Str) (lag now lead shocks : List Node) : List (Node × Slot) :=
  let d := (List.range names.length).foldl (fun d i =>
    match lag[i]?, now[i]?, lead[i]? with
    | some a, some b, some c => dset (dset (dset d a (.prev i)) b (.now i)) c (.next i)
    | _, _, _ => d) []
  shocks.zipIdx.foldl (fun d p => dset d p.1 (.shock p.2)) d

/-- the parts both compilations share: equations, classified symbols, names of the parameters which occur -/
structure PFParts where
  eqs : List SExpr
  timing : Timing
  params : List Str

/-- perfect_foresight/compile.py:122-142 and, the same code, 204-220. A parameter occurs when its key is in the cache after the equations
have been converted. -/
def pfParts (ord : List TSym → List TSym) (subsOrd : List (Sym × SExpr) → List (Sym × SExpr)) (m : PFModel) : Except PFCErr PFParts :=
  match substituteSS subsOrd m.eqs m.ssDict with
  | .error e => .error e
  | .ok eqs =>
    match classifyTiming (ord (eqs.flatMap SExpr.tsyms).eraseDups) (m.shocks.map TSym.base) with
    | .error bad => .error (.timing bad)
    | .ok t => .ok ⟨eqs, t, (m.params ++ m.determ).filter fun p => Node.par p ∈ eqs.flatMap fun e => e.syms.map Sym.node⟩

/-- the table of the replaced variables (perfect_foresight/compile.py:144-154, 170-172 and 222-232, 241-243) -/
def PFParts.replacements (p : PFParts) : List (Node × Slot) :=
  let nodeOf : TSym → Node := fun x => (Sym.tv x).node
  let names := p.timing.now.map TSym.base
  let lists := jacobianVarLists names (dupdate [] (p.timing.lags.map fun x => (x.base, nodeOf x)))
    (dupdate [] (p.timing.leads.map fun x => (x.base, nodeOf x))) (p.timing.now.map nodeOf)
  vectorReplacements names lists.1 lists.2.1 lists.2.2 (p.timing.shocks.map nodeOf)

/-- the input a graph variable has become: replaced, or itself an input (a parameter) -/
def PFParts.slot (p : PFParts) (n : Node) : Option Slot :=
  match dget p.replacements n with
  | some s => some s
  | none => match n with
    | .par k => if k ∈ p.params then some (.param (p.params.idxOf k)) else none
    | _ => none

/-- `pytensor.function(func_inputs, ...)` (perfect_foresight/compile.py:177-185, 247-255): no input twice, every graph variable an input -/
def PFParts.check (p : PFParts) (outputs : List SExpr) : Except PFCErr Unit :=
  if p.eqs = [] then .error .emptyStack
  else if ¬ p.params.Nodup then .error .duplicateInput
  else match (outputs.flatMap fun e => e.syms.map Sym.node).find? fun n => (p.slot n).isNone with
    | some n => .error (.missingInput n)
    | none => .ok ()

/-- a compiled function: its outputs and the inputs its variables have become, with the names returned beside it -/
structure PFCompiled where
  parts : PFParts
  jac : List (List SExpr)
  varNames : List Str
  shockNames : List Str
  paramNames : List Str

/-- `_compile_single_period_function` (perfect_foresight/compile.py:105-187) -/
def compileSinglePeriod (ord : List TSym → List TSym) (subsOrd : List (Sym × SExpr) → List (Sym × SExpr)) (m : PFModel) :
    Except PFCErr PFCompiled :=
  match pfParts ord subsOrd m with
  | .error e => .error e
  | .ok p =>
    let wrt := p.timing.now.map (fun v => v.atT (-1)) ++ p.timing.now ++ p.timing.now.map fun v => v.atT 1
    let jac := p.eqs.map fun e => wrt.map fun v => e.diff (.tv v)
    match p.check (p.eqs ++ jac.flatten) with
    | .error e => .error e
    | .ok () => .ok ⟨p, jac, p.timing.now.map TSym.base, p.timing.shocks.map TSym.base, p.params⟩

/-- `_compile_single_period_residual_function` (perfect_foresight/compile.py:190-255) -/
def compileResidualOnly (ord : List TSym → List TSym) (subsOrd : List (Sym × SExpr) → List (Sym × SExpr)) (m : PFModel) :
    Except PFCErr PFParts :=
  match pfParts ord subsOrd m with
  | .error e => .error e
  | .ok p =>
    match p.check p.eqs with
    | .error e => .error e
    | .ok () => .ok p

/-- `compile_perfect_foresight_problem` (perfect_foresight/compile.py:282-297), without the horizon -/
def compileProblem (ord : List TSym → List TSym) (subsOrd : List (Sym × SExpr) → List (Sym × SExpr)) (m : PFModel) :
    Except PFCErr (PFCompiled × PFParts) :=
  match compileSinglePeriod ord subsOrd m with
  | .error e => .error e
  | .ok c =>
    match compileResidualOnly ord subsOrd m with
    | .error e => .error e
    | .ok f => .ok (c, f)

/-- the values of the graph variables at given arguments -/
def PFParts.env (p : PFParts) (a : PeriodArgs ℝ) : Sym → ℝ := fun s => ((p.slot s.node).map (Slot.read a)).getD 0

/-- calling the residual output -/
noncomputable def PFParts.residual (p : PFParts) (a : PeriodArgs ℝ) (r : Nat) : ℝ := ((p.eqs[r]?).map (SExpr.eval (p.env a))).getD 0

/-- calling the Jacobian output -/
noncomputable def PFCompiled.jacobian (c : PFCompiled) (a : PeriodArgs ℝ) (r k : Nat) : ℝ :=
  (((c.jac[r]?).bind fun row => row[k]?).map (SExpr.eval (c.parts.env a))).getD 0

end GE
