import Verif.Model.SimplifyBlock
import Mathlib.Analysis.SpecialFunctions.Pow.Real
/-!
# `gEconpy/model/steady_state.py`

The steady-state dictionary is kept with sympy keys (`ss_solution_dict.to_sympy()`, C03) and the keys and values are `Sym` and
`SExpr`; a float value is the number it stands for. sympy's evaluation, `simplify` and solver are oracles.
-/

namespace GE

/-- `make_steady_state_variables` (steady_state.py:35-36) -/
def ssVariables (vars : List TSym) : List TSym := vars.map toSS

/-- `system_to_steady_state` (steady_state.py:39-41). `order e`: the order in which sympy substitutes the dated symbols of `e`; the
shock dictionary sends the steady state of every shock to zero (lines 31-32). -/
def systemToSS (simp : SExpr → SExpr) (order : SExpr → List TSym) (eqs : List SExpr) (shocks : List TSym) : List SExpr :=
  eqs.map fun e => simp (eqToSSIn (order e) shocks e)

/-- `ERROR_FUNCTIONS` (steady_state.py:28); `other` is any other string -/
inductive ErrFn where
  | squared | meanSquared | abs | l2norm | other

/-- `pt_error_from_resid` (steady_state.py:44-73) over the reals; `none` is the NotImplementedError. The mean of an empty vector is NaN
in numpy and 0 here. -/
noncomputable def errorFromResid (resid : List ℝ) : ErrFn → Option ℝ
  | .squared => some (resid.map fun r => r ^ 2).sum
  | .meanSquared => some ((resid.map fun r => r ^ 2).sum / resid.length)
  | .abs => some (resid.map fun r => |r|).sum
  | .l2norm => some (Real.sqrt (resid.map fun r => r ^ 2).sum)
  | .other => none

/-- `safe_to_ss` (utilities.py:51-55) -/
def safeToSS : Sym → Sym
  | .tv s => .tv (toSS s)
  | .par n => .par n

/-- the `known` dictionary of `_substitute_and_filter` (steady_state.py:175-176): keys moved to the steady state (`dupdate`: a later
entry with the same key wins), those of unknown names dropped -/
def knownOf (ss : List (Sym × SExpr)) (ssVars : List Sym) : List (Sym × SExpr) :=
  dupdate [] ((ss.filter fun p => safeToSS p.1 ∈ ssVars).map fun p => (safeToSS p.1, p.2))

/-- `graph_replace(e, d, strict=False)` (pytensor) for a dictionary whose keys are graph inputs: the keys are replaced simultaneously (pytensor
replaces clones of the keys, so what is put in is not searched again); keys which do not occur are ignored -/
def SExpr.graphReplace (d : List (Sym × SExpr)) (e : SExpr) : SExpr := e.replace fun s => (dget d s).getD (.sym s)

/-- `_substitute_and_filter` (steady_state.py:142-209). Nodes of the pytensor graph are identified with the symbols they stand for; every
steady-state variable has a node (line 134), so that the cache lookups succeed. -/
def substituteAndFilter (eqs : List SExpr) (ss : List (Sym × SExpr)) (ssVars : List Sym) : List SExpr :=
  if (knownOf ss ssVars).isEmpty then eqs
  else
    (eqs.map fun e => e.graphReplace (knownOf ss ssVars)).filter fun e =>
      e.syms.any fun s => decide (s ∈ ssVars ∧ s ∉ dkeys (knownOf ss ssVars))

/-- the system of `_ss_residual_to_pytensor` (steady_state.py:124-139): steady-state and calibrating equations, with the known values
substituted -/
def ssResidual (ssEqs : List SExpr) (ss : List (Sym × SExpr)) (vars : List TSym) (calib : List (Sym × SExpr)) : List SExpr :=
  if ss.isEmpty then ssEqs ++ calib.map Prod.snd
  else substituteAndFilter (ssEqs ++ calib.map Prod.snd) ss ((ssVariables vars).map Sym.tv ++ (dkeys calib).map safeToSS)

/-- the outputs of `compile_known_ss` (steady_state.py:329-341): names and expressions, in the order of the variables; `none`: no
known values (lines 330-331) -/
def knownSS (ss : List (Sym × SExpr)) (vars : List Sym) : Option (List (Sym × SExpr)) :=
  if ss.isEmpty then none
  else some (dupdate [] (((vars.map safeToSS).filter fun k => k ∈ dkeys ss).map fun k => (safeToSS k, (dget ss (safeToSS k)).getD (.num 0))))

/-- what `compile_known_ss(..., return_symbolic=True)` returns (steady_state.py:353-354): `make_return_dict_and_update_cache`
(compile.py:323-333) zips *all* variables with the outputs -/
def knownSSSymbolic (ss : List (Sym × SExpr)) (vars : List Sym) : Option (List (Sym × SExpr)) :=
  (knownSS ss vars).map fun out => dupdate [] ((vars.map safeToSS).zip (out.map Prod.snd))

/-- `simplify_provided_ss_equations` (steady_state.py:380-414); `none` is the ValueError of a circular definition -/
def simplifyProvided (ss : List (Sym × SExpr)) (vars : List TSym) : Option (List (Sym × SExpr)) :=
  let extra := ss.filter fun p => p.1 ∉ (ssVariables vars).map Sym.tv
  if extra.isEmpty then some ss
  else
    match flattenSubs extra with
    | some (some flat) =>
      some ((ss.filter fun p => p.1 ∈ (ssVariables vars).map Sym.tv).map fun p => (p.1, p.2.subsSeq flat))
    | _ => none

/-- the pieces of sympy used by the propagation: the order in which a substitution dictionary is applied, automatic evaluation,
`sp.solve` (`none`: one of the exceptions of line 449), `_solution_is_simple` (steady_state.py:417-426) and `float` -/
structure SSOracle where
  ord : List (Sym × SExpr) → List (Sym × SExpr)
  norm : SExpr → SExpr
  solve : SExpr → TSym → Option (List SExpr)
  simple : SExpr → Bool
  flt : SExpr → SExpr

/-- `eq.free_symbols & ss_variables` -/
def ssIn (ssv : List TSym) (e : SExpr) : List TSym := (e.tsyms.eraseDups).filter fun s => s ∈ ssv

/-- `_try_solve_for_unknown` (steady_state.py:429-456) -/
def trySolve (o : SSOracle) (ssv : List TSym) (known : List (Sym × SExpr)) (e : SExpr) (x : TSym) : Option SExpr :=
  let e' := o.norm (e.subsSeq (o.ord known))
  if ssIn ssv e' = [x] then
    match o.solve e' x with
    | some [s] => if o.simple s then some s else none
    | _ => none
  else none

/-- `float(solution) if solution.is_number else solution` (steady_state.py:511) -/
def storeValue (o : SSOracle) (s : SExpr) : SExpr := if s.syms.isEmpty then o.flt s else s

/-- one turn of the inner loop (steady_state.py:499-512): the dictionary and the progress flag -/
def propEq (o : SSOracle) (ssv : List TSym) (st : List (Sym × SExpr) × Bool) (e : SExpr) : List (Sym × SExpr) × Bool :=
  match (ssIn ssv e).filter fun s => Sym.tv s ∉ dkeys st.1 with
  | [x] =>
    match trySolve o ssv st.1 e x with
    | some s => (dset st.1 (.tv x) (storeValue o s), true)
    | none => st
  | _ => st

/-- one pass over the equations (steady_state.py:496-512) -/
def propPass (o : SSOracle) (ssv : List TSym) (eqs : List SExpr) (d : List (Sym × SExpr)) : List (Sym × SExpr) × Bool :=
  eqs.foldl (propEq o ssv) (d, false)

/-- the outer loop (steady_state.py:495-515), `n` iterations left -/
def propLoop (o : SSOracle) (ssv : List TSym) (eqs : List SExpr) : Nat → List (Sym × SExpr) → List (Sym × SExpr)
  | 0, d => d
  | n + 1, d => if (propPass o ssv eqs d).2 then propLoop o ssv eqs n (propPass o ssv eqs d).1 else (propPass o ssv eqs d).1

/-- `propagate_steady_state_through_identities` (steady_state.py:459-517) -/
def propagateSS (o : SSOracle) (ss : List (Sym × SExpr)) (ssEqs : List SExpr) (vars : List TSym) (maxIter : Nat := 100) :
    List (Sym × SExpr) :=
  propLoop o (ssVariables vars) ssEqs maxIter ss

end GE
