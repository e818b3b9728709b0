import Verif.Model.Simplification
import Verif.Model.PerfectForesight
import Mathlib.Algebra.Order.Field.Basic
/-!
# `gEconpy/model/perturbation.py`: linearisation

Symbolic derivatives are `SExpr.diff`; the common-subexpression pass, the conversion to pytensor and the compilation of
`build_symbolic_jacobians` (model/compile.py:210-219) do not change values and are not modelled: the numerical value of an
entry is the parameter `ev` below. numpy arrays are lists, boolean arrays functions from positions.
-/

namespace GE

/-- `v.set_t(k)` for an integer `k` (classes/time_aware_symbol.py:126-137) -/
def TSym.atT (v : TSym) (k : Int) : TSym := { v with idx := .t k }

/-- the four boolean arrays of perturbation.py:118-121 -/
structure Incidence where
  eqLag : Nat → Bool := fun _ => false
  eqLead : Nat → Bool := fun _ => false
  varLag : Nat → Bool := fun _ => false
  varLead : Nat → Bool := fun _ => false

/-- `a[i] = True` -/
def setTrue (a : Nat → Bool) (i : Nat) : Nat → Bool := fun k => if k = i then true else a k

/-- body of the inner loop (perturbation.py:124-128): equation number `i`, variable number `j` -/
def incStep (i : Nat) (e : SExpr) (inc : Incidence) (jv : TSym × Nat) : Incidence :=
  let inc := if e.tsyms.contains (jv.1.atT (-1)) then
    { inc with eqLag := setTrue inc.eqLag i, varLag := setTrue inc.varLag jv.2 } else inc
  if e.tsyms.contains (jv.1.atT 1) then
    { inc with eqLead := setTrue inc.eqLead i, varLead := setTrue inc.varLead jv.2 } else inc

/-- the loops of perturbation.py:122-128 -/
def incidence (vars : List TSym) (eqs : List SExpr) : Incidence :=
  eqs.zipIdx.foldl (fun inc ie => vars.zipIdx.foldl (incStep ie.2 ie.1) inc) {}

/-- `np.where(mask)[0]` for a mask of length `n` -/
def whereIdx (n : Nat) (mask : Nat → Bool) : List Nat := (List.range n).filter mask

/-- `eq_order_local` (perturbation.py:130-138) -/
def eqOrderOf (n : Nat) (inc : Incidence) : List Nat :=
  whereIdx n (fun i => !inc.eqLag i && !inc.eqLead i) ++ whereIdx n (fun i => inc.eqLag i && !inc.eqLead i)
    ++ whereIdx n (fun i => !inc.eqLag i && inc.eqLead i) ++ whereIdx n (fun i => inc.eqLag i && inc.eqLead i)

/-- `var_order_local` (perturbation.py:141-149) -/
def varOrderOf (n : Nat) (inc : Incidence) : List Nat :=
  whereIdx n (fun j => !inc.varLag j && !inc.varLead j) ++ whereIdx n (fun j => inc.varLag j && !inc.varLead j)
    ++ whereIdx n (fun j => inc.varLag j && inc.varLead j) ++ whereIdx n (fun j => !inc.varLag j && inc.varLead j)

/-- `eq_to_ss(eq.diff(v), shocks=shocks)` (model/compile.py:200, utilities.py:42-48) -/
def jacEntry (shocks : List TSym) (e : SExpr) (v : TSym) : SExpr :=
  let d := e.diff (.tv v)
  eqToSSIn d.tsyms shocks d

/-- one dense Jacobian of `build_symbolic_jacobians` (model/compile.py:163-230) -/
def symJacobian (shocks : List TSym) (eqs : List SExpr) (wrt : List TSym) : List (List SExpr) :=
  eqs.map fun e => wrt.map fun v => jacEntry shocks e v

/-- an entry of `column_scale` (perturbation.py:181-188) -/
inductive Scale where
  | one
  | ss (v : TSym)
  | guarded (v : TSym)
  deriving DecidableEq, Repr

/-- `assumptions.get(key, False)` (perturbation.py:183, 185) -/
def TSym.assumed (v : TSym) (key : Str) : Bool := (dget v.asm key).getD false

/-- `loglin_set` (perturbation.py:106-110): positions of the variables whose base name is requested; `none` requests all -/
def inLoglin (vars : List TSym) (loglin : Option (List TSym)) (j : Nat) : Bool :=
  match loglin with
  | none => decide (j < vars.length)
  | some l => (vars[j]?).any fun v => (l.map TSym.base).contains v.base

/-- `column_scale` for variable `v` at position `j` (perturbation.py:180-187) -/
def columnScale (vars : List TSym) (loglin : Option (List TSym)) (v : TSym) (j : Nat) : Scale :=
  if !inLoglin vars loglin j || v.assumed "negative".toList then .one
  else if v.assumed "positive".toList then .ss v
  else .guarded v

/-- result of `linearize_model`: bare derivatives, the column scale of `A, B, C`, and the two orders -/
structure LinSys where
  A : List (List SExpr)
  B : List (List SExpr)
  C : List (List SExpr)
  D : List (List SExpr)
  scale : List Scale
  eqOrder : List Nat
  varOrder : List Nat

/-- `linearize_model` (perturbation.py:29-198). `none` is an IndexError: a position beyond the (deduplicated) variable lists or
the equations. (`pt.stack` of no variables and `order != 1` also raise; not modelled.) -/
def linearize (vars : List TSym) (eqs : List SExpr) (shocks : List TSym) (loglin : Option (List TSym))
    (eqOrder varOrder : Option (List Nat)) : Option LinSys := do
  let (lags, now, leads) := allTimeCombinations vars
  let inc := incidence vars eqs
  let eo := eqOrder.getD (eqOrderOf eqs.length inc)
  let vo := varOrder.getD (varOrderOf vars.length inc)
  let eqsP ← eo.mapM fun i => eqs[i]?
  let lagsP ← vo.mapM fun j => lags[j]?
  let nowP ← vo.mapM fun j => now[j]?
  let leadsP ← vo.mapM fun j => leads[j]?
  let scale ← vo.mapM fun j => do
    let v ← vars[j]?
    pure (columnScale vars loglin v j)
  pure { A := symJacobian shocks eqsP lagsP, B := symJacobian shocks eqsP nowP, C := symJacobian shocks eqsP leadsP
         D := symJacobian shocks eqsP shocks, scale := scale, eqOrder := eo, varOrder := vo }

/-- evaluation of a column scale at steady-state values `ssv` (perturbation.py:183-188) -/
def Scale.eval {K : Type} [Field K] [LinearOrder K] (ssv : TSym → K) : Scale → K
  | .one => 1
  | .ss v => ssv (toSS v)
  | .guarded v => if 0 < ssv (toSS v) then ssv (toSS v) else 1

/-- `M * scale` (perturbation.py:190): every row times the row of scales, entry by entry; `ev` evaluates the expressions -/
def scaledRows {K : Type} [Mul K] (ev : SExpr → K) (scale : List K) (M : List (List SExpr)) : List (List K) :=
  M.map fun row => List.zipWith (fun e s => ev e * s) row scale

/-- `np.argsort(xs)` of an integer array -/
def argsort (xs : List Nat) : List Nat :=
  (List.range xs.length).mergeSort fun a b => decide (xs.getD a 0 ≤ xs.getD b 0)

/-- `DROrder` (model/model.py:186-197), without the equation counts it derives in the same way -/
structure DROrder where
  varOrder : List Nat
  invVarOrder : List Nat
  eqOrder : List Nat
  invEqOrder : List Nat
  nStaticVar : Nat
  nPredVar : Nat
  nMixedVar : Nat
  nForwardVar : Nat
  nStaticEq : Nat
  nLagEq : Nat
  nLeadEq : Nat
  nBothEq : Nat

/-- the inner loop over variables with early exit (model/model.py:223-229): `(e_lag[i], e_lead[i])` -/
def eqFlags (e : SExpr) : List TSym → Bool × Bool → Bool × Bool
  | [], st => st
  | v :: vs, st =>
    let st := (st.1 || e.tsyms.contains (v.atT (-1)), st.2 || e.tsyms.contains (v.atT 1))
    if st.1 && st.2 then st else eqFlags e vs st

/-- `v_lag[j]`, `v_lead[j]` (model/model.py:204-210) -/
def varFlag (eqs : List SExpr) (k : Int) (v : TSym) : Bool :=
  eqs.foldl (fun b e => if e.tsyms.contains (v.atT k) then true else b) false

/-- `DROrder.from_model` (model/model.py:199-249) -/
def DROrder.fromModel (vars : List TSym) (eqs : List SExpr) : DROrder :=
  let vLag := fun j => (vars[j]?).any (varFlag eqs (-1))
  let vLead := fun j => (vars[j]?).any (varFlag eqs 1)
  let eLag := fun i => (eqs[i]?).any fun e => (eqFlags e vars (false, false)).1
  let eLead := fun i => (eqs[i]?).any fun e => (eqFlags e vars (false, false)).2
  let vStatic := whereIdx vars.length fun j => !vLag j && !vLead j
  let vPred := whereIdx vars.length fun j => vLag j && !vLead j
  let vMixed := whereIdx vars.length fun j => vLag j && vLead j
  let vFwd := whereIdx vars.length fun j => !vLag j && vLead j
  let eStatic := whereIdx eqs.length fun i => !eLag i && !eLead i
  let eLagOnly := whereIdx eqs.length fun i => eLag i && !eLead i
  let eLeadOnly := whereIdx eqs.length fun i => !eLag i && eLead i
  let eBoth := whereIdx eqs.length fun i => eLag i && eLead i
  let vo := vStatic ++ vPred ++ vMixed ++ vFwd
  let eo := eStatic ++ eLagOnly ++ eLeadOnly ++ eBoth
  { varOrder := vo, invVarOrder := argsort vo, eqOrder := eo, invEqOrder := argsort eo
    nStaticVar := vStatic.length, nPredVar := vPred.length, nMixedVar := vMixed.length, nForwardVar := vFwd.length
    nStaticEq := eStatic.length, nLagEq := eLagOnly.length, nLeadEq := eLeadOnly.length, nBothEq := eBoth.length }

/-- the matrices a user receives -/
structure ABCD (K : Type) where
  A : List (List K)
  B : List (List K)
  C : List (List K)
  D : List (List K)

/-- `M[idx]` (rows) -/
def takeRows {K : Type} (idx : List Nat) (M : List (List K)) : List (List K) := idx.map fun i => M.getD i []
/-- `M[:, idx]` (columns) -/
def takeCols {K : Type} [Zero K] (idx : List Nat) (M : List (List K)) : List (List K) :=
  M.map fun row => idx.map fun j => row.getD j 0

/-- the end of `Model.linearize_model` (model/model.py:1665-1680): evaluation and return to the user's order -/
def undoOrders {K : Type} [Zero K] (dr : DROrder) (M : ABCD K) : ABCD K :=
  let M := if dr.eqOrder = List.range dr.eqOrder.length then M else
    { A := takeRows dr.invEqOrder M.A, B := takeRows dr.invEqOrder M.B, C := takeRows dr.invEqOrder M.C, D := takeRows dr.invEqOrder M.D }
  if dr.varOrder = List.range dr.varOrder.length then M else
    { M with A := takeCols dr.invVarOrder M.A, B := takeCols dr.invVarOrder M.B, C := takeCols dr.invVarOrder M.C }

/-- `ss_vals` (model/model.py:1661-1662): the given steady state by base name, `_ss` suffixes removed; `none` is a KeyError -/
def ssVals {K : Type} (vars : List TSym) (ss : List (Str × K)) : Option (List K) :=
  vars.mapM fun v => dget (normalizeConditions ss) v.base

/-- `Model.linearize_model` (model/model.py:1614-1680) once the steady state is known and the log-linearised variables are chosen:
symbolic linearisation with the model's own orders (model.py:1462-1470), evaluation of the compiled function (`ev` evaluates an
expression at the steady-state values `ss` and the parameters), return to the user's order. -/
def linearizeModel {K : Type} [Field K] [LinearOrder K] (vars : List TSym) (eqs : List SExpr) (shocks : List TSym)
    (loglin : List TSym) (ss : List (Str × K)) (ev : (TSym → K) → SExpr → K) : Option (ABCD K) := do
  let dr := DROrder.fromModel vars eqs
  let sys ← linearize vars eqs shocks (some loglin) (some dr.eqOrder) (some dr.varOrder)
  let _ ← ssVals vars ss
  let ssv : TSym → K := fun v => (dget (normalizeConditions ss) v.base).getD 0
  let scale := sys.scale.map (Scale.eval ssv)
  pure (undoOrders dr
    { A := scaledRows (ev ssv) scale sys.A, B := scaledRows (ev ssv) scale sys.B, C := scaledRows (ev ssv) scale sys.C
      D := sys.D.map fun row => row.map (ev ssv) })

/-- errors of `make_not_loglin_flags` -/
inductive FlagErr where
  | unknown (names : List Str)
  | indexError
  deriving DecidableEq, Repr

/-- `flags[mask] = 1` with a boolean mask (numpy raises IndexError when the lengths differ) -/
def maskSet (mask : List Bool) (flags : List Bool) : Except FlagErr (List Bool) :=
  if mask.length = flags.length then .ok (List.zipWith (fun m f => m || f) mask flags) else .error .indexError

/-- `make_not_loglin_flags` (perturbation.py:201-284); `names` are the base names of variables and calibrated parameters,
`tol` is `_FLOAT_ZERO_TOL`; `true` is the flag 1. The warnings are not modelled. -/
def notLoglinFlags {K : Type} [Field K] [LinearOrder K] (varNames calNames : List Str) (ss : List (Str × K)) (logLinearize : Bool)
    (exclude : Option (List Str)) (loglinNegative : Bool) (tol : K) : Except FlagErr (List Bool) :=
  let exclude := exclude.getD []
  if !logLinearize then .ok (varNames.map fun _ => true)
  else
    let names := varNames ++ calNames
    let unknown := exclude.filter fun x => !names.contains x
    if unknown ≠ [] then .error (.unknown unknown)
    else do
      let flags := names.map fun x => exclude.contains x
      let vals := ss.map (·.2)
      let nearZero := vals.map fun x => decide (|x| < tol)
      let negative := vals.map fun x => decide (x < 0)
      let flags ← if nearZero.any id then maskSet nearZero flags else .ok flags
      if negative.any id && !loglinNegative then maskSet negative flags else .ok flags

/-- `loglin_vars` (model/model.py:1462): `zip(variables, flags, strict=False)` -/
def loglinVars (vars : List TSym) (flags : List Bool) : List TSym :=
  ((vars.zip flags).filter fun p => !p.2).map (·.1)

end GE
