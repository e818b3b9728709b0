import Verif.Model.ToDistribution
/-!
# Converting parsed blocks without building a model: `equation_to_sympy`, `block_to_sympy`, `model_to_sympy` (parser/transform/to_sympy.py)
and `ast_block_to_equations`, `ast_block_to_calibration`, `ast_block_to_variables_and_shocks` (parser/loader.py)

Equations which sympy evaluates to a boolean (`Eq(x, x)`) are not modelled, as in `Model/ToSympy.lean`. The dictionaries returned by the
calibration function are plain dictionaries here; all keys of one dictionary have the same kind, so that the `SymbolDictionary` never refuses
one. `shown` is sympy's `str` for expressions that are not a symbol.
-/

namespace GE.Dir
open Gcn

/-- the dictionary of metadata (to_sympy.py:188-192) -/
structure EqMeta where
  isCalibrating : Bool
  parameter : Option Sym
  multiplier : Option TSym
  deriving DecidableEq

/-- the metadata of an equation (to_sympy.py:188-204): empty names count as none (`if ...:`); multipliers are dated now -/
def eqMeta (asm : List (Str × Asm)) (e : Eqn) : EqMeta where
  isCalibrating := e.calibrating.isSome
  parameter := match e.calibrating with | some (c :: p) => some (.par (c :: p)) | _ => none
  multiplier := match e.lagrange with | some (c :: p) => some (convVar asm (c :: p) (.t 0)) | _ => none

/-- `equation_to_sympy` (to_sympy.py:163-206) -/
def equationToSympy (asm : List (Str × Asm)) (e : Eqn) : Except ConvErr (SEq × EqMeta) :=
  match equationToSympyMeta asm e with
  | .error e => .error e
  | .ok s => .ok (s, eqMeta asm e)

/-- the dictionary of lists (to_sympy.py:227-233) -/
structure Converted where
  definitions : List (SEq × EqMeta)
  objective : List (SEq × EqMeta)
  constraints : List (SEq × EqMeta)
  identities : List (SEq × EqMeta)
  calibration : List (SEq × EqMeta)

/-- the loops `for eq in ...: result[...].append(equation_to_sympy(eq, assumptions))` (to_sympy.py:235-245) -/
def convertAll (asm : List (Str × Asm)) : List Eqn → Except ConvErr (List (SEq × EqMeta))
  | [] => .ok []
  | e :: es =>
    match equationToSympy asm e with
    | .error e => .error e
    | .ok s =>
      match convertAll asm es with
      | .error e => .error e
      | .ok ss => .ok (s :: ss)

/-- `isinstance(item, GCNEquation)` (to_sympy.py:248) -/
def calibEqns : List Calib → List Eqn
  | [] => []
  | .eq e :: cs => e :: calibEqns cs
  | .dist _ :: cs => calibEqns cs

/-- `block_to_sympy` (to_sympy.py:209-253) -/
def blockToSympy (asm : List (Str × Asm)) (b : Blk) : Except ConvErr Converted :=
  match convertAll asm b.definitions with
  | .error e => .error e
  | .ok ds =>
    match convertAll asm b.objective with
    | .error e => .error e
    | .ok os =>
      match convertAll asm b.constraints with
      | .error e => .error e
      | .ok cs =>
        match convertAll asm b.identities with
        | .error e => .error e
        | .ok is =>
          match convertAll asm (calibEqns b.calibration) with
          | .error e => .error e
          | .ok ks => .ok ⟨ds, os, cs, is, ks⟩

/-- `model_to_sympy` (to_sympy.py:256-279): a dictionary by block name -/
def modelToSympyLoop (asm : List (Str × Asm)) : List Blk → List (Str × Converted) → Except ConvErr (List (Str × Converted))
  | [], acc => .ok acc
  | b :: bs, acc =>
    match blockToSympy asm b with
    | .error e => .error e
    | .ok r => modelToSympyLoop asm bs (dset acc b.name r)

/-- `model_to_sympy` (to_sympy.py:256-279) -/
def modelToSympy (m : Mdl) : Except ConvErr (List (Str × Converted)) := modelToSympyLoop m.assumptions m.blocks []

/-- `ast_block_to_equations` (loader.py:152-192): the same without the calibration -/
def blockToEquations (asm : List (Str × Asm)) (b : Blk) : Except ConvErr Converted :=
  blockToSympy asm { b with calibration := [] }

/-- why the calibration function raises -/
inductive DErr where
  | conv (e : ConvErr)
  | dist (e : String)

/-- the three dictionaries (loader.py:215-218) -/
structure CalibDicts where
  params : List (Str × SExpr) := []
  calib : List (Str × SEq) := []
  priors : List (Str × PzCall) := []

/-- the key of a simple assignment (loader.py:238-241): the name of a symbol, else its text -/
def assignKey (shown : SExpr → Str) : SExpr → Str
  | .sym (.par n) => n
  | .sym (.tv x) => createName x
  | e => shown e

/-- the loop of `ast_block_to_calibration` (loader.py:220-241); `pz` says whether PreliZ performs the call. Keys of `calib` are symbols made
from a name; they are identified with the name. -/
def calibrationLoop (pz : PzCall → Bool) (shown : SExpr → Str) (asm : List (Str × Asm)) : List Calib → CalibDicts → Except DErr CalibDicts
  | [], acc => .ok acc
  | .dist d :: cs, acc =>
    match toPreliz d with
    | .error e => .error (.dist e)
    | .ok c =>
      if pz c then
        let acc := { acc with priors := dset acc.priors d.param c }
        let acc := match d.initial with
          | some v => { acc with params := dset acc.params d.param (.num v) }
          | none => acc
        calibrationLoop pz shown asm cs acc
      else .error (.dist "ValueError")
  | .eq e :: cs, acc =>
    match toSympy asm e.lhs with
    | .error e => .error (.conv e)
    | .ok l =>
      match toSympy asm e.rhs with
      | .error e => .error (.conv e)
      | .ok r =>
        match e.calibrating with
        | some p => calibrationLoop pz shown asm cs { acc with calib := dset acc.calib p ⟨l, r⟩ }
        | none => calibrationLoop pz shown asm cs { acc with params := dset acc.params (assignKey shown l) r }

/-- `ast_block_to_calibration` (loader.py:195-243) -/
def blockToCalibration (pz : PzCall → Bool) (shown : SExpr → Str) (asm : List (Str × Asm)) (b : Blk) : Except DErr CalibDicts :=
  calibrationLoop pz shown asm b.calibration {}

/-- the left-hand sides that are a single variable, dated now (loader.py:279-295); the others are skipped, but must convert -/
def lhsVars (asm : List (Str × Asm)) : List Eqn → Except ConvErr (List TSym)
  | [] => .ok []
  | e :: es =>
    match toSympy asm e.lhs with
    | .error e => .error e
    | .ok l =>
      match lhsVars asm es with
      | .error e => .error e
      | .ok xs => .ok (match l with | .sym (.tv x) => x.now :: xs | _ => xs)

/-- `ast_block_to_variables_and_shocks` (loader.py:246-297). `list(set(...))` has no fixed order: here that of first occurrence. -/
def blockToVariables (asm : List (Str × Asm)) (b : Blk) : Except ConvErr (List TSym × List TSym) :=
  match lhsVars asm (b.definitions ++ b.identities ++ b.objective ++ b.constraints) with
  | .error e => .error e
  | .ok xs => .ok (((b.controls.map fun v => (convVar asm v.name v.t).now) ++ xs).eraseDups,
      (b.shocks.map fun v => (convVar asm v.name v.t).now).eraseDups)

end GE.Dir
