import Verif.Model.Ast
/-! # `gEconpy/parser/ast/validation.py`, `gEconpy/parser/preprocessor.py`, `ErrorCollector` (parser/errors.py:576-640) -/

namespace GE

/-- the errors and warnings of validation.py, with the names in their messages -/
inductive VErr where
  | dupControl (name block : Str)
  | dupShock (name block : Str)
  | dupCalib (name block : Str)
  | noObjective (block : Str)
  | noConstraints (block : Str)
  | dupBlock (name : Str)
  | multiParam (name : Str) (blocks : List Str)
  | undefVar (name : Str)
  | undefParam (name : Str)
  deriving DecidableEq

/-- `severity` is `ERROR` (the default) or `WARNING` (validation.py:84, 92, 251, 300) -/
def VErr.isError : VErr → Bool
  | .noObjective _ | .noConstraints _ | .undefVar _ | .undefParam _ => false
  | _ => true

/-- the loop `for name in names: if name in seen: errors.add(...); seen.add(name)` (validation.py:37-45, 48-56, 59-76, 122-127) -/
def dupLoop (mk : Str → VErr) : List Str → List Str → List VErr
  | [], _ => []
  | n :: ns, seen => (if n ∈ seen then [mk n] else []) ++ dupLoop mk ns (n :: seen)

/-- the parameter a calibration item defines: a prior, or an equation whose left-hand side is a bare parameter
(validation.py:60-67, 153-157, 162-166) -/
def Calib.definedParam : Calib → Option Str
  | .dist d => some d.param
  | .eq e => match e.lhs with | .par n => some n | _ => none

/-- `validate_block` (validation.py:21-96) -/
def validateBlock (b : Blk) : List VErr :=
  dupLoop (.dupControl · b.name) (b.controls.map VarRef.name) [] ++
  dupLoop (.dupShock · b.name) (b.shocks.map VarRef.name) [] ++
  dupLoop (.dupCalib · b.name) (b.calibration.filterMap Calib.definedParam) [] ++
  (if b.controls ≠ [] ∧ b.objective.isEmpty then [.noObjective b.name] else []) ++
  (if ¬ b.objective.isEmpty ∧ b.constraints.isEmpty then [.noConstraints b.name] else [])

/-- `param_definitions` (validation.py:160-166): parameter name ↦ names of the defining blocks, one entry per definition -/
def paramDefinitions (m : Mdl) : List (Str × List Str) :=
  (m.blocks.flatMap fun b => (b.calibration.filterMap Calib.definedParam).map fun n => (n, b.name)).foldl
    (fun d p => dset d p.1 ((dget d p.1).getD [] ++ [p.2])) []

/-- `validate_model` (validation.py:99-178); the sets collected in lines 129-157 are never read -/
def validateModel (m : Mdl) : List VErr :=
  m.blocks.flatMap validateBlock ++
  dupLoop .dupBlock (m.blocks.map Blk.name) [] ++
  (paramDefinitions m).filterMap fun p => if p.2.length > 1 then some (.multiParam p.1 p.2) else none

/-- the name defined by the left-hand side (validation.py:233-238) -/
def Eqn.definedVar (e : Eqn) : Option Str := match e.lhs with | .var n _ => some n | _ => none

/-- `defined_vars` (validation.py:227-238) -/
def definedVars (m : Mdl) : List Str :=
  m.blocks.flatMap fun b => b.controls.map VarRef.name ++ b.shocks.map VarRef.name ++
    (b.definitions ++ b.identities).filterMap Eqn.definedVar ++ b.objective.filterMap Eqn.definedVar

/-- `used_vars` (validation.py:241-246): only right-hand sides -/
def usedVars (m : Mdl) : List Str :=
  m.blocks.flatMap fun b => (b.definitions ++ b.constraints ++ b.identities ++ b.objective).flatMap fun e => e.rhs.vars.map Prod.fst

/-- `a` may precede `b` in `sorted` (Python compares strings by code point) -/
def strLe (a b : Str) : Bool := decide (a ≤ b)

/-- `sorted(set - ...)`: each name once, in increasing order (validation.py:249-250, 298-299) -/
def sortedMissing (used defined ext : List Str) : List Str :=
  ((used.eraseDups).filter fun n => n ∉ defined ∧ n ∉ ext).mergeSort strLe

/-- `check_undefined_variables` (validation.py:204-253) -/
def checkUndefinedVars (m : Mdl) (ext : List Str) : List VErr := (sortedMissing (usedVars m) (definedVars m) ext).map .undefVar

/-- `calibrated_params` (validation.py:279-285) -/
def calibratedParams (m : Mdl) : List Str := m.blocks.flatMap fun b => b.calibration.filterMap Calib.definedParam

/-- `used_params` (validation.py:288-295) -/
def usedParams (m : Mdl) : List Str :=
  m.blocks.flatMap fun b => (b.definitions ++ b.constraints ++ b.identities ++ b.objective).flatMap fun e => e.lhs.pars ++ e.rhs.pars

/-- `check_undefined_parameters` (validation.py:256-302) -/
def checkUndefinedParams (m : Mdl) (ext : List Str) : List VErr := (sortedMissing (usedParams m) (calibratedParams m) ext).map .undefParam

/-- `full_validation` (validation.py:305-341) -/
def fullValidation (m : Mdl) (extV extP : List Str) : List VErr :=
  validateModel m ++ checkUndefinedVars m extV ++ checkUndefinedParams m extP

/-- `ErrorCollector.has_errors` (errors.py:623-626) -/
def hasErrors (es : List VErr) : Bool := es.any VErr.isError

/-- `ErrorCollector.raise_first` (errors.py:617-621) -/
def raiseFirst (es : List VErr) : Except VErr Unit :=
  match es.find? VErr.isError with
  | some e => .error e
  | none => .ok ()

/-- `ParseResult.validate` (preprocessor.py:78-95) -/
def resultValidate (m : Mdl) (raiseOnError : Bool) : Except VErr (List VErr) :=
  let errors := fullValidation m [] []
  if raiseOnError ∧ hasErrors errors then
    match raiseFirst errors with
    | .error e => .error e
    | .ok () => .ok errors
  else .ok errors

/-- what can go wrong in `preprocess`: a syntax error or a semantic error -/
inductive PErr (σ : Type) where
  | grammar (e : σ)
  | semantic (e : VErr)

/-- `preprocess` (preprocessor.py:98-138); `parse` is `parse_gcn` -/
def preprocess {σ : Type} (parse : Str → Except σ Mdl) (source : Str) (validate : Bool) : Except (PErr σ) Mdl :=
  match parse source with
  | .error e => .error (.grammar e)
  | .ok ast =>
    if validate then
      match resultValidate ast false with
      | .error e => .error (.semantic e)
      | .ok _ => .ok ast
    else .ok ast

end GE
