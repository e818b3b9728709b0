import Verif.Model.ErrorText
/-!
# `gEconpy/exceptions.py`: the text of an error found while a block is checked

The classes `GCNValidationError`, `DynamicCalibratingEquationException`, `ControlVariableNotFoundException` and
`DuplicateParameterError`, and which place of the file the block hands to them (`parser/transform/to_block.py`,
`model/block/basic.py`).
-/

namespace GE.VTx
open Prt Err

/-- the characters that end a line for `str.splitlines()` -/
def isBreak (c : Char) : Bool :=
  c ∈ ['\n', '\r', '\x0b', '\x0c', '\x1c', '\x1d', '\x1e', '\u0085', '\u2028', '\u2029']

/-- `text.splitlines()`: `"\r\n"` is one break, and a break at the end starts no line -/
def splitlines : Str → List Str
  | [] => []
  | '\r' :: '\n' :: cs => [] :: splitlines cs
  | c :: cs =>
    if isBreak c then [] :: splitlines cs
    else match splitlines cs with
      | [] => [[c]]
      | l :: ls => (c :: l) :: ls

/-- `c.isspace()` -/
def isSpace (c : Char) : Bool :=
  isBreak c || c ∈ ['\t', ' ', '\x1f', '\u00a0', '\u1680', '\u2000', '\u2001', '\u2002', '\u2003', '\u2004', '\u2005', '\u2006', '\u2007', '\u2008', '\u2009',
    '\u200a', '\u202f', '\u205f', '\u3000']

/-- `s.rstrip()` -/
def rstripPy (s : Str) : Str := ((s.reverse).dropWhile isSpace).reverse

/-- a `GCNValidationError` (exceptions.py:53-73); `error_code`, `annotation` and `filepath` that are `None` are empty here, which the
code does not distinguish -/
structure VErrIn where
  message : Str
  source : Option Str := none
  location : Option Loc := none
  annotation : Str := []
  notes : List Str := []
  filepath : Str := []
  code : Str := []

/-- `f"{n:>{width}}"` -/
def padTo (width n : Nat) : Str := List.replicate (width - (natStr n).length) ' ' ++ natStr n

/-- one line of the source (exceptions.py:115-120) -/
def vRow (width n : Nat) (line : Str) : Str :=
  let t := rstripPy line
  if t ≠ [] then "  ".toList ++ padTo width n ++ " | ".toList ++ t else "  ".toList ++ padTo width n ++ " |".toList

/-- the carets and the annotation (exceptions.py:123-137) -/
def vCarets (width : Nat) (l : Loc) (annotation : Str) : Str :=
  List.replicate ((width + 5 : Nat) + (l.column - 1)).toNat ' '
  ++ List.replicate (match l.endColumn with | some e => (max 1 (e - l.column)).toNat | none => 3) '^'
  ++ (if annotation ≠ [] then ' ' :: annotation else [])

/-- lines `a, a+1, …`, `n` of them (exceptions.py:113-137) -/
def vRows (width : Nat) (lines : List Str) (l : Loc) (annotation : Str) : Nat → Nat → List Str
  | _, 0 => []
  | a, n + 1 => vRow width a (lines[a - 1]?.getD [])
      :: ((if a = l.line then [vCarets width l annotation] else []) ++ vRows width lines l annotation (a + 1) n)

/-- `_format_with_source` (exceptions.py:82-144) -/
def withSource (e : VErrIn) (source : Str) (l : Loc) : Str :=
  let lines := splitlines source
  if l.line < 1 ∨ lines.length < l.line then e.message
  else
    let start := l.line - 2
    let stop := min lines.length (l.line + 2)
    joinText ['\n']
      ([if e.code ≠ [] then "error[".toList ++ e.code ++ "]: ".toList ++ e.message else e.message,
        "  --> ".toList ++ (if e.filepath ≠ [] then e.filepath else "<source>".toList) ++ ':' :: (natStr l.line ++ ':' ::
          intText (if l.column = 0 then 1 else l.column)),
        "     |".toList]
      ++ vRows (natStr stop).length lines l e.annotation (start + 1) (stop - start)
      ++ ["     |".toList] ++ e.notes.map ("   = note: ".toList ++ ·))

/-- `_format_message` (exceptions.py:75-80), which is `str(error)` -/
def VErrIn.text (e : VErrIn) : Str :=
  match e.source, e.location with
  | some s, some l => withSource e s l
  | _, _ => e.message

/-- `DynamicCalibratingEquationException` (exceptions.py:147-175) -/
def dynamicCalibrating (block : Str) (source : Option Str) (location : Option Loc) : VErrIn where
  message := "Calibrating equation in block ".toList ++ block ++ " uses non-steady-state variables".toList
  source := source
  location := location
  annotation := "variables must use [ss] time index".toList
  notes := ["Calibrating equations define steady-state relationships".toList, "Use X[ss] instead of X[] for all variables".toList]
  code := "V001".toList

/-- `ControlVariableNotFoundException` (exceptions.py:208-237); `control` is `str(control)` -/
def controlNotFound (block control : Str) (source : Option Str) (location : Option Loc) : VErrIn where
  message := "Control variable '".toList ++ control ++ "' in block ".toList ++ block ++ " not found in equations".toList
  source := source
  location := location
  annotation := "undeclared control variable".toList
  notes := ["Control variables must appear in the objective or constraints".toList, "Check spelling of the variable name".toList,
    "Verify the variable has the correct time index".toList]
  code := "V002".toList

/-- `DuplicateParameterError` (exceptions.py:359-388), raised with a block -/
def duplicateParameter (names : List Str) (block : Str) (source : Option Str) (location : Option Loc) : VErrIn where
  message := "Duplicate parameter declaration in ".toList ++ (if block ≠ [] then "block ".toList ++ block else "calibration blocks".toList)
  source := source
  location := location
  annotation := '\'' :: (joinText ", ".toList names ++ "' already defined".toList)
  notes := ["Each parameter should be declared only once".toList, "Remove the duplicate declaration".toList]
  code := "V003".toList

/-- what a block declares, with places: controls, shocks, and calibration items. A calibration equation is known by its calibrated
parameter or, without one, by the name on its left, if its left is a name (to_block.py:213-229) -/
structure Declared where
  controls : List (Str × Option Loc) := []
  shocks : List (Str × Option Loc) := []
  calibration : List (Option Str × Option Loc) := []

/-- one entry of `symbol_locations` -/
def noteLoc (d : List (Str × Loc)) (p : Option Str × Option Loc) : List (Str × Loc) :=
  match p with
  | (some n, some l) => dset d n l
  | _ => d

/-- `symbol_locations` (to_block.py:131-140, 171, 210-229) -/
def symbolLocations (b : Declared) : List (Str × Loc) :=
  dupdate (((b.controls ++ b.shocks).map fun p => (some p.1, p.2)).foldl noteLoc []) (b.calibration.foldl noteLoc [])

/-- the error for duplicated parameters (basic.py:453-457) -/
def duplicateError (b : Declared) (block : Str) (source : Option Str) (names : List Str) : Option VErrIn :=
  match names with
  | [] => none
  | n :: ns => some (duplicateParameter (n :: ns) block source (dget (symbolLocations b) n))

/-- the error for a control no equation mentions (basic.py:238-245); `name` is `control.base_name`, `control` is `str(control)` -/
def controlError (b : Declared) (block name control : Str) (source : Option Str) : VErrIn :=
  controlNotFound block control source (dget (symbolLocations b) name)

/-- the error for a calibrating equation with dated variables (basic.py:421-425) -/
def calibratingError (b : Declared) (block param : Str) (source : Option Str) : VErrIn :=
  dynamicCalibrating block source (dget (symbolLocations b) param)

end GE.VTx
