import Verif.Model.Base
/-!
# `gEconpy/classes/time_aware_symbol.py`
-/

namespace GE

/-- `time_index: int | "ss"` (classes/time_aware_symbol.py:43). Other strings are rejected by `set_t` only;
they are represented in `setTArg` below. -/
inductive TIdx where
  | t (k : Int)
  | ss
  deriving DecidableEq, Repr

/-- sympy assumptions (`assumptions0`), an opaque dictionary of flags. -/
abbrev Asm := List (Str × Bool)

/-- `DEFAULT_ASSUMPTIONS` (classes/time_aware_symbol.py:11). -/
def defaultAssumptions : Asm := [(['r','e','a','l'], true), (['f','i','n','i','t','e'], true)]

/-- `merge_assumptions` (classes/time_aware_symbol.py:14-16): `{**DEFAULT, **user}`. -/
def mergeAssumptions (user : Option Asm) : Asm := dupdate defaultAssumptions (user.getD [])

/-- `TimeAwareSymbol` (classes/time_aware_symbol.py:19-66): base name, index and assumptions
(`_hashable_content`, lines 94-95, compares exactly these). -/
structure TSym where
  base : Str
  idx : TIdx
  asm : Asm := []
  deriving DecidableEq, Repr

inductive PyErr where
  | typeError | valueError | keyError
  deriving DecidableEq, Repr

/-- `_determine_operator` (classes/time_aware_symbol.py:68-77). -/
def determineOperator : TIdx → Str
  | .ss => []
  | .t k => if k > 0 then ['+'] else if k < 0 then ['-'] else []

/-- `str(abs(idx))` (classes/time_aware_symbol.py:83): decimal digits. -/
def natStr (n : Nat) : Str := Nat.toDigits 10 n

/-- `_create_name_from_time_index` (classes/time_aware_symbol.py:79-92). -/
def createName (s : TSym) : Str :=
  match s.idx with
  | .ss => s.base ++ ['_', 's', 's']
  | .t k =>
    let idx := natStr k.natAbs
    if idx = ['0'] then s.base ++ ['_', 't']
    else s.base ++ ['_', 't'] ++ determineOperator s.idx ++ idx

/-- `.replace("+", "p").replace("-", "m")` (classes/time_aware_symbol.py:65). -/
def replacePM (s : Str) : Str :=
  (s.map fun c => if c = '+' then 'p' else c).map fun c => if c = '-' then 'm' else c

/-- `safe_name` (classes/time_aware_symbol.py:65). -/
def safeName (s : TSym) : Str := replacePM (createName s)

/-- `step_forward` (classes/time_aware_symbol.py:106-108): `"ss" + 1` raises TypeError. -/
def stepForward (s : TSym) : Except PyErr TSym :=
  match s.idx with
  | .t k => .ok { s with idx := .t (k + 1) }
  | .ss => .error .typeError

/-- `step_backward` (classes/time_aware_symbol.py:110-112). -/
def stepBackward (s : TSym) : Except PyErr TSym :=
  match s.idx with
  | .t k => .ok { s with idx := .t (k - 1) }
  | .ss => .error .typeError

/-- `to_ss` (classes/time_aware_symbol.py:114-120). -/
def toSS (s : TSym) : TSym := { s with idx := .ss }

/-- `exit_ss` (classes/time_aware_symbol.py:122-124). -/
def exitSS (s : TSym) : TSym :=
  match s.idx with
  | .ss => { s with idx := .t 0 }
  | .t _ => s

/-- the argument of `set_t`: an int or any string -/
inductive SetTArg where
  | int (k : Int)
  | str (s : Str)
  deriving DecidableEq, Repr

/-- `set_t` (classes/time_aware_symbol.py:126-137). -/
def setT (s : TSym) : SetTArg → Except PyErr TSym
  | .str w => if w ≠ ['s', 's'] then .error .valueError else .ok { s with idx := .ss }
  | .int k => .ok { s with idx := .t k }

end GE
