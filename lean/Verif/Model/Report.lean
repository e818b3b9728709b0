import Verif.Model.Build
import Verif.Model.SSDriver
/-!
# The report after building a model (`gEconpy/model/build.py:716-853`)

Texts are lists of characters. The log is the text handed to `_log.info`.
-/

namespace GE

/-- `", ".join(names)` -/
def commaJoin : List Str → Str
  | [] => []
  | [n] => n
  | n :: ns => n ++ ", ".toList ++ commaJoin ns

/-- `len(s.expandtabs())` starting in a column; a line break starts a new line (`str.expandtabs`) -/
def expandedLen : Nat → Nat → Str → Nat
  | _, len, [] => len
  | col, len, c :: cs =>
    if c = '\t' then expandedLen (col + (8 - col % 8)) (len + (8 - col % 8)) cs
    else if c = '\n' then expandedLen 0 (len + 1) cs
    else expandedLen (col + 1) (len + 1) cs

/-- `len(s.expandtabs())` -/
def tabLen (s : Str) : Nat := expandedLen 0 0 s

/-- the loop of `_format_ss_var_list` (build.py:724-737): finished lines and the current one; `first` is `i == 0` -/
def wrapNames (indent : Str) (width : Nat) : Bool → Str → List Str → Str
  | _, cur, [] => cur ++ ['\n']
  | first, cur, n :: ns =>
    let candidate := n ++ (if ns = [] then [] else ", ".toList)
    if first then wrapNames indent width false (cur ++ candidate) ns
    else if width < tabLen cur + candidate.length then cur ++ ['\n'] ++ wrapNames indent width false (indent ++ candidate) ns
    else wrapNames indent width false (cur ++ candidate) ns

/-- `_format_ss_var_list` (build.py:716-740) -/
def formatSSVarList (label : Str) (names : List Str) (width : Nat := 80) : Str :=
  let pre := "\t\t".toList ++ label ++ ": ".toList
  wrapNames (List.replicate (tabLen pre) ' ') width true pre names

/-- `_pluralize` (build.py:743-748) -/
def pluralize (word : Str) (count : Nat) : Str :=
  if word = "has".toList then (if count = 1 then word else "have".toList)
  else if count = 1 then word else word ++ "s".toList

/-- the arguments of `build_report` (build.py:748-761) that it uses: lengths and names. A missing list and an empty one are the same to it. -/
structure ReportIn where
  nEq : Nat
  nVar : Nat
  nShock : Nat
  nCalib : Nat
  nFree : Nat
  nParamPriors : Nat
  nShockPriors : Nat
  reducedVars : List Str
  reducedParams : List Str
  singletons : List Str
  userSS : List Str
  inferredSS : List Str

/-- a section with names, there only if there are names -/
def namesSection (head : Str) (names : List Str) : Str :=
  if names = [] then [] else head ++ "\t\t\t".toList ++ commaJoin names ++ ['\n']

/-- the lines on steady-state values (build.py:828-837) -/
def ssSection (r : ReportIn) : Str :=
  let total := r.userSS.length + r.inferredSS.length
  if 0 < total then
    "\t".toList ++ natStr total ++ " / ".toList ++ natStr r.nVar ++ " variables have analytical steady-state values.".toList ++ ['\n'] ++
      (if 0 < r.userSS.length then formatSSVarList (natStr r.userSS.length ++ " user-provided".toList) r.userSS else []) ++
      (if 0 < r.inferredSS.length then formatSSVarList (natStr r.inferredSS.length ++ " inferred".toList) r.inferredSS else [])
  else []

/-- the pieces `build_report` adds to its text one after the other (build.py:806-841) -/
def reportPieces (r : ReportIn) : List Str :=
  ["Model Building Complete.\nFound:\n".toList,
   "\t".toList ++ natStr r.nEq ++ " ".toList ++ pluralize "equation".toList r.nEq ++ ['\n'],
   "\t".toList ++ natStr r.nVar ++ " ".toList ++ pluralize "variable".toList r.nVar ++ ['\n'],
   namesSection "\t\tThe following variables were eliminated at user request:\n".toList r.reducedVars,
   namesSection "\t\tThe following \"variables\" were defined as constants and have been substituted away:\n".toList r.singletons,
   "\t".toList ++ natStr r.nShock ++ " stochastic ".toList ++ pluralize "shock".toList r.nShock ++ ['\n'],
   "\t\t ".toList ++ natStr r.nShockPriors ++ " / ".toList ++ natStr r.nShock ++ " ".toList ++ pluralize "has".toList r.nShockPriors ++
     " a defined prior.".toList ++ ['\n'],
   "\t".toList ++ natStr (r.nFree + r.nCalib) ++ " ".toList ++ pluralize "parameter".toList (r.nFree + r.nCalib) ++ ['\n'],
   namesSection "\t\tThe following parameters were eliminated via substitution into other parameters:\n".toList r.reducedParams,
   "\t\t ".toList ++ natStr r.nParamPriors ++ " / ".toList ++ natStr (r.nFree + r.nCalib) ++ " ".toList ++ pluralize "has".toList r.nParamPriors ++
     " a defined prior.".toList ++ ['\n'],
   "\t".toList ++ natStr r.nCalib ++ " ".toList ++ pluralize "parameter".toList r.nCalib ++ " to calibrate.".toList ++ ['\n'],
   ssSection r,
   if r.nEq = r.nVar then "Model appears well defined and ready to proceed to solving.".toList ++ ['\n'] else []]

/-- the text logged by `build_report` (build.py:853) -/
def reportText (r : ReportIn) : Str := (reportPieces r).flatten

/-- the warning of `build_report` (build.py:842-851) -/
def reportWarning (r : ReportIn) : Option Str :=
  if r.nEq = r.nVar then none
  else some ("The model does not appear correctly specified, there are ".toList ++ natStr r.nEq ++ " ".toList ++ pluralize "equation".toList r.nEq ++
    " but ".toList ++ natStr r.nVar ++ " ".toList ++ pluralize "variable".toList r.nVar ++
    ". It will not be possible to solve this model. Please check the specification using available diagnostic tools, and check the GCN file for typos.".toList)

/-- the call in `_compile_gcn` (build.py:428, 435-457): inferred are the steady-state values the user did not provide -/
def reportOf (out : BuildOut) : ReportIn where
  nEq := out.equations.length
  nVar := out.vars.length
  nShock := out.shocks.length
  nCalib := out.calib.length
  nFree := out.param.length
  nParamPriors := out.paramPriors.length
  nShockPriors := out.shockPriors.length
  reducedVars := out.reducedVars.map createName
  reducedParams := out.reducedParams
  singletons := out.singletons.map createName
  userSS := out.userSS.map symName
  inferredSS := ((dkeys out.ssRel).filter fun k => k ∉ out.userSS).map symName

end GE
