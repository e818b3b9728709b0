import Verif.Model.ErrorCatalog
import Verif.Model.ParserMisc
/-!
# How a syntax error is classified: `StructuralErrorHandler` of `grammar/gcn_file.py` and the errors of `parse_expression`

What pyparsing reports (`exc.msg`, `exc.found`, `exc.expected`, the position) is an input. `alpha` is `str.isalpha` of one character;
`lower()` is modelled for the letters of ASCII.
-/

namespace GE.Cat
open Prt Err

/-! ## the catalog -/

/-- `ErrorCode[c].value`, or `KeyError`; `get_error_info(c)` (error_catalog.py:413-432) -/
def errorInfo (c : Str) : Option Info := dget catalog c

/-- `ErrorCode[c].name`: an `Enum` makes the members with equal values one member, with the name that came first -/
def memberName (c : Str) : Option Str := (errorInfo c).bind fun i => (catalog.find? fun p => p.2 = i).map (·.1)

/-- `ErrorCode.format_help`, line by line (error_catalog.py:394-410) -/
def helpLines (name : Str) (i : Info) : List Str :=
  [name ++ ": ".toList ++ i.title, [], i.explanation, [], "Common causes:".toList]
  ++ i.causes.map ("  - ".toList ++ ·) ++ [[], "How to fix:".toList] ++ i.fixes.map ("  - ".toList ++ ·)

/-- `format_error_help(c)` (error_catalog.py:435-454) -/
def help (c : Str) : Str :=
  match errorInfo c, memberName c with
  | some i, some n => joinText ['\n'] (helpLines n i)
  | _, _ => []

/-- `code.title` -/
def title (c : Str) : Str := ((errorInfo c).map (·.title)).getD []

/-- `code.info.fixes` -/
def fixes (c : Str) : List Str := ((errorInfo c).map (·.fixes)).getD []

/-! ## `StructuralErrorHandler` -/

/-- `BLOCK_COMPONENTS`, in lower case (constants.py:25-33, gcn_file.py:18) -/
def componentKeywords : List Str := ["definitions".toList, "controls".toList, "objective".toList, "constraints".toList,
  "identities".toList, "shocks".toList, "calibration".toList]

/-- `StructuralErrorHandler` (gcn_file.py:155-160) -/
structure Handler where
  msg : Str
  expected : Str
  found : Str

/-- `found_clean` (gcn_file.py:159) -/
def Handler.clean (h : Handler) : Str := stripQuotes h.found

/-- `_is_semicolon_error` (gcn_file.py:162-172) -/
def Handler.isSemicolon (alpha : Char → Bool) (h : Handler) : Bool :=
  if isIn "Expected ';'".toList h.msg || h.expected == ";".toList || h.expected == "';'".toList then true
  else if componentKeywords.contains (lowerStr h.clean) then true
  else isIn "Expected '}'".toList h.msg && (h.clean.head?.map alpha).getD false && !isIn "end of text".toList (lowerStr h.clean)

/-- `_is_paren_error` (gcn_file.py:174-177) -/
def Handler.isParen (h : Handler) : Bool :=
  if h.clean == ")".toList || h.clean == "(".toList then true
  else isIn "Expected ')'".toList h.msg || isIn "Expected '('".toList h.msg

/-- `_is_brace_error` (gcn_file.py:179-184) -/
def Handler.isBrace (h : Handler) : Bool :=
  if h.clean == "{".toList || h.clean == "}".toList then true
  else (isIn "Expected '{'".toList h.msg || isIn "Expected '}'".toList h.msg)
    && (h.clean.isEmpty || isIn "end of text".toList (lowerStr h.clean))

/-- `_is_missing_rhs_error` (gcn_file.py:186-187) -/
def Handler.isMissingRhs (h : Handler) : Bool := isIn "Expected '+'".toList h.msg || isIn "operations".toList (lowerStr h.msg)

/-- `get_error_code` (gcn_file.py:189-204) -/
def Handler.code (alpha : Char → Bool) (h : Handler) : Str :=
  if h.isParen then "E007".toList
  else if h.isSemicolon alpha then "E001".toList
  else if h.isBrace then "E002".toList
  else if h.isMissingRhs then "E005".toList
  else "E000".toList

/-- `get_message` (gcn_file.py:206-214) -/
def Handler.message (alpha : Char → Bool) (h : Handler) : Str :=
  if h.code alpha ≠ "E000".toList then
    if h.code alpha = "E001".toList ∧ lowerStr h.clean ∈ componentKeywords then title (h.code alpha) ++ " after previous statement".toList
    else title (h.code alpha)
  else "Syntax error: ".toList ++ h.msg

/-- `get_annotation` (gcn_file.py:216-225) -/
def Handler.annotation (alpha : Char → Bool) (h : Handler) : Str :=
  if h.code alpha ≠ "E000".toList then lowerStr (title (h.code alpha))
  else if h.found ≠ [] then "unexpected '".toList ++ h.found ++ ['\''] else []

/-- `get_notes` (gcn_file.py:227-233) -/
def Handler.notes (alpha : Char → Bool) (h : Handler) : List Str :=
  if h.code alpha ≠ "E000".toList then fixes (h.code alpha) else []

/-- `_get_semantic_annotation` (gcn_file.py:123-130) -/
def semanticAnnotation (f : Fail) : Str :=
  if f.code = "E010".toList then "invalid time index '".toList ++ f.found ++ ['\'']
  else if f.code = "E005".toList ∧ f.msg ≠ [] then lowerStr f.msg
  else lowerStr (title f.code)

/-- `_convert_parse_exception` (gcn_file.py:76-120): `msg`, `expected` and `found` are what pyparsing's exception carries (empty for
missing), `loc` is its position, `comps` is `suggest_block_component` -/
def convertException (alpha : Char → Bool) (comps : Str → List Str) (msg expected found : Str) (text : Str) (loc : Nat) (filename : Str) : Error :=
  let f := decode msg found
  if f.code = "E000".toList then
    let h : Handler := ⟨msg, expected, found⟩
    { cls := .grammar
      message := grammarMessage (h.message alpha) [] h.found
      location := some (gcnLocation text loc h.found filename)
      code := some (h.code alpha)
      annotation := h.annotation alpha
      notes := h.notes alpha
      found := h.found }
  else convertFailure fixes comps semanticAnnotation text loc f filename

/-- `exc.found` of pyparsing for a word that needs no escapes: `repr(word)` -/
def pyFound (w : Str) : Str := quoted w

/-! ## `parse_expression` -/

/-- `_classify_expression_error` (expressions.py:241-264) -/
def classify (msg expected found : Str) : Str :=
  if isIn "Empty function call".toList msg then (splitSep ". E008".toList msg).headD []
  else if isIn "Invalid time index".toList msg then (splitSep ". E010".toList msg).headD []
  else if isIn "end of text".toList (lowerStr msg) then
    if found ∈ ["^".toList, "**".toList, "*".toList, "/".toList, "+".toList, "-".toList] then
      "Unexpected operator '".toList ++ found ++ "' at end of expression".toList
    else "Incomplete expression".toList
  else if (expected ≠ [] ∧ '+' ∈ expected) ∨ '-' ∈ expected then "Missing operand after operator".toList
  else if '(' ∈ msg ∨ ')' ∈ msg then "Unbalanced parentheses".toList
  else if '[' ∈ msg ∨ ']' ∈ msg then "Invalid variable syntax".toList
  else "Invalid expression syntax: ".toList ++ msg

/-- `_get_error_code` (expressions.py:267-283) -/
def expressionCode (msg expected : Str) : Str :=
  if isIn "E008".toList msg || isIn "Empty function call".toList msg then "E008".toList
  else if isIn "E010".toList msg || isIn "Invalid time index".toList msg then "E010".toList
  else if '(' ∈ msg ∨ ')' ∈ msg then "E007".toList
  else if expected ≠ [] ∧ ('+' ∈ expected ∨ '-' ∈ expected ∨ '*' ∈ expected) then "E006".toList
  else if '[' ∈ msg ∨ ']' ∈ msg then "E010".toList
  else "E006".toList

/-- the message and the code of the error `parse_expression` raises (`_convert_parse_exception`, expressions.py:214-238) -/
def expressionError (msg expected found : Str) : Str × Str :=
  (grammarMessage (classify msg expected found) (if expected = [] then [] else [expected]) found, expressionCode msg expected)

/-- the failure of a call without arguments (`_empty_function_fail`, expressions.py:139-147) -/
def emptyCall (name : Str) : Fail := ⟨"Empty function call '".toList ++ name ++ "()'".toList, "E008".toList, name ++ "()".toList, []⟩

/-- the failure of an index that is no index (`_invalid_time_index_fail`, expressions.py:54-64) -/
def badIndex (name content : Str) : Fail :=
  ⟨"Invalid time index '[".toList ++ content ++ "]' for variable '".toList ++ name ++ "'".toList, "E010".toList,
    '[' :: (content ++ [']']), []⟩

end GE.Cat
