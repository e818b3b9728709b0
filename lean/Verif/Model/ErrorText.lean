import Verif.Model.PrintText
/-!
# `gEconpy/parser/errors.py`, `formatting.py` and the error half of `grammar/gcn_file.py`: where an error is and what is shown

pyparsing reports a position in the text *after* `str.expandtabs()`; which position it reports is not modelled. Colours are off
(`use_color=False`, or output that is no terminal).
-/

namespace GE.Err
open Prt

/-! ## pyparsing and Python primitives -/

/-- `s.rfind("\n", 0, loc)` -/
def rfindNl (s : Str) (loc : Nat) : Int := go 0 (s.take loc) (-1)
where
  go : Nat → Str → Int → Int
    | _, [], acc => acc
    | i, c :: cs, acc => go (i + 1) cs (if c = '\n' then i else acc)

/-- `pyparsing.lineno(loc, s)`: `s.count("\n", 0, loc) + 1` -/
def lineno (s : Str) (loc : Nat) : Nat := (s.take loc).count '\n' + 1

/-- `pyparsing.col(loc, s)`: `1 if 0 < loc < len(s) and s[loc - 1] == "\n" else loc - s.rfind("\n", 0, loc)` -/
def col (s : Str) (loc : Nat) : Int :=
  if 0 < loc ∧ loc < s.length ∧ s[loc - 1]? = some '\n' then 1 else loc - rfindNl s loc

/-- `text.split("\n")` -/
def splitNl : Str → List Str
  | [] => [[]]
  | c :: cs =>
    if c = '\n' then [] :: splitNl cs
    else match splitNl cs with
      | [] => [[c]]
      | l :: ls => (c :: l) :: ls

/-- `s.expandtabs()`, which `parse_string` applies first; the first argument is the column -/
def expandTabs : Nat → Str → Str
  | _, [] => []
  | k, c :: cs =>
    if c = '\t' then List.replicate (8 - k % 8) ' ' ++ expandTabs 0 cs
    else c :: expandTabs (if c = '\n' ∨ c = '\r' then 0 else k + 1) cs

/-- `sep in s` -/
def isIn (sep : Str) : Str → Bool
  | [] => sep.isEmpty
  | c :: cs => sep.isPrefixOf (c :: cs) || isIn sep cs

/-- `s.split(sep)` for a separator that is not empty -/
def splitSep (sep : Str) (s : Str) : List Str := go s 0 []
where
  go : Str → Nat → Str → List Str
    | [], _, cur => [cur]
    | _ :: cs, k + 1, cur => go cs k cur
    | c :: cs, 0, cur => if sep.isPrefixOf (c :: cs) then cur :: go cs (sep.length - 1) [] else go cs 0 (cur ++ [c])

/-- `s.strip("'\"")` -/
def stripQuotes (s : Str) : Str :=
  let q := fun c : Char => c == '\'' || c == '"'
  (((s.dropWhile q).reverse).dropWhile q).reverse

/-- `s.rstrip()`, for the white space the grammar knows -/
def rstrip (s : Str) : Str := ((s.reverse).dropWhile isWs).reverse

/-! ## failures that carry data -/

/-- names of `ErrorCode` (error_catalog.py:38-366) -/
def codes : List Str := ["E000".toList, "E001".toList, "E002".toList, "E003".toList, "E004".toList, "E005".toList, "E006".toList,
  "E007".toList, "E008".toList, "E009".toList, "E010".toList, "E011".toList, "E012".toList, "E013".toList, "E014".toList,
  "E015".toList, "E016".toList, "E100".toList, "E101".toList, "E102".toList, "E103".toList, "W001".toList, "W002".toList,
  "W003".toList]

/-- `SEPARATOR` (errors.py:31) -/
def separator : Str := "||GCN||".toList

/-- what a failure carries -/
structure Fail where
  msg : Str
  code : Str
  found : Str
  suggestions : List Str

/-- the message `GCNParseFailure` hands to pyparsing (errors.py:33-46) -/
def encode (f : Fail) : Str := joinText separator [f.msg, f.code, f.found, joinText [','] f.suggestions]

/-- `GCNParseFailure.decode` (errors.py:52-77); `excFound` is `exc.found or ""` -/
def decode (msg excFound : Str) : Fail :=
  if isIn separator msg then
    match splitSep separator msg with
    | [m, c, f, s] => ⟨m, if c ∈ codes then c else "E000".toList, f, (splitSep [','] s).filter (· ≠ [])⟩
    | _ => ⟨msg, "E000".toList, [], []⟩
  else ⟨msg, "E000".toList, excFound, []⟩

/-- the message of `GCNParseFailure.copy()` (errors.py:79-89): attributes are kept, the message up to the first separator -/
def copyMsg (f : Fail) : Str :=
  let m := encode f
  encode { f with msg := if isIn separator m then (splitSep separator m).headD [] else m }

/-! ## locations -/

/-- `ParseLocation` (errors.py:92-132) -/
structure Loc where
  line : Nat
  column : Int
  endLine : Option Nat := none
  endColumn : Option Int := none
  sourceLine : Str := []
  filename : Str := []

/-- the location of a parse error (`_convert_parse_exception`, gcn_file.py:94-110): `loc` is the position pyparsing reports -/
def gcnLocation (text : Str) (loc : Nat) (found filename : Str) : Loc :=
  let s := expandTabs 0 text
  let line := lineno s loc
  let c := col s loc
  let clean := stripQuotes found
  let e : Option Int := if clean ≠ [] ∧ c > 0 then some (c + clean.length) else none
  { line := line, column := c, endLine := e.map fun _ => line, endColumn := e,
    sourceLine := (splitNl text)[line - 1]?.getD [], filename := filename }

/-- `_parse_parameter` (expressions.py:100-115): `s` is the text pyparsing works on. Simplified: `splitlines` is `split("\n")`, as
for text without other line breaks -/
def parameterLocation (s : Str) (loc : Nat) (name : Str) : Loc :=
  { line := lineno s loc, column := col s loc, endLine := some (lineno s loc), endColumn := some (col s loc + name.length),
    sourceLine := (splitNl s)[lineno s loc - 1]?.getD [] }

/-- `_parse_variable` (expressions.py:79-98) -/
def variableLocation (s : Str) (loc : Nat) (name : Str) (t : TIdx) : Loc :=
  let timeStr := if t = .t 0 then [] else indexText t
  { line := lineno s loc, column := col s loc, endLine := some (lineno s loc),
    endColumn := some (col s loc + (name.length + 2 + timeStr.length : Nat)),
    sourceLine := (splitNl s)[lineno s loc - 1]?.getD [] }

/-- how many carets (errors.py:161-163) -/
def Loc.carets (l : Loc) : Nat :=
  match l.endColumn with
  | some e => if l.endLine = some l.line then (max 1 (e - l.column)).toNat else 1
  | none => 1

/-- `format_pointer()` (errors.py:143-166): nothing, or the line and the line of carets -/
def Loc.pointer (l : Loc) : List Str :=
  if l.sourceLine = [] then [] else [l.sourceLine, List.replicate (max 0 (l.column - 1)).toNat ' ' ++ List.replicate l.carets '^']

/-- `to_lsp_range` (errors.py:134-141): start line, start character, end line, end character -/
def Loc.lsp (l : Loc) : Int × Int × Int × Int :=
  (l.line - 1, l.column - 1, (l.endLine.getD l.line : Int) - 1, (l.endColumn.getD (l.column + 1)) - 1)

/-- `format_location()` (errors.py:168-179) -/
def Loc.text (l : Loc) : Str :=
  if l.filename ≠ [] then l.filename ++ ':' :: (natStr l.line ++ ':' :: intText l.column)
  else "line ".toList ++ natStr l.line ++ ", column ".toList ++ intText l.column

/-! ## errors -/

/-- the three classes of errors (errors.py:185, 371, 447) -/
inductive Cls | parse | grammar | semantic
  deriving DecidableEq

/-- an error object (errors.py:234-253; `expected` and `found` of a grammar error, `symbol_name` of a semantic one) -/
structure Error where
  cls : Cls
  message : Str
  location : Option Loc := none
  suggestions : List Str := []
  context : Str := []
  code : Option Str := none
  severity : Str := "error".toList
  annotation : Str := []
  notes : List Str := []
  expected : List Str := []
  found : Str := []
  symbolName : Str := []

/-- the names of the arguments of `__init__` (errors.py:234-244, 402-414, 478-487) -/
def Cls.args : Cls → List String
  | .parse => ["message", "location", "suggestions", "context", "code", "severity", "annotation", "notes"]
  | .grammar => ["message", "expected", "found", "location", "context", "code", "severity", "annotation", "notes", "suggestions"]
  | .semantic => ["message", "symbol_name", "location", "suggestions", "context", "code", "severity"]

/-- `f"'{e}'"` -/
def quoted (s : Str) : Str := '\'' :: (s ++ ['\''])

/-- the message of a grammar error (errors.py:418-433) -/
def grammarMessage (message : Str) (expected : List Str) (found : Str) : Str :=
  let one := fun l : List Str => match l with
    | [e] => ". Expected ".toList ++ quoted e
    | l => ". Expected one of ".toList ++ joinText ", ".toList (l.map quoted)
  if expected ≠ [] ∧ found ≠ [] then message ++ one expected ++ ", found ".toList ++ quoted found
  else if expected ≠ [] then message ++ one expected
  else if found ≠ [] then message ++ ". Found ".toList ++ quoted found
  else message

/-- the keyword arguments `with_location` and `with_context` pass (errors.py:333-342, 359-368) -/
def rebuildArgs : List String := ["message", "location", "suggestions", "context", "code", "severity", "annotation", "notes"]

/-- `self.__class__(…)` with those arguments (errors.py:333-342, 359-368): an argument the class does not know is a `TypeError`;
an argument that is not passed falls back to its default (`expected`, `found`, `symbol_name`) -/
def Error.rebuild (e : Error) : Except String Error :=
  let given := fun name : String => rebuildArgs.contains name
  if rebuildArgs.all (e.cls.args.contains ·) then
    .ok { cls := e.cls
          message := e.message
          location := if given "location" then e.location else none
          suggestions := if given "suggestions" then e.suggestions else []
          context := if given "context" then e.context else []
          code := if given "code" then e.code else none
          severity := if given "severity" then e.severity else "error".toList
          annotation := if given "annotation" then e.annotation else []
          notes := if given "notes" then e.notes else []
          expected := if given "expected" then e.expected else []
          found := if given "found" then e.found else []
          symbolName := if given "symbol_name" then e.symbolName else [] }
  else .error "TypeError"

/-- `with_location` (errors.py:316-342) -/
def Error.withLocation (e : Error) (l : Loc) : Except String Error := { e with location := some l }.rebuild

/-- `with_context` (errors.py:344-368) -/
def Error.withContext (e : Error) (c : Str) : Except String Error := { e with context := c }.rebuild

/-- `_format_message` (errors.py:255-276), line by line -/
def Error.lines (e : Error) : List Str :=
  [match e.code with | some c => '[' :: (c ++ ']' :: ' ' :: e.message) | none => e.message]
  ++ (if e.context ≠ [] then ["  in ".toList ++ e.context] else [])
  ++ (match e.location with
    | some l => ["  at ".toList ++ l.text] ++ l.pointer.map ("    ".toList ++ ·)
    | none => [])
  ++ (match e.suggestions with
    | [] => []
    | [s] => ["  Did you mean: ".toList ++ s ++ ['?']]
    | l => ["  Did you mean one of: ".toList ++ joinText ", ".toList l ++ ['?']])

/-- `_get_semantic_notes` and the suggestion (gcn_file.py:89-92, 133-142): `fixes` is `code.info.fixes`, `comps` is
`suggest_block_component(found)` -/
def semanticNotes (fixes : Str → List Str) (comps : Str → List Str) (f : Fail) : List Str :=
  let notes := (if f.code = "E013".toList then
      match comps f.found with
      | s :: _ => ["Did you mean '".toList ++ s ++ "'?".toList]
      | [] => []
    else []) ++ fixes f.code
  match f.suggestions with
  | s :: _ => if notes.any (isIn "Did you mean".toList) then notes else ("Did you mean '".toList ++ s ++ "'?".toList) :: notes
  | [] => notes

/-- `_convert_parse_exception` (gcn_file.py:76-120) of a failure with a code of its own -/
def convertFailure (fixes : Str → List Str) (comps : Str → List Str) (annot : Fail → Str) (text : Str) (loc : Nat) (f : Fail) (filename : Str) : Error where
  cls := .grammar
  message := grammarMessage f.msg [] f.found
  location := some (gcnLocation text loc f.found filename)
  code := some f.code
  annotation := annot f
  notes := semanticNotes fixes comps f
  found := f.found

/-! ## the printed report -/

/-- `f"{n:4}"` -/
def pad4 (n : Nat) : Str := List.replicate (4 - (natStr n).length) ' ' ++ natStr n

/-- `_format_source_line` (formatting.py:77-84) -/
def sourceRow (n : Nat) (line : Str) : Str :=
  let t := rstrip line
  if t ≠ [] then pad4 n ++ " | ".toList ++ t else pad4 n ++ " |".toList

/-- `_format_pointer` (formatting.py:86-95) -/
def pointerRow (column : Int) (length : Int) (message : Str) : Str :=
  "     | ".toList ++ List.replicate (column - 1).toNat ' ' ++ List.replicate (max 1 length).toNat '^'
    ++ (if message ≠ [] then ' ' :: message else [])

/-- the length handed to `_format_pointer` (formatting.py:164-167, 174-176) -/
def Loc.span (l : Loc) : Int :=
  match l.endColumn with
  | some e => if e ≠ 0 ∧ l.endLine = some l.line then e - l.column else 1
  | none => 1

/-- source lines `a, a+1, …` (`n` of them) with the carets under line `l` (formatting.py:155-168) -/
def contextRows (lines : List Str) (l : Loc) (annotation : Str) : Nat → Nat → List Str
  | _, 0 => []
  | a, n + 1 => sourceRow a (lines[a - 1]?.getD [])
      :: ((if a = l.line then [pointerRow l.column l.span annotation] else []) ++ contextRows lines l annotation (a + 1) n)

/-- `_format_help` (formatting.py:97-106) -/
def helpRows : List Str → List Str
  | [] => []
  | [s] => ["   = help: Did you mean '".toList ++ s ++ "'?".toList]
  | l => ["   = help: Did you mean one of: ".toList ++ joinText ", ".toList l ++ ['?']]

/-- `format_error(error, source)` without colours (formatting.py:116-188), line by line -/
def formatError (context : Nat) (e : Error) (source : Option Str) : List Str :=
  [(match e.code with | some c => e.severity ++ '[' :: (c ++ [']']) | none => e.severity) ++ ": ".toList ++ e.message]
  ++ (match e.location with
    | none => []
    | some l =>
      let file := if l.filename ≠ [] then l.filename else "<input>".toList
      let lines := match source with | some (c :: cs) => splitNl (c :: cs) | _ => []
      ["  --> ".toList ++ file ++ ':' :: (natStr l.line ++ ':' :: intText l.column), "     |".toList]
      ++ (if lines ≠ [] ∧ l.line ≤ lines.length then
          let a := max 1 (l.line - context)
          let b := min lines.length (l.line + context)
          contextRows lines l e.annotation a (b + 1 - a)
        else if l.sourceLine ≠ [] then [sourceRow l.line l.sourceLine, pointerRow l.column l.span e.annotation]
        else [])
      ++ ["     |".toList])
  ++ helpRows e.suggestions
  ++ e.notes.map ("   = note: ".toList ++ ·)

end GE.Err
