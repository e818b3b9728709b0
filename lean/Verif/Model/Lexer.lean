import Verif.Model.Printer
import Verif.Model.ParserMisc
/-!
# `gEconpy/parser/grammar/tokens.py`: from characters to tokens

pyparsing grammars have no lexer: each terminal of tokens.py skips white space and comments and then matches its pattern.
No two terminals of the grammar that may follow each other in an accepted text match at the same place with a different
length, except `-`/`->`, `*`/`**` and `E`/`E[][`, where the longer one is what the grammar takes. So the terminals are
modelled as one longest-match lexer. A number is its decimal value (`float` rounds it), letters are ASCII as in
`pp.alphas`.
-/

namespace GE

/-- pyparsing's default white space -/
def isWs (c : Char) : Bool := c = ' ' || c = '\n' || c = '\t' || c = '\r'

/-- skipping of white space and ignored comments `#.*` before a terminal (tokens.py:22; `.ignore(COMMENT)`, expressions.py:211,
components.py:150, blocks.py:43, special_blocks.py:42,54,106, gcn_file.py:57); the first argument says whether a comment is
being skipped -/
def skipLay : Bool → List Char → List Char
  | _, [] => []
  | true, c :: cs => if c = '\n' then skipLay false cs else skipLay true cs
  | false, c :: cs => if isWs c then skipLay false cs else if c = '#' then skipLay true cs else c :: cs

/-- first character of `IDENTIFIER` (tokens.py:24) -/
def isIdStart (c : Char) : Bool := c.isAlpha || c = '_'
/-- further characters of `IDENTIFIER` (tokens.py:24) -/
def isIdChar (c : Char) : Bool := c.isAlphanum || c = '_'

/-- the longest prefix of characters satisfying `p`, and the rest -/
def takeRun (p : Char → Bool) : List Char → List Char × List Char
  | [] => ([], [])
  | c :: cs => if p c then (c :: (takeRun p cs).1, (takeRun p cs).2) else ([], c :: cs)

/-- value of a string of digits -/
def decVal (ds : List Char) : Nat := ds.foldl (fun n d => 10 * n + (d.toNat - '0'.toNat)) 0

/-- the optional exponent of `NUMBER_PATTERN` (tokens.py:26): `[eE][+-]?\d+`, else nothing is taken -/
def lexExponent : List Char → Int × List Char
  | 'e' :: cs => expDigits cs ('e' :: cs)
  | 'E' :: cs => expDigits cs ('E' :: cs)
  | cs => (0, cs)
where
  /-- sign and digits after the `e`; `back` is the text if there are none -/
  expDigits : List Char → List Char → Int × List Char
    | '-' :: ds, back => if (takeRun Char.isDigit ds).1 = [] then (0, back) else (- (decVal (takeRun Char.isDigit ds).1 : Int), (takeRun Char.isDigit ds).2)
    | '+' :: ds, back => if (takeRun Char.isDigit ds).1 = [] then (0, back) else ((decVal (takeRun Char.isDigit ds).1 : Int), (takeRun Char.isDigit ds).2)
    | ds, back => if (takeRun Char.isDigit ds).1 = [] then (0, back) else ((decVal (takeRun Char.isDigit ds).1 : Int), (takeRun Char.isDigit ds).2)

/-- mantissa of `NUMBER_PATTERN`: `\d+\.\d*`, `\d+` or `\.\d+` (tokens.py:26) -/
def lexMantissa (cs : List Char) : Option (Rat × List Char) :=
  let i := takeRun Char.isDigit cs
  match i.2 with
  | '.' :: r =>
    let f := takeRun Char.isDigit r
    if i.1 = [] ∧ f.1 = [] then none else some ((decVal (i.1 ++ f.1) : Rat) / 10 ^ f.1.length, f.2)
  | r => if i.1 = [] then none else some ((decVal i.1 : Rat), r)

/-- the look-ahead of `NUMBER_PATTERN`, `(?![.\w])` (tokens.py:26) -/
def numEnd : List Char → Bool
  | [] => true
  | c :: _ => !(c = '.' || isIdChar c)

/-- `10 ^ k` -/
def tenPow (k : Int) : Rat := if 0 ≤ k then 10 ^ k.toNat else 1 / 10 ^ (-k).toNat

/-- `NUMBER` (tokens.py:26-27, expressions.py:29-33). The pattern can only end where the longest match ends: a shorter
match is followed by a digit, a letter or a point. -/
def lexNumber (cs : List Char) : Option (Rat × List Char) :=
  match lexMantissa cs with
  | none => none
  | some (m, r) =>
    let e := lexExponent r
    if numEnd e.2 then some (m * tenPow e.1, e.2) else none

/-- the content of a time index: nothing, `ss`, `\d+` or `-\d+` (tokens.py:29, statements.py:34-39) -/
def lexTime : List Char → Option (TIdx × List Char)
  | 's' :: 's' :: cs => if (takeRun isIdChar cs).1 = [] then some (.ss, cs) else none
  | '-' :: cs => if (takeRun Char.isDigit cs).1 = [] then none
      else some (.t (- (decVal (takeRun Char.isDigit cs).1 : Int)), (takeRun Char.isDigit cs).2)
  | cs => if (takeRun Char.isDigit cs).1 = [] then some (.t 0, cs)
      else some (.t (decVal (takeRun Char.isDigit cs).1 : Int), (takeRun Char.isDigit cs).2)

/-- `TIME_INDEX` after the bracket (tokens.py:30, expressions.py:44-46) -/
def lexIndex (cs : List Char) : Option (TIdx × List Char) :=
  match lexTime (skipLay false cs) with
  | some (t, r) =>
    match skipLay false r with
    | ']' :: r' => some (t, r')
    | _ => none
  | none => none

/-- `_parse_tag` (statements.py:73-88): `Tag.from_string` of the lowercase name -/
def tagOf (n : Str) : Option Tag :=
  if lowerStr n = "exclude".toList then some .exclude
  else if lowerStr n = "minimize".toList then some .minimize
  else if lowerStr n = "maximize".toList then some .maximize
  else none

/-- the expectation operator `E[][`, without white space inside (expressions.py:119-124) -/
def lexWord (cs : List Char) : Tok × List Char :=
  let w := takeRun isIdChar cs
  match w.1, w.2 with
  | ['E'], '[' :: ']' :: '[' :: r => (.expectOpen, r)
  | n, r => (.id n, r)

/-- one terminal at a place without leading white space (tokens.py:5-48) -/
def lexTok : List Char → Option (Tok × List Char)
  | [] => none
  | '{' :: r => some (.lbrace, r)
  | '}' :: r => some (.rbrace, r)
  | '(' :: r => some (.lpar, r)
  | ')' :: r => some (.rpar, r)
  | ']' :: r => some (.rbr, r)
  | ';' :: r => some (.semi, r)
  | ',' :: r => some (.comma, r)
  | '=' :: r => some (.eq, r)
  | ':' :: r => some (.colon, r)
  | '~' :: r => some (.tilde, r)
  | '+' :: r => some (.op .add, r)
  | '/' :: r => some (.op .div, r)
  | '^' :: r => some (.op .pow, r)
  | '*' :: '*' :: r => some (.op .pow, r)
  | '*' :: r => some (.op .mul, r)
  | '-' :: '>' :: r => some (.arrow, r)
  | '-' :: r => some (.op .sub, r)
  | '[' :: r => (lexIndex r).map fun p => (.tix p.1, p.2)
  | '@' :: c :: r =>
    if isIdStart c then (tagOf (takeRun isIdChar (c :: r)).1).map fun t => (.tag t, (takeRun isIdChar (c :: r)).2) else none
  | c :: r =>
    if isIdStart c then some (lexWord (c :: r))
    else (lexNumber (c :: r)).map fun p => (.num p.1, p.2)

/-- the tokens of a text; `fuel` bounds their number, the length of the text is enough -/
def lexLoop : Nat → List Char → Option (List Tok)
  | 0, _ => none
  | f + 1, cs =>
    match skipLay false cs with
    | [] => some []
    | c :: r =>
      match lexTok (c :: r) with
      | some (t, r') => (lexLoop f r').map (t :: ·)
      | none => none

/-- the tokens of a text -/
def lexText (cs : List Char) : Option (List Tok) := lexLoop (cs.length + 1) cs

end GE
