import Verif.Model.Lexer
/-!
# Specification for the GCN parser: what a GCN text is

Nothing here models code: these are the rules of the GCN language as a reader of a file would state them: how words, numbers,
time indices and comments are written, and which sequences of tokens form expressions, equations, priors, components,
blocks and files, and what each of them stands for.
-/

namespace GE

/-! ## characters -/

/-- white space and comments up to the end of the line -/
inductive Layout : List Char → Prop where
  | nil : Layout []
  | white {c l} : c ∈ [' ', '\n', '\t', '\r'] → Layout l → Layout (c :: l)
  | comment {b l} : '\n' ∉ b → Layout l → Layout ('#' :: (b ++ '\n' :: l))

/-- a word: a letter or underscore, then letters, digits, underscores -/
def IsWord (n : Str) : Prop := ∃ c cs, n = c :: cs ∧ (c.isAlpha = true ∨ c = '_') ∧
  ∀ d ∈ cs, d.isAlphanum = true ∨ d = '_'

/-- digits only -/
def IsDigits (ds : List Char) : Prop := ∀ d ∈ ds, d.isDigit = true

/-- the number a string of digits stands for -/
def decimal : List Char → Nat
  | [] => 0
  | d :: ds => (d.toNat - '0'.toNat) * 10 ^ ds.length + decimal ds

/-- `12`, `12.`, `12.5`, `.5` and their values -/
inductive MantText : List Char → Rat → Prop where
  | int {i} : IsDigits i → i ≠ [] → MantText i (decimal i)
  | dec {i f} : IsDigits i → IsDigits f → (i ≠ [] ∨ f ≠ []) → MantText (i ++ '.' :: f) (decimal i + decimal f / 10 ^ f.length)

/-- nothing, or `e5`, `E+5`, `e-5`: the power of ten -/
inductive ExpText : List Char → Int → Prop where
  | none : ExpText [] 0
  | plain {c ds} : c ∈ ['e', 'E'] → IsDigits ds → ds ≠ [] → ExpText (c :: ds) (decimal ds)
  | plus {c ds} : c ∈ ['e', 'E'] → IsDigits ds → ds ≠ [] → ExpText (c :: '+' :: ds) (decimal ds)
  | minus {c ds} : c ∈ ['e', 'E'] → IsDigits ds → ds ≠ [] → ExpText (c :: '-' :: ds) (-(decimal ds : Int))

/-- nothing (today), `ss`, a lead or a lag -/
inductive TimeText : List Char → TIdx → Prop where
  | now : TimeText [] (.t 0)
  | steady : TimeText ['s', 's'] .ss
  | lead {ds} : IsDigits ds → ds ≠ [] → TimeText ds (.t (decimal ds))
  | lag {ds} : IsDigits ds → ds ≠ [] → TimeText ('-' :: ds) (.t (-(decimal ds : Int)))

/-- the word after the `@`, in capitals or not -/
def tagWord : Tag → Str
  | .exclude => "exclude".toList
  | .minimize => "minimize".toList
  | .maximize => "maximize".toList

/-- the tokens that are one fixed character -/
def fixedToks : List (Char × Tok) :=
  [('{', .lbrace), ('}', .rbrace), ('(', .lpar), (')', .rpar), (']', .rbr), (';', .semi), (',', .comma), ('=', .eq),
   (':', .colon), ('~', .tilde), ('+', .op .add), ('-', .op .sub), ('*', .op .mul), ('/', .op .div), ('^', .op .pow)]

/-- how a token may be written -/
inductive Writes : List Char → Tok → Prop where
  | fixed {c t} : (c, t) ∈ fixedToks → Writes [c] t
  | power : Writes ['*', '*'] (.op .pow)
  | arrow : Writes ['-', '>'] .arrow
  | word {n} : IsWord n → Writes n (.id n)
  | number {m v e k} : MantText m v → ExpText e k → Writes (m ++ e) (.num (v * (10 : Rat) ^ k))
  | index {l w l' t} : Layout l → TimeText w t → Layout l' → Writes ('[' :: (l ++ w ++ l' ++ [']'])) (.tix t)
  | tag {n t} : IsWord n → n.map Char.toLower = tagWord t → Writes ('@' :: n) (.tag t)
  | expect : Writes ['E', '[', ']', '['] .expectOpen

/-- the next character does not belong to the token: a word does not go on, a number is not followed by a letter, digit or
point, `-` not by `>`, `*` not by `*`, and the word `E` not by `[][` -/
def Apart : Tok → List Char → Prop
  | .id n, r => (∀ c cs, r = c :: cs → c.isAlphanum = false ∧ c ≠ '_') ∧ (n = ['E'] → ∀ r', r ≠ '[' :: ']' :: '[' :: r')
  | .tag _, r => ∀ c cs, r = c :: cs → c.isAlphanum = false ∧ c ≠ '_'
  | .num _, r => ∀ c cs, r = c :: cs → c.isAlphanum = false ∧ c ≠ '_' ∧ c ≠ '.'
  | .op .sub, r => ∀ cs, r ≠ '>' :: cs
  | .op .mul, r => ∀ cs, r ≠ '*' :: cs
  | _, _ => True

/-- the text is this sequence of tokens, with white space and comments anywhere around them; the last comment may end with
the text -/
inductive SpellsToks : List Char → List Tok → Prop where
  | nil {l} : Layout l → SpellsToks l []
  | last {l b} : Layout l → '\n' ∉ b → SpellsToks (l ++ '#' :: b) []
  | cons {l w r t ts} : Layout l → Writes w t → Apart t r → SpellsToks r ts → SpellsToks (l ++ (w ++ r)) (t :: ts)

end GE
