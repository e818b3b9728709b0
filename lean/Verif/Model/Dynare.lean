import Verif.Model.Time
import Verif.Model.Base
/-!
# `gEconpy/dynare_convert.py`: export of a model to a Dynare file

The printed text is modelled on tokens: the character level (white space, digits of numbers) is not modelled; a number
and a name are single tokens. sympy's own part of the printer (`StrPrinter._print_Add`, `parenthesize`, `precedence`,
`_print_Rational`, `_print_Function`), which the class inherits, is modelled from sympy's documented behaviour.
-/

namespace GE.Dyn

/-- the operators of Dynare's expressions -/
inductive Op where
  | add | sub | mul | div | pow
  deriving DecidableEq

/-- a sympy expression as the printer sees it: n-ary sums and products whose arguments are listed in printing order
(`as_ordered_terms`, `as_ordered_factors`: the order itself is sympy's and is not modelled), `num` an exact Integer or
Rational, `flt` a Float (its value, not its digits). -/
inductive DE where
  | num (v : Rat)
  | flt (v : Rat)
  | par (n : Str)
  | tv (s : TSym)
  | add (ts : List DE)
  | mul (fs : List DE)
  | pow (b e : DE)
  | fn (f : Str) (as : List DE)

/-- tokens of the exported file. A name that Dynare reserves for a function is a different token from a declared name. -/
inductive DTok where
  | num (v : Rat)
  | name (n : Str)
  | fn (f : Str)
  | op (o : Op)
  | lpar | rpar | comma
  deriving DecidableEq

/-- the suffix sympy's `TimeAwareSymbol` prints for a steady state value (dynare_convert.py:112-113) -/
def ssSuffix : Str := "_ss".toList

/-- `_print_TimeAwareSymbol` (dynare_convert.py:108-119) -/
def tsymToks (s : TSym) : List DTok :=
  match s.idx with
  | .ss => [.name (s.base ++ ssSuffix)]
  | .t k =>
    if k = 0 then [.name s.base]
    else if k > 0 then [.name s.base, .lpar, .op .add, .num k, .rpar]
    else [.name s.base, .lpar, .op .sub, .num (-k), .rpar]

/-- sympy's `PRECEDENCE` table (used at dynare_convert.py:31,93): Add 40, Mul 50, Pow 60, Func 70, Atom 1000 -/
def pAddLvl : Nat := 40
def pMulLvl : Nat := 50
def pPowLvl : Nat := 60
def pFuncLvl : Nat := 70
def pAtomLvl : Nat := 1000

/-- a product whose leading coefficient is negative (sympy's `could_extract_minus_sign` of a Mul) -/
def negCoeff : List DE → Bool
  | .num c :: _ => c < 0
  | .flt c :: _ => c < 0
  | _ => false

/-- sympy's `precedence(item)` (called at dynare_convert.py:31,93 and in `parenthesize`): a negative number and a product
with negative coefficient count as sums, a positive Rational as a product -/
def precOf : DE → Nat
  | .num v => if v < 0 then pAddLvl else if v.den = 1 then pAtomLvl else pMulLvl
  | .flt v => if v < 0 then pAddLvl else pAtomLvl
  | .par _ => pAtomLvl
  | .tv _ => pAtomLvl
  | .add _ => pAddLvl
  | .mul fs => if negCoeff fs then pAddLvl else pMulLvl
  | .pow _ _ => pPowLvl
  | .fn _ _ => pFuncLvl

/-- `"(" + ... + ")"` -/
def inPar (ts : List DTok) : List DTok := .lpar :: (ts ++ [.rpar])

/-- sympy's `StrPrinter.parenthesize(item, level)`, non-strict (called at dynare_convert.py:65-66,104,106) -/
def paren (level p : Nat) (ts : List DTok) : List DTok := if p ≤ level then inPar ts else ts

/-- sympy's `_print_Integer`, `_print_Rational` and the sign of a Float -/
def numToks (v : Rat) : List DTok :=
  let body : List DTok := if v.den = 1 then [.num v.num.natAbs] else [.num v.num.natAbs, .op .div, .num v.den]
  if v < 0 then .op .sub :: body else body

/-- a Float literal -/
def fltToks (v : Rat) : List DTok := if v < 0 then [.op .sub, .num (-v)] else [.num v]

/-- the value of a literal, if the expression is one: what sympy's `equal_valued(expr.exp, _)` looks at
(dynare_convert.py:95,99,102) -/
def litOf : DE → Option Rat
  | .num v => some v
  | .flt v => some v
  | _ => none

/-- the `isinstance(item.base, Mul)` part of the #14160 test (dynare_convert.py:57) -/
def isLongMul : DE → Bool
  | .mul fs => fs.length != 1
  | _ => false

/-- `multjoin` (dynare_convert.py:74-80) -/
def multjoin : List (List DTok) → List DTok
  | [] => []
  | [a] => a
  | a :: as => a ++ .op .mul :: multjoin as

/-- the end of `_print_Mul` (dynare_convert.py:82-88): numerator, then nothing, one denominator or a parenthesised
product of denominators; an empty numerator prints as 1 (line 63) -/
def quotient (a b : List (List DTok)) : List DTok :=
  let top := multjoin (if a = [] then [[.num 1]] else a)
  match b with
  | [] => top
  | [d] => top ++ .op .div :: d
  | b => top ++ .op .div :: inPar (multjoin b)

/-- the printed form of `base ^ exp` once both are printed (dynare_convert.py:90-106), `pe` the exponent's precedence -/
def powToks (pb : Nat) (bt : List DTok) (lit : Option Rat) (pe : Nat) (et : List DTok) : List DTok :=
  if lit = some (1/2) then .fn "sqrt".toList :: inPar bt
  else if lit = some (-1/2) then .num 1 :: .op .div :: .fn "sqrt".toList :: inPar bt
  else if lit = some (-1) then .num 1 :: .op .div :: paren pPowLvl pb bt
  else paren pPowLvl pb bt ++ .op .pow :: paren pPowLvl pe et

/-- sympy's `_print_Add`: each term with its sign; a term that is itself a sum is parenthesised -/
def addTerms : Bool → List (Bool × List DTok) → List DTok
  | _, [] => []
  | first, (isAdd, t) :: ts =>
    (if isAdd then (if first then inPar t else .op .add :: inPar t)
     else match t with
      | .op .sub :: t' => .op .sub :: t'
      | t => if first then t else .op .add :: t) ++ addTerms false ts

/-- a rational factor: numerator and denominator, each left out when 1 (dynare_convert.py:60-64) -/
def numFactor (lvl : Nat) (v : Rat) : List (List DTok) × List (List DTok) :=
  (if v.num = 1 then [] else [paren lvl (precOf (.num v.num)) (numToks v.num)], if v.den = 1 then [] else [[.num v.den]])

/-- is a sum -/
def isSum : DE → Bool
  | .add _ => true
  | _ => false

mutual
/-- `DynareCodePrinter.doprint` (dynare_convert.py:20-119) -/
def toks : DE → List DTok
  | .num v => numToks v
  | .flt v => fltToks v
  | .par n => [.name n]
  | .tv s => tsymToks s
  | .add ts => addTerms true (termToks ts)
  | .mul fs => mulToks fs
  | .pow b e => powToks (precOf b) (toks b) (litOf e) (precOf e) (toks e)
  | .fn f as => .fn f :: inPar (argToks as)
/-- the printed terms of a sum -/
def termToks : List DE → List (Bool × List DTok)
  | [] => []
  | t :: ts => (isSum t, toks t) :: termToks ts
/-- `_print_Mul` (dynare_convert.py:25-88): the sign of the coefficient is taken out (lines 33-38; `_keep_coeff` drops a
coefficient 1), then the factors are divided into numerator and denominator -/
def mulToks : List DE → List DTok
  | .num c :: fs =>
    if c < 0 then
      let r := factors pAddLvl fs
      let k := if c = -1 then ([], []) else numFactor pAddLvl (-c)
      .op .sub :: quotient (k.1 ++ r.1) (k.2 ++ r.2)
    else
      let r := factors pMulLvl fs
      let k := numFactor pMulLvl c
      quotient (k.1 ++ r.1) (k.2 ++ r.2)
  | .flt c :: fs =>
    if c < 0 then
      let r := factors pAddLvl fs
      .op .sub :: quotient ([.num (-c)] :: r.1) r.2
    else
      let r := factors pMulLvl fs
      quotient ([.num c] :: r.1) r.2
  | f :: fs =>
    let k := factor pMulLvl f
    let r := factors pMulLvl fs
    quotient (k.1 ++ r.1) (k.2 ++ r.2)
  | [] => quotient [] []
/-- one factor of a product (dynare_convert.py:52-66): negative rational powers go to the denominator with the opposite
exponent, printed without evaluating it; exponent -1 leaves the base, with parentheses if it is a product (lines 69-71) -/
def factor (lvl : Nat) : DE → List (List DTok) × List (List DTok)
  | .num v => numFactor lvl v
  | .pow b (.num r) =>
    if r < 0 then
      if r = -1 then
        let t := paren lvl (precOf b) (toks b)
        ([], [if isLongMul b then inPar t else t])
      else ([], [powToks (precOf b) (toks b) (some (-r)) (precOf (.num (-r))) (numToks (-r))])
    else ([powToks (precOf b) (toks b) (some r) (precOf (.num r)) (numToks r)], [])
  | .pow b e => ([powToks (precOf b) (toks b) (litOf e) (precOf e) (toks e)], [])
  | .flt v => ([paren lvl (precOf (.flt v)) (fltToks v)], [])
  | .par n => ([[.name n]], [])
  | .tv s => ([tsymToks s], [])
  | .add ts => ([inPar (addTerms true (termToks ts))], [])
  | .mul fs => ([paren lvl (precOf (.mul fs)) (mulToks fs)], [])
  | .fn f as => ([.fn f :: inPar (argToks as)], [])
/-- the loop over the factors (dynare_convert.py:49-61) -/
def factors (lvl : Nat) : List DE → List (List DTok) × List (List DTok)
  | [] => ([], [])
  | f :: fs =>
    let k := factor lvl f
    let r := factors lvl fs
    (k.1 ++ r.1, k.2 ++ r.2)
/-- sympy's `stringify(args, ", ")` -/
def argToks : List DE → List DTok
  | [] => []
  | [a] => toks a
  | a :: as => toks a ++ .comma :: argToks as
end

/-! ## the file -/

/-- `", ".join`-style text of `write_lines_from_list` (dynare_convert.py:122-137): the loop over the items with the current
line; `width` and `start` are `linewidth` and `line_start`. Lines are returned without the final `"\n".join`. -/
def linesLoop (width : Nat) (start : Str) : Str → List Str → List Str
  | line, [] => [line ++ [';']]
  | line, item :: items =>
    let addition := (if line = start then [' '] else [',', ' ']) ++ item
    if line.length + addition.length + 1 > width then
      (line ++ [';']) :: linesLoop width start (start ++ ' ' :: item) items
    else linesLoop width start (line ++ addition) items

/-- `write_lines_from_list(items, linewidth, line_start)` (dynare_convert.py:122-137) -/
def writeLines (width : Nat) (start : Str) (items : List Str) : List Str := linesLoop width start start items

/-- what `make_mod_file` reads from the model (model.py:536-627,738-775): `params` are the free parameters, `values` the
dictionary `mod.parameters().to_string()` (free and deterministic parameters), `ssRel` the `steady_state_relationships`,
`steady` the numerical steady state with sympy keys (variables and calibrated parameters). -/
structure ModelView where
  vars : List TSym
  shocks : List TSym
  params : List Str
  values : List (Str × Rat)
  equations : List DE
  ssRel : List (TSym × DE)
  steady : List ((TSym ⊕ Str) × Rat)

/-- `write_variable_declarations` (dynare_convert.py:140-142) -/
def varDecl (m : ModelView) (width : Nat) : List Str := writeLines width "var".toList (m.vars.map TSym.base)
/-- `write_shock_declarations` (dynare_convert.py:145-147) -/
def shockDecl (m : ModelView) (width : Nat) : List Str := writeLines width "varexo".toList (m.shocks.map TSym.base)
/-- `write_param_names` (dynare_convert.py:157-159) -/
def paramDecl (m : ModelView) (width : Nat) : List Str := writeLines width "parameters".toList m.params

/-- rounding to the nearest integer, ties to even -/
def roundEven (x : Rat) : Int :=
  let d := x - x.floor
  if d < 1/2 then x.floor else if d > 1/2 then x.floor + 1 else if x.floor % 2 = 0 then x.floor else x.floor + 1

/-- the number the text `f"{value:0.{digits}f}"` stands for (dynare_convert.py:150-154); the binary value of the float is
taken exactly -/
def shown (digits : Nat) (v : Rat) : Rat := roundEven (v * 10 ^ digits) / 10 ^ digits

/-- `write_values_from_dict(d)` (dynare_convert.py:150-154) with its default of three decimals: the assignments written -/
def writeValues (d : List (Str × Rat)) : List (Str × Rat) := d.map fun p => (p.1, shown 3 p.2)

mutual
/-- the time-indexed symbols of an expression (`free_symbols`, dynare_convert.py:171) -/
def tsyms : DE → List TSym
  | .num _ => []
  | .flt _ => []
  | .par _ => []
  | .tv s => [s]
  | .add ts => tsymsL ts
  | .mul fs => tsymsL fs
  | .pow b e => tsyms b ++ tsyms e
  | .fn _ as => tsymsL as
def tsymsL : List DE → List TSym
  | [] => []
  | e :: es => tsyms e ++ tsymsL es
end

/-- `find_ss_variables` (dynare_convert.py:170-176); the result is a sorted list there, only membership is used -/
def findSS (m : ModelView) : List TSym := ((m.equations.flatMap tsyms).filter fun s => s.idx = .ss).eraseDups

/-- `x.name` of a steady state symbol: `base_ss` -/
def ssName (s : TSym) : Str := s.base ++ ssSuffix

/-- one `#name = value;` line: a printed number or a printed expression -/
def numText (v : Rat) : List DTok := fltToks v

/-- the `#` definitions of `write_model_equations` (dynare_convert.py:182-195) -/
def hashDefs (m : ModelView) : List (Str × List DTok) :=
  let required := findSS m
  if required.all fun s => (m.ssRel.map Prod.fst).contains s then
    (m.ssRel.filter fun p => required.contains p.1).map fun p => (ssName p.1, toks p.2)
  else
    m.steady.filterMap fun p => match p.1 with
      | .inl s => if required.contains s then some (ssName s, numText p.2) else none
      | .inr _ => none

/-- `write_model_equations` (dynare_convert.py:179-200): the definitions, then one line per equation -/
def modelBlock (m : ModelView) : List (Str × List DTok) × List (List DTok) := (hashDefs m, m.equations.map toks)

/-- the outcome of `write_steady_state` (dynare_convert.py:203-229): a `steady_state_model` block of assignments, or an
`initval` block -/
inductive SSBlock where
  | analytic (lines : List (Str × List DTok))
  | initval (lines : List (Str × Rat))

/-- the key's `base_name` (dynare_convert.py:223): calibrated parameters are plain symbols and have none -/
def baseNamed : (TSym ⊕ Str) × Rat → Option (Str × Rat)
  | (.inl s, v) => some (s.base, v)
  | (.inr _, _) => none

/-- `write_steady_state` (dynare_convert.py:203-229). `cse` is what `sp.cse` returns: the replacements and the reduced
right-hand sides (a left-hand side is a symbol and is not replaced); without `use_cse` it is `([], the right-hand sides)`.
In the numerical branch a calibrated parameter among the keys has no `base_name` (AttributeError: `none`). -/
def steadyBlock (m : ModelView) (cse : List DE → List (Str × DE) × List DE) (useCse : Bool) : Option SSBlock :=
  if m.ssRel.length = m.vars.length then
    let r := if useCse then cse (m.ssRel.map Prod.snd) else ([], m.ssRel.map Prod.snd)
    some (.analytic ((r.1.map fun p => (p.1, toks p.2)) ++
      ((m.ssRel.map Prod.fst).zip r.2).map fun p => (p.1.base, toks p.2)))
  else
    (m.steady.mapM baseNamed).map fun l => .initval (writeValues l)

/-- `write_shock_std` (dynare_convert.py:232-240): the standard deviation written for each shock -/
def shockStd (m : ModelView) : List (Str × Rat) := m.shocks.map fun s => (s.base, 1/100)

end GE.Dyn
