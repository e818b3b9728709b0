import Verif.Model.Ast
/-!
# `gEconpy/parser/ast/printer.py` and the expression/equation grammar

The printed text and the grammar are modelled on tokens: the character level (white space, digits of numbers, comments)
is not modelled; a number, a name, a time index `[..]`, and the opening `E[][` are single tokens.
pyparsing's `infix_notation` is modelled as the layered recursive-descent parser it builds.
-/

namespace GE

/-- tokens of expressions and equations (parser/grammar/tokens.py:5-30) -/
inductive Tok where
  | num (v : Rat)
  | id (n : Str)
  | tix (t : TIdx)
  | op (o : BinOp)
  | lpar | rpar | comma | expectOpen | rbr
  | eq | colon | arrow | semi | lbrace | rbrace | tilde
  | tag (t : Tag)
  deriving DecidableEq

/-- `PRECEDENCE` (parser/ast/printer.py:17-24); `NEG` is 4. -/
def prec : BinOp → Nat
  | .add => 1 | .sub => 1 | .mul => 2 | .div => 2 | .pow => 3

/-- `PRECEDENCE[Operator.NEG]` (parser/ast/printer.py:23) -/
def negPrec : Nat := 4

/-- the precedence passed to the right operand (parser/ast/printer.py:60-65): that of the operator itself,
one less for `^`. -/
def rightPrec (o : BinOp) : Nat := if o = .pow then prec o - 1 else prec o

mutual
/-- `print_expression(node, parent_precedence)` (parser/ast/printer.py:27-82). A negative number (the grammar makes
none) is printed as `-` and its absolute value. -/
def Expr.toks (p : Nat) : Expr → List Tok
  | .num v => if v < 0 then [.op .sub, .num (-v)] else [.num v]
  | .par n => [.id n]
  | .var n t => [.id n, .tix t]
  | .neg e => .op .sub :: Expr.toks negPrec e
  | .bin o l r =>
    let body := Expr.toks (prec o) l ++ .op o :: Expr.toks (rightPrec o) r
    if prec o < p then .lpar :: (body ++ [.rpar]) else body
  | .call f as => .id f :: .lpar :: (Expr.toksArgs as ++ [.rpar])
  | .expect e => .expectOpen :: (Expr.toks 0 e ++ [.rbr])
/-- `", ".join(print_expression(arg) for arg in args)` (parser/ast/printer.py:73) -/
def Expr.toksArgs : List Expr → List Tok
  | [] => []
  | [a] => Expr.toks 0 a
  | a :: as => Expr.toks 0 a ++ .comma :: Expr.toksArgs as
end

mutual
/-- `ATOM` (parser/grammar/expressions.py:117-160): expectation, function call with at least one argument
(an empty call fails, lines 131-146), variable, number, parameter (a name not followed by `[` or `(`), parenthesis. -/
def pAtom : Nat → List Tok → Option (Expr × List Tok)
  | 0, _ => none
  | f + 1, .expectOpen :: ts =>
    match pAdd f ts with
    | some (e, .rbr :: r) => some (.expect e, r)
    | _ => none
  | f + 1, .id n :: .lpar :: ts =>
    match pArgs f ts with
    | some (as, .rpar :: r) => some (.call n as, r)
    | _ => none
  | _ + 1, .id n :: .tix t :: ts => some (.var n t, ts)
  | _ + 1, .id n :: ts => some (.par n, ts)
  | _ + 1, .num v :: ts => some (.num v, ts)
  | f + 1, .lpar :: ts =>
    match pAdd f ts with
    | some (e, .rpar :: r) => some (e, r)
    | _ => none
  | _ + 1, _ => none
/-- unary minus, the tightest level (parser/grammar/expressions.py:172-174, 204) -/
def pUnary : Nat → List Tok → Option (Expr × List Tok)
  | 0, _ => none
  | f + 1, .op .sub :: ts =>
    match pUnary f ts with
    | some (e, r) => some (.neg e, r)
    | none => none
  | f + 1, ts => pAtom f ts
/-- `^`/`**`, right associative (parser/grammar/expressions.py:189-198, 205) -/
def pPow : Nat → List Tok → Option (Expr × List Tok)
  | 0, _ => none
  | f + 1, ts =>
    match pUnary f ts with
    | some (a, .op .pow :: r) =>
      match pPow f r with
      | some (b, r') => some (.bin .pow a b, r')
      | none => none
    | x => x
/-- `*` and `/`, left associative (parser/grammar/expressions.py:177-186, 206) -/
def pMul : Nat → List Tok → Option (Expr × List Tok)
  | 0, _ => none
  | f + 1, ts =>
    match pPow f ts with
    | some (a, r) => pMulLoop f a r
    | none => none
/-- the loop of `_make_binary_op_left` for `*`, `/` -/
def pMulLoop : Nat → Expr → List Tok → Option (Expr × List Tok)
  | 0, _, _ => none
  | f + 1, a, .op .mul :: ts =>
    match pPow f ts with
    | some (b, r) => pMulLoop f (.bin .mul a b) r
    | none => none
  | f + 1, a, .op .div :: ts =>
    match pPow f ts with
    | some (b, r) => pMulLoop f (.bin .div a b) r
    | none => none
  | _ + 1, a, ts => some (a, ts)
/-- `+` and `-`, left associative, the loosest level; also the start symbol `EXPR`
(parser/grammar/expressions.py:177-186, 201-209) -/
def pAdd : Nat → List Tok → Option (Expr × List Tok)
  | 0, _ => none
  | f + 1, ts =>
    match pMul f ts with
    | some (a, r) => pAddLoop f a r
    | none => none
/-- the loop of `_make_binary_op_left` for `+`, `-` -/
def pAddLoop : Nat → Expr → List Tok → Option (Expr × List Tok)
  | 0, _, _ => none
  | f + 1, a, .op .add :: ts =>
    match pMul f ts with
    | some (b, r) => pAddLoop f (.bin .add a b) r
    | none => none
  | f + 1, a, .op .sub :: ts =>
    match pMul f ts with
    | some (b, r) => pAddLoop f (.bin .sub a b) r
    | none => none
  | _ + 1, a, ts => some (a, ts)
/-- `FUNC_ARGS`: a non-empty comma separated list (parser/grammar/expressions.py:125) -/
def pArgs : Nat → List Tok → Option (List Expr × List Tok)
  | 0, _ => none
  | f + 1, ts =>
    match pAdd f ts with
    | some (a, .comma :: r) =>
      match pArgs f r with
      | some (as, r') => some (a :: as, r')
      | none => none
    | some (a, r) => some ([a], r)
    | none => none
end

/-- `EXPR.parse_string(text, parse_all=True)` accepts the tokens with this tree. The fuel of the model's functions
is not part of the code: "some fuel suffices"; the tree does not depend on the fuel (`parses_unique`). -/
def ParsesAs (ts : List Tok) (e : Expr) : Prop := ∃ f, pAdd f ts = some (e, [])

/-- `print_equation` (parser/ast/printer.py:85-110), with the `;` that `print_block` appends (line 157).
`if eq.lagrange_multiplier` is false for `None` and for the empty string. Tags are not printed. -/
def Eqn.toks (e : Eqn) : List Tok :=
  e.lhs.toks 0 ++ .eq :: (e.rhs.toks 0
    ++ (match e.lagrange with | some (c :: cs) => [.colon, .id (c :: cs), .tix (.t 0)] | _ => [])
    ++ (match e.calibrating with | some (c :: cs) => [.arrow, .id (c :: cs)] | _ => [])
    ++ [.semi])

/-- `ZeroOrMore(TAG)` (parser/grammar/statements.py:197) -/
def pTags : List Tok → List Tag × List Tok
  | .tag t :: ts => let (a, r) := pTags ts; (t :: a, r)
  | ts => ([], ts)

/-- `Optional(LAGRANGE_MULT)` (parser/grammar/statements.py:95, 202): the multiplier's date is discarded. -/
def pLagrange : List Tok → Option Str × List Tok
  | .colon :: .id n :: .tix _ :: ts => (some n, ts)
  | ts => (none, ts)

/-- `Optional(CALIBRATING_PARAM)` (parser/grammar/statements.py:127, 203). -/
def pCalibrating : List Tok → Option Str × List Tok
  | .arrow :: .id n :: ts => (some n, ts)
  | ts => (none, ts)

/-- `_VALID_EQUATION` with `_build_equation` (parser/grammar/statements.py:196-310); the `MISSING_*` alternatives only
produce error messages. -/
def pEqn (f : Nat) (ts : List Tok) : Option (Eqn × List Tok) :=
  let (tags, ts) := pTags ts
  match pAdd f ts with
  | some (l, .eq :: r) =>
    match pAdd f r with
    | some (rhs, r) =>
      let (lag, r) := pLagrange r
      let (cal, r) := pCalibrating r
      match r with
      | .semi :: r =>
        some ({ lhs := l, rhs := rhs, lagrange := lag, calibrating := cal, tags := tags }, r)
      | _ => none
    | none => none
  | _ => none

/-- the text is accepted as one equation -/
def ParsesAsEqn (ts : List Tok) (e : Eqn) : Prop := ∃ f, pEqn f ts = some (e, [])

/-- the parsed content of one block component (parser/grammar/components.py:38-44, 87-103, 112-113) -/
inductive Comp where
  | definitions (es : List Eqn)
  | controls (vs : List VarRef)
  | objective (es : List Eqn)
  | constraints (es : List Eqn)
  | identities (es : List Eqn)
  | shocks (vs : List VarRef) (ds : List Dist)
  | calibration (cs : List Calib)

/-- one step of the loop of `_build_block` (parser/grammar/blocks.py:20-37): every component *assigns*. -/
def Blk.addComp (b : Blk) : Comp → Blk
  | .definitions es => { b with definitions := es }
  | .controls vs => { b with controls := vs }
  | .objective es => { b with objective := es }
  | .constraints es => { b with constraints := es }
  | .identities es => { b with identities := es }
  | .shocks vs ds => { b with shocks := vs, shockDists := ds }
  | .calibration cs => { b with calibration := cs }

/-- `_build_block` (parser/grammar/blocks.py:17-39) -/
def buildBlock (name : Str) (cs : List Comp) : Blk := cs.foldl Blk.addComp { name := name }

/-- the components `print_block` writes, in order, only non-empty ones (parser/ast/printer.py:148-221), as the
parser reads them back: an equation comes back without its tags, a shock without its distribution, a control as it
is. (Equation texts are treated by `Eqn.toks`/`pEqn`.) -/
def Blk.printComps (b : Blk) : List Comp :=
  (if b.definitions.isEmpty then [] else [.definitions (b.definitions.map fun e => { e with tags := [] })])
  ++ (if b.controls.isEmpty then [] else [.controls b.controls])
  ++ (if b.objective.isEmpty then [] else [.objective (b.objective.map fun e => { e with tags := [] })])
  ++ (if b.constraints.isEmpty then [] else [.constraints (b.constraints.map fun e => { e with tags := [] })])
  ++ (if b.identities.isEmpty then [] else [.identities (b.identities.map fun e => { e with tags := [] })])
  ++ (if b.shocks.isEmpty then [] else [.shocks b.shocks []])
  ++ (if b.calibration.isEmpty then [] else
      [.calibration (b.calibration.map fun
        | .eq e => .eq { e with tags := [] }
        | .dist d => .dist d)])

/-- the tokens of the `tryreduce` block body printed by `print_model` (parser/ast/printer.py:252-256): bare names. -/
def tryreduceToks : List Str → List Tok
  | [] => []
  | [n] => [.id n]
  | n :: ns => .id n :: .comma :: tryreduceToks ns

/-- `VARIABLE_LIST` (parser/grammar/statements.py:70-72), the body of a `tryreduce` block
(parser/grammar/special_blocks.py:45): every name must carry a time index. -/
def pVarList : List Tok → Option (List VarRef × List Tok)
  | .id n :: .tix t :: .comma :: ts =>
    match pVarList ts with
    | some (vs, r) => some (⟨n, t⟩ :: vs, r)
    | none => none
  | .id n :: .tix t :: ts => some ([⟨n, t⟩], ts)
  | _ => none

end GE
