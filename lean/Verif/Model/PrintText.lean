import Verif.Model.Grammar
import Verif.Model.Loader
/-!
# `gEconpy/parser/ast/printer.py`: the printed text, character by character

`num v` is Python's `str(v)` of a number; nothing is assumed about it here.
-/

namespace GE.Prt

/-- `str(n)` of an integer -/
def intText (n : Int) : Str := if n < 0 then '-' :: natStr n.natAbs else natStr n.natAbs

/-- `TimeIndex.__str__` (parser/ast/nodes.py:46-53) -/
def indexText : TIdx → Str
  | .ss => "[ss]".toList
  | .t k => if k = 0 then "[]".toList else '[' :: (intText k ++ [']'])

/-- `Operator.__str__` (parser/ast/nodes.py:73-92) -/
def opText : BinOp → Char
  | .add => '+' | .sub => '-' | .mul => '*' | .div => '/' | .pow => '^'

/-- `sep.join(texts)` -/
def joinText (sep : Str) (l : List Str) : Str := sep.intercalate l

mutual
/-- `print_expression(node, parent_precedence)` (printer.py:27-82) -/
def exprText (num : Rat → Str) (p : Nat) : Expr → Str
  | .num v => if v.den = 1 then intText v.num else num v
  | .par n => n
  | .var n t => n ++ indexText t
  | .neg e => '-' :: exprText num negPrec e
  | .bin o l r =>
    let body := exprText num (prec o) l ++ ' ' :: opText o :: ' ' :: exprText num (rightPrec o) r
    if prec o < p then '(' :: (body ++ [')']) else body
  | .call f as => f ++ '(' :: (argsText num as ++ [')'])
  | .expect e => 'E' :: '[' :: ']' :: '[' :: (exprText num 0 e ++ [']'])
/-- `", ".join(print_expression(arg) for arg in args)` (printer.py:73) -/
def argsText (num : Rat → Str) : List Expr → Str
  | [] => []
  | [a] => exprText num 0 a
  | a :: as => exprText num 0 a ++ ',' :: ' ' :: argsText num as
end

/-- a non-empty name, as `if name:` sees it -/
def given : Option Str → Option Str
  | some (c :: cs) => some (c :: cs)
  | _ => none

/-- `print_equation` (printer.py:85-110) -/
def eqnText (num : Rat → Str) (e : Eqn) : Str :=
  exprText num 0 e.lhs ++ " = ".toList ++ exprText num 0 e.rhs
    ++ (match given e.lagrange with | some n => " : ".toList ++ n ++ "[]".toList | none => [])
    ++ (match given e.calibrating with | some n => " -> ".toList ++ n | none => [])

/-- `f"{v}"` of an argument; an unevaluated list never is in a prior -/
def valText (num : Rat → Str) : NTree → Str
  | .none => "None".toList
  | .str s => s
  | .num q => num q
  | .list _ => []

/-- `", ".join(f"{k}={v}" for k, v in kwargs.items())` (printer.py:128, 133) -/
def kwText (num : Rat → Str) (l : List (Str × NTree)) : Str :=
  joinText ", ".toList (l.map fun p => p.1 ++ '=' :: valText num p.2)

/-- `print_distribution` (printer.py:113-144) -/
def distText (num : Rat → Str) (d : Gcn.GDist) : Str :=
  let inner := d.dist ++ '(' :: (kwText num d.kwargs ++ [')'])
  let full :=
    match d.wrapper with
    | some (c :: w) =>
      if kwText num d.wrapperKwargs = [] then c :: w ++ '(' :: (inner ++ [')'])
      else c :: w ++ '(' :: (inner ++ ", ".toList ++ kwText num d.wrapperKwargs ++ [')'])
    | _ => inner
  d.param ++ " ~ ".toList ++ full ++ (match d.initial with | some v => " = ".toList ++ num v | none => [])

/-- `print_expression` of a declared variable (printer.py:53-54) -/
def varText (v : VarRef) : Str := v.name ++ indexText v.t

/-- one component of `print_block`: keyword, brace, content lines, closing brace and an empty line; nothing when empty
(printer.py:165-226) -/
def compLines (ind : Str) (key : String) (content : List Str) : List Str :=
  [ind ++ key.toList, ind ++ ['{']] ++ content.map (fun l => ind ++ ind ++ l ++ [';']) ++ [ind ++ ['}', ';'], []]

/-- a component of equations (printer.py:165-170, 181-200) -/
def eqnComp (num : Rat → Str) (ind : Str) (key : String) (es : List Eqn) : List Str :=
  if es.isEmpty then [] else compLines ind key (es.map (eqnText num))

/-- a component that lists variables (printer.py:173-179, 205-211) -/
def varComp (ind : Str) (key : String) (vs : List VarRef) : List Str :=
  if vs.isEmpty then [] else compLines ind key [joinText ", ".toList (vs.map varText)]

/-- one entry of the calibration (printer.py:217-221) -/
def calText (num : Rat → Str) : Gcn.GCal → Str
  | .eq e => eqnText num e
  | .prior d => distText num d

/-- `print_block` (printer.py:147-228) -/
def blockText (num : Rat → Str) (ind : Str) (b : Gcn.GBlock) : Str :=
  joinText ['\n'] (["block ".toList ++ b.name, ['{']]
    ++ eqnComp num ind "definitions" b.definitions
    ++ varComp ind "controls" b.controls
    ++ eqnComp num ind "objective" b.objective
    ++ eqnComp num ind "constraints" b.constraints
    ++ eqnComp num ind "identities" b.identities
    ++ varComp ind "shocks" b.shocks
    ++ (if b.calibration.isEmpty then [] else compLines ind "calibration" (b.calibration.map (calText num)))
    ++ [['}', ';']])

/-- the value of an option (printer.py:253) -/
def optText : Gcn.OptVal → Str
  | .bool true => "TRUE".toList
  | .bool false => "FALSE".toList
  | .word w => w

/-- the options section (printer.py:249-256) -/
def optionsText (ind : Str) (l : List (Str × Gcn.OptVal)) : Str :=
  joinText ['\n'] (["options".toList, ['{']] ++ l.map (fun p => ind ++ p.1 ++ " = ".toList ++ optText p.2 ++ [';']) ++ [['}', ';']])

/-- the tryreduce section (printer.py:259-263) -/
def tryreduceText (ind : Str) (l : List Str) : Str :=
  joinText ['\n'] ["tryreduce".toList, ['{'], ind ++ joinText ", ".toList l ++ [';'], ['}', ';']]

/-- `assumption_groups` (printer.py:268-274) -/
def asmGroups (d : List (Str × Asm)) : List (Str × List Str) :=
  d.foldl (fun g va => va.2.foldl (fun g kv => if kv.2 then dset g kv.1 ((dget g kv.1).getD [] ++ [va.1]) else g) g) []

/-- the assumptions section (printer.py:276-284) -/
def assumptionsText (ind : Str) (g : List (Str × List Str)) : Str :=
  joinText ['\n'] (["assumptions".toList, ['{']]
    ++ g.flatMap (fun p => [ind ++ p.1, ind ++ ['{'], ind ++ ind ++ joinText ", ".toList (sortBy strLe p.2) ++ [';'], ind ++ ['}', ';']])
    ++ [['}', ';']])

/-- `print_model` (printer.py:231-289) -/
def modelText (num : Rat → Str) (ind : Str) (m : Gcn.GFile) : Str :=
  joinText ['\n', '\n'] (
    (if m.options.isEmpty then [] else [optionsText ind m.options])
    ++ (if m.tryreduce.isEmpty then [] else [tryreduceText ind m.tryreduce])
    ++ (if m.assumptions.isEmpty then [] else if (asmGroups m.assumptions).isEmpty then [] else [assumptionsText ind (asmGroups m.assumptions)])
    ++ m.blocks.map (blockText num ind))

end GE.Prt
