import Verif.Model.PrintText
/-!
# `gEconpy/parser/ast/nodes.py`, `visitor.py`: asking a parsed model what it contains, and `str()` of its parts

`num v` is Python's `str(v)` of a number. Sets are lists without repetition. The transformer of visitor.py is `ExpandTime`.
-/

namespace GE.NTx
open Prt Gcn

/-! ## `str()` -/

mutual
/-- `__str__` of the expression nodes: numbers (parser/ast/nodes.py:153-156), parameters (172-173), variables (205-206), binary operations
(220-221), negation (234-235), calls (251-253) and expectations (269-270) -/
def exprStr (num : Rat → Str) : Expr → Str
  | .num v => if v.den = 1 then intText v.num else num v
  | .par n => n
  | .var n t => n ++ indexText t
  | .bin o l r => '(' :: (exprStr num l ++ ' ' :: opText o :: ' ' :: exprStr num r ++ [')'])
  | .neg e => '(' :: '-' :: (exprStr num e ++ [')'])
  | .call f as => f ++ '(' :: (argsStr num as ++ [')'])
  | .expect e => 'E' :: '[' :: ']' :: '[' :: (exprStr num e ++ [']'])
/-- `", ".join(str(arg) for arg in self.args)` (parser/ast/nodes.py:252) -/
def argsStr (num : Rat → Str) : List Expr → Str
  | [] => []
  | [a] => exprStr num a
  | a :: as => exprStr num a ++ ',' :: ' ' :: argsStr num as
end

/-- `Tag.__str__` (parser/ast/nodes.py:127-128) -/
def tagStr : Tag → Str
  | .exclude => "@exclude".toList
  | .minimize => "@minimize".toList
  | .maximize => "@maximize".toList

/-- `sorted(self.tags, key=lambda t: t.value)` (parser/ast/nodes.py:337); the tags are a set -/
def sortedTags (tags : List Tag) : List Tag := [.exclude, .maximize, .minimize].filter fun t => t ∈ tags

/-- `GCNEquation.__str__` (parser/ast/nodes.py:334-344): the tags on lines of their own, then the equation -/
def eqnStr (num : Rat → Str) (e : Eqn) : Str :=
  joinText ['\n'] ((sortedTags e.tags).map tagStr ++ [exprStr num e.lhs ++ " = ".toList ++ exprStr num e.rhs])
    ++ (match given e.lagrange with | some n => " : ".toList ++ n | none => [])
    ++ (match given e.calibrating with | some n => " -> ".toList ++ n | none => [])

/-- `GCNDistribution.__str__` (parser/ast/nodes.py:381-395) -/
def distStr (num : Rat → Str) (d : GDist) : Str :=
  let kw := joinText ", ".toList (d.kwargs.map fun p => p.1 ++ '=' :: valText num p.2)
  let inner := d.dist ++ '(' :: (kw ++ [')'])
  let full :=
    match d.wrapper with
    | some (c :: w) =>
      let wk := joinText ", ".toList (d.wrapperKwargs.map fun p => p.1 ++ '=' :: valText num p.2)
      if wk = [] then c :: w ++ '(' :: (inner ++ [')']) else c :: w ++ '(' :: (inner ++ ", ".toList ++ wk ++ [')'])
    | _ => inner
  d.param ++ " ~ ".toList ++ full ++ (match d.initial with | some v => " = ".toList ++ num v | none => [])

/-! ## queries -/

mutual
/-- the nodes `NodeCollector.visit` comes by, in order (parser/ast/visitor.py:70-79, 186-189) -/
def visited : Expr → List Expr
  | .num v => [.num v]
  | .par n => [.par n]
  | .var n t => [.var n t]
  | .bin o l r => .bin o l r :: (visited l ++ visited r)
  | .neg e => .neg e :: visited e
  | .call f as => .call f as :: visitedArgs as
  | .expect e => .expect e :: visited e
/-- the arguments of a call, in order (parser/ast/visitor.py:75-77) -/
def visitedArgs : List Expr → List Expr
  | [] => []
  | a :: as => visited a ++ visitedArgs as
end

/-- the node is a `Variable` -/
def asVariable : Expr → Option (Str × TIdx)
  | .var n t => some (n, t)
  | _ => none

/-- the node is a `Parameter` -/
def asParameter : Expr → Option Str
  | .par n => some n
  | _ => none

/-- `collect_nodes_of_type(node, Variable)` (parser/ast/nodes.py:482-484, 492-511, visitor.py:192-209) -/
def collectVariables (e : Expr) : List (Str × TIdx) := ((visited e).filterMap asVariable).eraseDups

/-- `collect_nodes_of_type(node, Parameter)` (parser/ast/nodes.py:487-489) -/
def collectParameters (e : Expr) : List Str := ((visited e).filterMap asParameter).eraseDups

/-- `GCNModel.all_equations` (parser/ast/nodes.py:455-463) -/
def allEquations (f : GFile) : List Eqn := f.blocks.flatMap fun b => b.definitions ++ b.objective ++ b.constraints ++ b.identities

/-- `GCNModel.all_variables` (parser/ast/nodes.py:465-471) -/
def allVariables (f : GFile) : List (Str × TIdx) :=
  ((allEquations f).flatMap fun e => collectVariables e.lhs ++ collectVariables e.rhs).eraseDups

/-- `GCNModel.all_parameters` (parser/ast/nodes.py:473-479) -/
def allParameters (f : GFile) : List Str :=
  ((allEquations f).flatMap fun e => collectParameters e.lhs ++ collectParameters e.rhs).eraseDups

/-- `GCNModel.get_block` (parser/ast/nodes.py:446-450) -/
def getBlock (f : GFile) (name : Str) : Option GBlock := f.blocks.find? fun b => b.name = name

/-- `GCNModel.block_names` (parser/ast/nodes.py:452-453) -/
def blockNames (f : GFile) : List Str := f.blocks.map GBlock.name

/-- `GCNBlock.has_optimization_problem` (parser/ast/nodes.py:424-425) -/
def hasOptimization (b : GBlock) : Bool := decide (b.controls.length > 0) && decide (b.objective.length > 0)

end GE.NTx
