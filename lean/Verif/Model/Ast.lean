import Verif.Model.Time
/-!
# `gEconpy/parser/ast/nodes.py`, `gEconpy/parser/ast/visitor.py`

Source locations (`location`) take no part in comparison (`compare=False`, nodes.py:136) and are not modelled.
-/

namespace GE

/-- Binary operators of `Operator` (parser/ast/nodes.py:73-81); the unary `NEG` is the only operator of
`UnaryOp` the grammar produces and is a constructor of `Expr`. -/
inductive BinOp where
  | add | sub | mul | div | pow
  deriving DecidableEq, Repr

/-- Expression nodes (parser/ast/nodes.py:145-267). `Number.value` is a float in the code, a rational here. -/
inductive Expr where
  | num (v : Rat)
  | par (name : Str)
  | var (name : Str) (t : TIdx)
  | bin (op : BinOp) (l r : Expr)
  | neg (e : Expr)
  | call (f : Str) (args : List Expr)
  | expect (e : Expr)

/-- `Tag` (parser/ast/nodes.py:107-116). -/
inductive Tag where
  | exclude | minimize | maximize
  deriving DecidableEq, Repr

/-- `GCNEquation` (parser/ast/nodes.py:273-288). -/
structure Eqn where
  lhs : Expr
  rhs : Expr
  lagrange : Option Str := none
  calibrating : Option Str := none
  tags : List Tag := []

/-- `GCNDistribution` (parser/ast/nodes.py:350-364). Keyword values are numbers or names. -/
structure Dist where
  param : Str
  dist : Str
  kwargs : List (Str × (Rat ⊕ Str)) := []
  wrapper : Option Str := none
  wrapperKwargs : List (Str × Option Rat) := []
  initial : Option Rat := none

/-- an entry of `GCNBlock.calibration` (parser/ast/nodes.py:418) -/
inductive Calib where
  | eq (e : Eqn)
  | dist (d : Dist)

/-- `Variable` used as a declaration (controls, shocks). -/
structure VarRef where
  name : Str
  t : TIdx := .t 0
  deriving DecidableEq, Repr

/-- `GCNBlock` (parser/ast/nodes.py:401-419). -/
structure Blk where
  name : Str
  definitions : List Eqn := []
  controls : List VarRef := []
  objective : List Eqn := []
  constraints : List Eqn := []
  identities : List Eqn := []
  shocks : List VarRef := []
  shockDists : List Dist := []
  calibration : List Calib := []

/-- `GCNModel` (parser/ast/nodes.py:431-444). -/
structure Mdl where
  blocks : List Blk := []
  options : List (Str × Str) := []
  tryreduce : List Str := []
  assumptions : List (Str × Asm) := []
  filename : Str := []

mutual
/-- all `Variable` occurrences in visitor order (parser/ast/visitor.py:56-79, 166-209). -/
def Expr.vars : Expr → List (Str × TIdx)
  | .num _ => []
  | .par _ => []
  | .var n t => [(n, t)]
  | .bin _ l r => l.vars ++ r.vars
  | .neg e => e.vars
  | .call _ as => Expr.varsArgs as
  | .expect e => e.vars
/-- the arguments of a call, in order -/
def Expr.varsArgs : List Expr → List (Str × TIdx)
  | [] => []
  | a :: as => a.vars ++ Expr.varsArgs as
end

mutual
/-- all `Parameter` names in visitor order (parser/ast/visitor.py:166-209). -/
def Expr.pars : Expr → List Str
  | .num _ => []
  | .par n => [n]
  | .var _ _ => []
  | .bin _ l r => l.pars ++ r.pars
  | .neg e => e.pars
  | .call _ as => Expr.parsArgs as
  | .expect e => e.pars
def Expr.parsArgs : List Expr → List Str
  | [] => []
  | a :: as => a.pars ++ Expr.parsArgs as
end

/-- the variable occurrences of an equation, left side first (parser/ast/visitor.py:77-79) -/
def Eqn.vars (e : Eqn) : List (Str × TIdx) := e.lhs.vars ++ e.rhs.vars

/-- `all_equations` for one block (parser/ast/nodes.py:455-463): definitions, objective, constraints,
identities, in this order. -/
def Blk.equations (b : Blk) : List Eqn := b.definitions ++ b.objective ++ b.constraints ++ b.identities

/-- An interpretation of numbers, parameters, operators and functions in some domain of values: what the
equations *mean* is measured against every such interpretation. `Expectation` is transparent, as in
parser/transform/to_sympy.py. -/
structure Interp (K : Type) where
  num : Rat → K
  par : Str → K
  bin : BinOp → K → K → K
  neg : K → K
  fn : Str → List K → K
  ss : Str → K

mutual
/-- value of an expression at date `t` along a path of the variables -/
def Expr.eval {K : Type} (I : Interp K) (path : Str → Int → K) (t : Int) : Expr → K
  | .num v => I.num v
  | .par n => I.par n
  | .var n (.t k) => path n (t + k)
  | .var n .ss => I.ss n
  | .bin op l r => I.bin op (l.eval I path t) (r.eval I path t)
  | .neg e => I.neg (e.eval I path t)
  | .call f as => I.fn f (Expr.evalArgs I path t as)
  | .expect e => e.eval I path t
def Expr.evalArgs {K : Type} (I : Interp K) (path : Str → Int → K) (t : Int) : List Expr → List K
  | [] => []
  | a :: as => a.eval I path t :: Expr.evalArgs I path t as
end

/-- the equation holds at date `t` -/
def Eqn.holds {K : Type} (I : Interp K) (path : Str → Int → K) (t : Int) (e : Eqn) : Prop :=
  e.lhs.eval I path t = e.rhs.eval I path t

/-- a path solves the block: all its equations hold at every date -/
def Blk.solvedBy {K : Type} (I : Interp K) (path : Str → Int → K) (b : Blk) : Prop :=
  ∀ e ∈ b.equations, ∀ t, e.holds I path t

end GE
