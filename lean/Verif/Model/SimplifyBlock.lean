import Verif.Model.Block
/-! # `Block.simplify_system_equations` (model/block/basic.py:603-642) -/

namespace GE

/-- a number or a symbol -/
inductive Atom where
  | num (q : Rat)
  | sym (s : Sym)
  deriving DecidableEq

/-- the numbers and symbols of `eq.atoms()`, with repetitions -/
def SExpr.atoms : SExpr → List Atom
  | .num q => [.num q]
  | .sym s => [.sym s]
  | .add a b => a.atoms ++ b.atoms
  | .mul a b => a.atoms ++ b.atoms
  | .pow a b => a.atoms ++ b.atoms
  | .exp a => a.atoms
  | .log a => a.atoms

/-- `sp.solve(eq, x, dict=True)[0][x]` (basic.py:629): an oracle for sympy's solver; `none`: no solution found (IndexError) -/
abbrev Solver := SExpr → TSym → Option SExpr

/-- one turn of the elimination loop (basic.py:624-633): the first equation mentioning `x` with at most three atoms is solved for
`x` and the solution substituted, for the dates -1, 0, 1 and the steady state, into every equation -/
def eliminateOne (solve : Solver) (eqs : List SExpr) (x : TSym) : Option (List SExpr) :=
  match (eqs.filter fun e => e.tsyms.contains x).find? fun e => e.atoms.eraseDups.length ≤ 3 with
  | none => some eqs
  | some e =>
    match solve e x with
    | none => none
    | some rhs => some (eqs.map fun e => e.subsSeq (expandSubsAllTimes [(x, rhs)]))

/-- `simplify_system_equations` (basic.py:603-642), the equations it leaves. `order`: the set of generated multipliers in the
(arbitrary) order in which Python iterates it (line 619); `norm`: sympy's automatic evaluation and `powsimp`. -/
def simplifySystem (solve : Solver) (norm : SExpr → SExpr) (order : List TSym) (eqs : List SExpr) : Option (List SExpr) :=
  (order.foldlM (eliminateOne solve) eqs).map fun s => ((s.map norm).filter fun e => decide (e ≠ .num 0))

end GE
