import Verif.Model.Ast
import Verif.Model.Sym
/-!
# `gEconpy/parser/transform/to_sympy.py`

sympy's assumptions on parameters do not distinguish parameters of the same name (both come from one dictionary) and are
dropped.
-/

namespace GE

/-- why a conversion fails -/
inductive ConvErr where
  /-- `ValueError("Unknown function")` (to_sympy.py:122) -/
  | unknownFunction
  /-- wrong number of arguments (sympy raises TypeError) -/
  | arity
  /-- a function of `SYMPY_FUNCTIONS` (to_sympy.py:22-39) which `SExpr` does not have: not modelled -/
  | notModelled
  deriving DecidableEq, Repr

/-- names in `SYMPY_FUNCTIONS` (to_sympy.py:22-39) other than log, exp, sqrt -/
def otherFunctions : List Str :=
  ["abs", "sin", "cos", "tan", "asin", "acos", "atan", "sinh", "cosh", "tanh", "sign", "floor", "ceiling"].map String.toList

/-- `OPERATOR_MAP` (to_sympy.py:41-47) -/
def convBin : BinOp → SExpr → SExpr → SExpr
  | .add, a, b => .add a b
  | .sub, a, b => a.sub b
  | .mul, a, b => .mul a b
  | .div, a, b => a.div b
  | .pow, a, b => .pow a b

/-- `_convert_function_call` (to_sympy.py:119-124) -/
def convCall (f : Str) (args : List SExpr) : Except ConvErr SExpr :=
  if f = "log".toList then
    match args with
    | [a] => .ok (.log a)
    | [a, b] => .ok (SExpr.div (.log a) (.log b))
    | _ => .error .arity
  else if f = "exp".toList then
    match args with
    | [a] => .ok (.exp a)
    | _ => .error .arity
  else if f = "sqrt".toList then
    match args with
    | [a] => .ok (.pow a (.num (1/2)))
    | _ => .error .arity
  else if f ∈ otherFunctions then .error .notModelled
  else .error .unknownFunction

/-- `_convert_variable` (to_sympy.py:97-104) -/
def convVar (asm : List (Str × Asm)) (n : Str) (t : TIdx) : TSym := ⟨n, t, mergeAssumptions (dget asm n)⟩

mutual
/-- `ASTToSympyConverter.convert` (to_sympy.py:63-129); expectations are transparent -/
def toSympy (asm : List (Str × Asm)) : Expr → Except ConvErr SExpr
  | .num v => .ok (.num v)
  | .par n => .ok (.sym (.par n))
  | .var n t => .ok (.sym (.tv (convVar asm n t)))
  | .bin op l r =>
    match toSympy asm l with
    | .error e => .error e
    | .ok a =>
      match toSympy asm r with
      | .error e => .error e
      | .ok b => .ok (convBin op a b)
  | .neg e =>
    match toSympy asm e with
    | .error e => .error e
    | .ok a => .ok a.neg
  | .call f as =>
    match toSympyArgs asm as with
    | .error e => .error e
    | .ok as' => convCall f as'
  | .expect e => toSympy asm e
/-- the arguments of a call (to_sympy.py:123) -/
def toSympyArgs (asm : List (Str × Asm)) : List Expr → Except ConvErr (List SExpr)
  | [] => .ok []
  | a :: as =>
    match toSympy asm a with
    | .error e => .error e
    | .ok a' =>
      match toSympyArgs asm as with
      | .error e => .error e
      | .ok as' => .ok (a' :: as')
end

/-- a sympy equation `sp.Eq(lhs, rhs)`; trivially true or false equations, which sympy evaluates to booleans, are not modelled -/
structure SEq where
  lhs : SExpr
  rhs : SExpr
  deriving DecidableEq, Repr

/-- `_equation_to_sympy` (parser/transform/to_block.py:18-38): calibrating equations become `Eq(param, rhs - lhs)`.
(`equation_to_sympy` in to_sympy.py:160-201 uses `lhs - rhs`.) An empty parameter name counts as none (`if ...:`). -/
def eqnToSympy (asm : List (Str × Asm)) (e : Eqn) : Except ConvErr SEq :=
  match toSympy asm e.lhs with
  | .error e => .error e
  | .ok l =>
    match toSympy asm e.rhs with
    | .error e => .error e
    | .ok r =>
      match e.calibrating with
      | some (c :: p) => .ok ⟨.sym (.par (c :: p)), r.sub l⟩
      | _ => .ok ⟨l, r⟩

/-- `equation_to_sympy` (to_sympy.py:160-201), the equation part -/
def equationToSympyMeta (asm : List (Str × Asm)) (e : Eqn) : Except ConvErr SEq :=
  match toSympy asm e.lhs with
  | .error e => .error e
  | .ok l =>
    match toSympy asm e.rhs with
    | .error e => .error e
    | .ok r =>
      match e.calibrating with
      | some (c :: p) => .ok ⟨.sym (.par (c :: p)), l.sub r⟩
      | _ => .ok ⟨l, r⟩

end GE
