import Verif.Model.Dynare
import Mathlib.Analysis.SpecialFunctions.Pow.Real
/-!
# Specification for the Dynare export: how Dynare reads an expression, and what it means

Nothing here models code of the repository: it is the reader's side of the exported file. Dynare's grammar of expressions
(reference manual, "Expressions"; `DynareBison.yy`): `+ -` left associative, `* /` left associative and tighter, unary
minus and plus tighter still, `^` tightest and non-associative; `x(+k)`, `x(-k)` are leads and lags; a function name is
reserved. The grammar is written as a recursive-descent parser, so a text has at most one reading.
-/

namespace GE.Dyn

/-- what Dynare reads: literals, names at a lead or lag, unary minus, binary operations, function calls -/
inductive DA where
  | num (v : Rat)
  | ref (n : Str) (k : Int)
  | neg (a : DA)
  | bin (o : Op) (a b : DA)
  | call (f : Str) (as : List DA)

mutual
/-- literal, name with optional lead or lag, function call, parenthesis -/
def pAtom : Nat → List DTok → Option (DA × List DTok)
  | 0, _ => none
  | _ + 1, .num v :: ts => some (.num v, ts)
  | _ + 1, .name n :: .lpar :: .op .add :: .num k :: .rpar :: ts => if k.den = 1 then some (.ref n k.num, ts) else none
  | _ + 1, .name n :: .lpar :: .op .sub :: .num k :: .rpar :: ts => if k.den = 1 then some (.ref n (-k.num), ts) else none
  | _ + 1, .name n :: ts => some (.ref n 0, ts)
  | f + 1, .fn g :: .lpar :: ts =>
    match pArgs f ts with
    | some (as, .rpar :: ts') => some (.call g as, ts')
    | _ => none
  | f + 1, .lpar :: ts =>
    match pAdd f ts with
    | some (a, .rpar :: ts') => some (a, ts')
    | _ => none
  | _ + 1, _ => none
/-- what may stand after `^`: a signed operand or an atom -/
def pExp : Nat → List DTok → Option (DA × List DTok)
  | 0, _ => none
  | f + 1, .op .sub :: ts => pUnary f (.op .sub :: ts)
  | f + 1, .op .add :: ts => pUnary f (.op .add :: ts)
  | f + 1, ts => pAtom f ts
/-- an atom, or `a ^ b`; `a ^ b ^ c` is an error -/
def pPow : Nat → List DTok → Option (DA × List DTok)
  | 0, _ => none
  | f + 1, ts =>
    match pAtom f ts with
    | some (a, .op .pow :: ts') =>
      match pExp f ts' with
      | some (_, .op .pow :: _) => none
      | some (b, ts'') => some (.bin .pow a b, ts'')
      | none => none
    | r => r
/-- unary minus and plus -/
def pUnary : Nat → List DTok → Option (DA × List DTok)
  | 0, _ => none
  | f + 1, .op .sub :: ts => (pUnary f ts).map fun r => (.neg r.1, r.2)
  | f + 1, .op .add :: ts => pUnary f ts
  | f + 1, ts => pPow f ts
/-- products and quotients, from the left -/
def pMul : Nat → List DTok → Option (DA × List DTok)
  | 0, _ => none
  | f + 1, ts =>
    match pUnary f ts with
    | some (a, ts') => pMulLoop f a ts'
    | none => none
/-- the rest of a product -/
def pMulLoop : Nat → DA → List DTok → Option (DA × List DTok)
  | 0, _, _ => none
  | f + 1, a, .op .mul :: ts =>
    match pUnary f ts with
    | some (b, ts') => pMulLoop f (.bin .mul a b) ts'
    | none => none
  | f + 1, a, .op .div :: ts =>
    match pUnary f ts with
    | some (b, ts') => pMulLoop f (.bin .div a b) ts'
    | none => none
  | _ + 1, a, ts => some (a, ts)
/-- sums and differences, from the left -/
def pAdd : Nat → List DTok → Option (DA × List DTok)
  | 0, _ => none
  | f + 1, ts =>
    match pMul f ts with
    | some (a, ts') => pAddLoop f a ts'
    | none => none
/-- the rest of a sum -/
def pAddLoop : Nat → DA → List DTok → Option (DA × List DTok)
  | 0, _, _ => none
  | f + 1, a, .op .add :: ts =>
    match pMul f ts with
    | some (b, ts') => pAddLoop f (.bin .add a b) ts'
    | none => none
  | f + 1, a, .op .sub :: ts =>
    match pMul f ts with
    | some (b, ts') => pAddLoop f (.bin .sub a b) ts'
    | none => none
  | _ + 1, a, ts => some (a, ts)
/-- comma separated arguments, at least one -/
def pArgs : Nat → List DTok → Option (List DA × List DTok)
  | 0, _ => none
  | f + 1, ts =>
    match pAdd f ts with
    | some (a, .comma :: ts') => (pArgs f ts').map fun r => (a :: r.1, r.2)
    | some (a, ts') => some ([a], ts')
    | none => none
end

/-- Dynare reads the whole text `ts` as `a` -/
def ReadsAs (ts : List DTok) (a : DA) : Prop := ∃ f, pAdd f ts = some (a, [])

/-- the meaning of the functions the exported file uses: `sqrt` is the square root, the others are what they are on both
sides -/
structure Funs where
  app : Str → List ℝ → ℝ
  sqrt : ∀ x, app "sqrt".toList [x] = Real.sqrt x

mutual
/-- the value Dynare gives to what it has read, where `env n k` is the value of the declared name `n` at lead `k` -/
noncomputable def DA.val (F : Funs) (env : Str → Int → ℝ) : DA → ℝ
  | .num v => v
  | .ref n k => env n k
  | .neg a => - a.val F env
  | .bin .add a b => a.val F env + b.val F env
  | .bin .sub a b => a.val F env - b.val F env
  | .bin .mul a b => a.val F env * b.val F env
  | .bin .div a b => a.val F env / b.val F env
  | .bin .pow a b => (a.val F env) ^ (b.val F env)
  | .call f as => F.app f (DA.vals F env as)
noncomputable def DA.vals (F : Funs) (env : Str → Int → ℝ) : List DA → List ℝ
  | [] => []
  | a :: as => a.val F env :: DA.vals F env as
end

mutual
/-- the value of the sympy expression, where `V` gives the value of a variable at a date or in steady state and `P` that
of a parameter -/
noncomputable def DE.val (F : Funs) (V : TSym → ℝ) (P : Str → ℝ) : DE → ℝ
  | .num v => v
  | .flt v => v
  | .par n => P n
  | .tv s => V s
  | .add ts => (DE.vals F V P ts).sum
  | .mul fs => (DE.vals F V P fs).prod
  | .pow b e => (b.val F V P) ^ (e.val F V P)
  | .fn f as => F.app f (DE.vals F V P as)
noncomputable def DE.vals (F : Funs) (V : TSym → ℝ) (P : Str → ℝ) : List DE → List ℝ
  | [] => []
  | e :: es => e.val F V P :: DE.vals F V P es
end

mutual
/-- the symbols of an expression: variables on the left, parameters on the right -/
def DE.syms : DE → List (TSym ⊕ Str)
  | .num _ => []
  | .flt _ => []
  | .par n => [.inr n]
  | .tv s => [.inl s]
  | .add ts => DE.symsL ts
  | .mul fs => DE.symsL fs
  | .pow b e => b.syms ++ e.syms
  | .fn _ as => DE.symsL as
def DE.symsL : List DE → List (TSym ⊕ Str)
  | [] => []
  | e :: es => e.syms ++ DE.symsL es
end

/-- the name and lead under which the exported file refers to a symbol: `x`, `x(+1)`, `x(-1)` for the dates, `x_ss` for
the steady state, the parameter's own name -/
def dynName : TSym ⊕ Str → Str × Int
  | .inr p => (p, 0)
  | .inl ⟨b, .t k, _⟩ => (b, k)
  | .inl ⟨b, .ss, _⟩ => (b ++ "_ss".toList, 0)

/-- Dynare's names have the values the symbols of `e` have -/
def Agrees (V : TSym → ℝ) (P : Str → ℝ) (env : Str → Int → ℝ) (e : DE) : Prop :=
  ∀ x ∈ e.syms, env (dynName x).1 (dynName x).2 = Sum.elim V P x

/-- an expression whose unparenthesised print would be a quotient or a bare product -/
def quotLike : DE → Bool
  | .num v => v.den != 1
  | .pow _ e => litOf e == some (-1) || litOf e == some (-1/2)
  | .mul fs => fs.length == 1
  | _ => false

mutual
/-- the part of sympy's canonical form the printer relies on: no empty sum, no function without arguments, and in a
product no reciprocal of a reciprocal, of a fraction or of a one-factor product (sympy's constructors evaluate all
three) -/
def DE.Canon : DE → Prop
  | .num _ => True
  | .flt _ => True
  | .par _ => True
  | .tv _ => True
  | .add ts => ts ≠ [] ∧ DE.CanonL ts
  | .mul fs => DE.CanonL fs ∧ ∀ b, DE.pow b (.num (-1)) ∈ fs → quotLike b = false
  | .pow b e => b.Canon ∧ e.Canon
  | .fn _ as => as ≠ [] ∧ DE.CanonL as
def DE.CanonL : List DE → Prop
  | [] => True
  | e :: es => e.Canon ∧ DE.CanonL es
end

mutual
/-- negative fractional powers are taken of non-negative numbers only -/
def DE.RealPowers (F : Funs) (V : TSym → ℝ) (P : Str → ℝ) : DE → Prop
  | .num _ => True
  | .flt _ => True
  | .par _ => True
  | .tv _ => True
  | .add ts => DE.RealPowersL F V P ts
  | .mul fs => DE.RealPowersL F V P fs
  | .pow b e => b.RealPowers F V P ∧ e.RealPowers F V P ∧
      ∀ r, litOf e = some r → r < 0 → r.den ≠ 1 → 0 ≤ b.val F V P
  | .fn _ as => DE.RealPowersL F V P as
def DE.RealPowersL (F : Funs) (V : TSym → ℝ) (P : Str → ℝ) : List DE → Prop
  | [] => True
  | e :: es => e.RealPowers F V P ∧ DE.RealPowersL F V P es
end

/-! ## blocks -/

/-- a name gets a value, at every lead and lag -/
def bindName (env : Str → Int → ℝ) (n : Str) (v : ℝ) : Str → Int → ℝ := fun n' k => if n' = n then v else env n' k

/-- Dynare works through the assignments `lines` one after the other, each with the names bound so far, and ends with
`env'` -/
inductive Assigns (F : Funs) : (Str → Int → ℝ) → List (Str × List DTok) → (Str → Int → ℝ) → Prop where
  | nil (env) : Assigns F env [] env
  | cons {env n ts a lines env'} : ReadsAs ts a → Assigns F (bindName env n (a.val F env)) lines env' →
      Assigns F env ((n, ts) :: lines) env'

/-- Dynare reads a model block: first its `#` definitions, then the residual of each equation -/
def BlockVals (F : Funs) (env : Str → Int → ℝ) (b : List (Str × List DTok) × List (List DTok)) (vals : List ℝ) : Prop :=
  ∃ env', Assigns F env b.1 env' ∧ List.Forall₂ (fun ts v => ∃ a, ReadsAs ts a ∧ a.val F env' = v) b.2 vals

/-- a declaration statement: keyword, names separated by commas, semicolon -/
def declLine (kw : Str) (ns : List Str) : Str := kw ++ [' '] ++ List.intercalate [',', ' '] ns ++ [';']

end GE.Dyn
