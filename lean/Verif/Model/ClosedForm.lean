import Verif.Model.Block
/-!
# `gEconpy/model/block/{registry,cobb_douglas,ces}.py`: recognised production constraints

sympy's rewriting is an oracle (`Rewriter`): the theorems say what they need of it. Functions of it are used only where the code
calls them: `sp.expand` (cobb_douglas.py:92), the automatic canonical form of `eq.rhs - eq.lhs` (ces.py:147) and
`sp.simplify(e) == 0` (ces.py:75, 78, 88).
-/

namespace GE

/-- the sympy operations used by the matchers -/
structure Rewriter where
  /-- `sp.expand` (cobb_douglas.py:92) -/
  expand : SExpr → SExpr
  /-- the canonical form sympy gives to `eq.rhs - eq.lhs` (ces.py:147) -/
  auto : SExpr → SExpr
  /-- `sp.simplify(e) == 0` (ces.py:75, 78, 88) -/
  isZero : SExpr → Bool

/-- `coeff, rest = term.as_coeff_Mul()` with `coeff == -1` and `rest` a symbol (cobb_douglas.py:100-101, ces.py:154-155) -/
def negSymbol (e : SExpr) : Option Sym :=
  match e.factors with
  | [.num q, .sym s] => if q = -1 then some s else none
  | _ => none

/-- the two-term test and the loop which separates `-Y` from the production term (cobb_douglas.py:93-107, ces.py:148-161) -/
def splitResidual (e : SExpr) : Option (Sym × SExpr) :=
  match e.summands with
  | [a, b] =>
    match negSymbol a with
    | some y => some (y, b)
    | none =>
      match negSymbol b with
      | some y => some (y, a)
      | none => none
  | _ => none

/-- the loop of `_decompose_monomial` (cobb_douglas.py:33-44): the productivity symbol and the inputs found so far -/
def monomialLoop : List SExpr → Option Sym → List (Sym × SExpr) → Option (Option Sym × List (Sym × SExpr))
  | [], A, ins => some (A, ins)
  | .pow b e :: fs, A, ins =>
    match b with
    | .sym x => monomialLoop fs A (ins ++ [(x, e)])
    | _ => none
  | .sym s :: fs, A, ins =>
    match A with
    | some _ => none
    | none => monomialLoop fs (some s) ins
  | _ :: _, _, _ => none

/-- `_decompose_monomial` (cobb_douglas.py:9-53) -/
def decomposeMonomial (e : SExpr) : Option (Option Sym × List (Sym × SExpr)) :=
  match monomialLoop e.factors none [] with
  | none => none
  | some (A, ins) =>
    if ins = [] then none
    else if (ins.map Prod.fst).Nodup then some (A, ins)
    else none

/-- the dictionary returned by `_match_cobb_douglas_constraint` (cobb_douglas.py:121) -/
structure CDMatch where
  idx : Nat
  Y : Sym
  A : Option Sym
  inputs : List (Sym × SExpr)
  deriving DecidableEq, Repr

/-- one turn of the loop over the two residuals (cobb_douglas.py:91-121) -/
def matchCDResidual (R : Rewriter) (idx : Nat) (raw : SExpr) : Option CDMatch :=
  match splitResidual (R.expand raw) with
  | none => none
  | some (Y, prod) =>
    match decomposeMonomial prod with
    | none => none
    | some (A, ins) => if (Y :: (A.toList ++ ins.map Prod.fst)).Nodup then some ⟨idx, Y, A, ins⟩ else none

/-- `_match_cobb_douglas_constraint` (cobb_douglas.py:56-123) -/
def matchCD (R : Rewriter) (cs : Option (List (Nat × SEq))) : Option CDMatch :=
  match cs with
  | some [(idx, e)] => (matchCDResidual R idx (e.rhs.sub e.lhs)).orElse fun _ => matchCDResidual R idx (e.lhs.sub e.rhs)
  | _ => none

/-- the loop of `_decompose_ces_outer` (ces.py:28-40): productivity symbol, bracket and outer exponent found so far -/
def cesOuterLoop : List SExpr → Option Sym → Option (SExpr × SExpr) → Option (Option Sym × Option (SExpr × SExpr))
  | [], A, p => some (A, p)
  | .sym s :: fs, A, p =>
    match A with
    | some _ => none
    | none => cesOuterLoop fs (some s) p
  | .pow b e :: fs, A, p =>
    match b, p with
    | .add x y, none => cesOuterLoop fs A (some (.add x y, e))
    | _, _ => none
  | _ :: _, _, _ => none

/-- `_decompose_ces_outer` (ces.py:9-44) -/
def cesOuter (e : SExpr) : Option (Option Sym × SExpr × SExpr) :=
  match cesOuterLoop e.factors none none with
  | some (A, some (inner, oe)) => some (A, inner, oe)
  | _ => none

/-- the candidate exponents (ces.py:72-76) -/
def cesCandidates (R : Rewriter) (fs : List SExpr) : List SExpr :=
  fs.foldl (fun cs f => match f with
    | .pow _ e => if cs.any fun c => R.isZero (e.sub c) then cs else cs ++ [e]
    | _ => cs) []

/-- the loop over the factors of one addend (ces.py:85-95): the input and the share factors found so far -/
def cesTermLoop (R : Rewriter) (s : SExpr) : List SExpr → Option Sym → List SExpr → Option (Option Sym × List SExpr)
  | [], x, sh => some (x, sh)
  | .pow b e :: fs, x, sh =>
    if R.isZero (e.sub s) then
      match x, b with
      | none, .sym v => cesTermLoop R s fs (some v) sh
      | _, _ => none
    else cesTermLoop R s fs x (sh ++ [.pow b e])
  | f :: fs, x, sh => cesTermLoop R s fs x (sh ++ [f])

/-- `sp.Mul(*share_factors)` (ces.py:98) -/
def mulAll : List SExpr → SExpr
  | [] => .num 1
  | f :: fs => .mul f (mulAll fs)

/-- one addend of the bracket (ces.py:84-99) -/
def cesTerm (R : Rewriter) (s : SExpr) (term : SExpr) : Option (Sym × SExpr) :=
  match cesTermLoop R s term.factors none [] with
  | some (some x, sh) => some (x, mulAll sh)
  | _ => none

/-- `_decompose_ces_inner` (ces.py:47-105) -/
def cesInner (R : Rewriter) (inner oe : SExpr) : Option (SExpr × List (Sym × SExpr)) :=
  match (cesCandidates R (inner.summands.flatMap SExpr.factors)).filter fun c => R.isZero ((SExpr.mul oe c).sub (.num 1)) with
  | [s] =>
    match inner.summands.mapM (cesTerm R s) with
    | none => none
    | some ins => if (ins.map Prod.fst).Nodup then some (s, ins) else none
  | _ => none

/-- the dictionary returned by `_match_ces_constraint` (ces.py:180) -/
structure CESMatch where
  idx : Nat
  Y : Sym
  A : Option Sym
  s : SExpr
  inputs : List (Sym × SExpr)
  deriving DecidableEq, Repr

/-- one turn of the loop over the two residuals (ces.py:147-180) -/
def matchCESResidual (R : Rewriter) (idx : Nat) (raw : SExpr) : Option CESMatch :=
  match splitResidual (R.auto raw) with
  | none => none
  | some (Y, prod) =>
    match cesOuter prod with
    | none => none
    | some (A, inner, oe) =>
      match cesInner R inner oe with
      | none => none
      | some (s, ins) => if (Y :: (A.toList ++ ins.map Prod.fst)).Nodup then some ⟨idx, Y, A, s, ins⟩ else none

/-- `_match_ces_constraint` (ces.py:108-182) -/
def matchCES (R : Rewriter) (cs : Option (List (Nat × SEq))) : Option CESMatch :=
  match cs with
  | some [(idx, e)] => (matchCESResidual R idx (e.rhs.sub e.lhs)).orElse fun _ => matchCESResidual R idx (e.lhs.sub e.rhs)
  | _ => none

/-- the class of a block: `Block`, `CobbDouglasBlock` with its match, or `CESBlock` with its match -/
inductive Kind where
  | generic
  | cobbDouglas (m : CDMatch)
  | ces (m : CESMatch)
  deriving DecidableEq, Repr

/-- `dispatch_block` (registry.py:36-78) with the registry filled by block/__init__.py:4-7 (CES before Cobb-Douglas), and the two
`detect` methods (ces.py:216-247, cobb_douglas.py:155-186). -/
def dispatchKind (R : Rewriter) (B : Block) : Kind :=
  if B.objective.isNone then .generic
  else
    match matchCES R B.constraints with
    | some m => .ces m
    | none =>
      match matchCD R B.constraints with
      | some m => .cobbDouglas m
      | none => .generic

/-- errors of `diff_through_time` as exceptions of a block -/
def dttB (e : SExpr) (x : TSym) (df : SExpr) : Except BErr SExpr :=
  match diffThroughTime e x (.expr df) with
  | .ok r => .ok r
  | .error _ => .error .typeError

/-- `mu = self.multipliers[match["idx"]]` and the `None` check (cobb_douglas.py:237-242, ces.py:301-305) -/
def closedMultiplier (ms : List (Nat × Option TSym)) (idx : Nat) : Except BErr TSym :=
  match dget ms idx with
  | none => .error .keyError
  | some none => .error .runtimeError
  | some (some mu) => .ok mu

/-- the objective with the `@minimize` sign, definitions *not* substituted (cobb_douglas.py:245-248, ces.py:307-310) -/
def Block.rawObjective (B : Block) : Except BErr SExpr :=
  match B.objective with
  | some ((okey, obj) :: _) => .ok (if ((dget B.flags okey).getD {}).minimize then obj.rhs.neg else obj.rhs)
  | some [] => .error .valueError
  | none => .error .attributeError

/-- `A**s if A is not None else 1` (ces.py:317) -/
def productivity (A : Option Sym) (s : SExpr) : SExpr :=
  match A with
  | some a => .pow (.sym a) s
  | none => .num 1

/-- the objective derivative, then the closed-form branch or the fall-back (cobb_douglas.py:245-255, ces.py:307-320) -/
def Block.closedFoc (B : Block) (idx : Nat) (inputs : List (Sym × SExpr)) (extra : TSym → Sym → SExpr → SExpr)
    (ms : List (Nat × Option TSym)) (L df : SExpr) (c : TSym) : Except BErr SExpr :=
  match closedMultiplier ms idx with
  | .error e => .error e
  | .ok mu =>
    match B.rawObjective with
    | .error e => .error e
    | .ok o =>
      match dttB o c df with
      | .error e => .error e
      | .ok od =>
        match dget inputs (.tv c) with
        | some w => .ok (.add od (extra mu (.tv c) w))
        | none => dttB L c df

/-- `_compute_foc`: `Block` (basic.py:744-752), `CobbDouglasBlock` (cobb_douglas.py:197-255), `CESBlock` (ces.py:257-320) -/
def Block.computeFoc (B : Block) (k : Kind) (ms : List (Nat × Option TSym)) (L df : SExpr) (c : TSym) : Except BErr SExpr :=
  match k with
  | .generic => dttB L c df
  | .cobbDouglas m =>
    B.closedFoc m.idx m.inputs (fun mu x a => .div (.mul (.mul (.sym (.tv mu)) a) (.sym m.Y)) (.sym x)) ms L df c
  | .ces m =>
    B.closedFoc m.idx m.inputs (fun mu x share =>
      .mul (.mul (.mul (.sym (.tv mu)) share) (productivity m.A m.s))
        (.pow (.div (.sym m.Y) (.sym x)) ((SExpr.num 1).sub m.s))) ms L df c

/-- `solve_optimization(try_simplify=False)` (basic.py:644-742) with the first-order conditions of the block's class -/
def Block.solveKind (k : Kind) (B : Block) : Except BErr Solved :=
  match B.plainEquations with
  | .error e => .error e
  | .ok eqs =>
    match B.objective, B.controls with
    | none, none => .ok ⟨eqs, B.multipliers⟩
    | none, some _ => .error .attributeError
    | some _, none => .error .typeError
    | some [], some _ => .error .indexError
    | some ((okey, obj) :: _), some cs =>
      let sub := defDict (dvals B.definitions)
      let eqs := eqs ++ [(obj.subsSeq sub).zero]
      match discountFactor obj with
      | .error e => .error e
      | .ok df =>
        match B.lagrangian with
        | .error e => .error e
        | .ok (L, ms) =>
          match (B.multipliers.map Prod.snd)[okey]? with
          | none => .error .indexError
          | some (some _) => .error .notImplemented
          | some none =>
            match cs.mapM (B.computeFoc k ms L df) with
            | .error e => .error e
            | .ok focs => .ok ⟨eqs ++ focs, ms⟩

end GE
