import Verif.Model.Ast
/-!
# `gEconpy/parser/transform/expand_time_indices.py`
-/

namespace GE

/-- `make_lag_name` (expand_time_indices.py:14, 18-20). -/
def makeLagName (x : Str) (level : Nat) : Str := x ++ ['_','_','l','a','g'] ++ natStr level
/-- `make_lead_name` (expand_time_indices.py:15, 23-25). -/
def makeLeadName (x : Str) (level : Nat) : Str := x ++ ['_','_','l','e','a','d'] ++ natStr level

/-- state of `DeepTimeIndexCollector` (expand_time_indices.py:31-33) -/
structure Deep where
  lags : List (Str × Int) := []
  leads : List (Str × Int) := []
  deriving DecidableEq, Repr

/-- `visit_Variable` of the collector (expand_time_indices.py:35-43). -/
def collectVar (d : Deep) : Str → TIdx → Deep
  | _, .ss => d
  | x, .t k =>
    if k < -1 then { d with lags := dset d.lags x (min ((dget d.lags x).getD 0) k) }
    else if k > 1 then { d with leads := dset d.leads x (max ((dget d.leads x).getD 0) k) }
    else d

mutual
/-- the collector's traversal (parser/ast/visitor.py:56-79 with expand_time_indices.py:35-43) -/
def collectExpr (d : Deep) : Expr → Deep
  | .num _ => d
  | .par _ => d
  | .var n t => collectVar d n t
  | .bin _ l r => collectExpr (collectExpr d l) r
  | .neg e => collectExpr d e
  | .call _ as => collectArgs d as
  | .expect e => collectExpr d e
def collectArgs (d : Deep) : List Expr → Deep
  | [] => d
  | a :: as => collectArgs (collectExpr d a) as
end

/-- `_collect_from_equations` (expand_time_indices.py:78-85). -/
def collectFromEquations (es : List Eqn) : Deep :=
  es.foldl (fun d e => collectExpr (collectExpr d e.lhs) e.rhs) {}

/-- `DeepTimeIndexReplacer.visit_Variable` (expand_time_indices.py:53-75). -/
def replaceVar (d : Deep) (x : Str) : TIdx → Str × TIdx
  | .ss => (x, .ss)
  | .t k =>
    if (dget d.lags x).isSome ∧ k < -1 then (makeLagName x (k.natAbs - 1), .t (-1))
    else if (dget d.leads x).isSome ∧ k > 1 then (makeLeadName x (k.natAbs - 1), .t 1)
    else (x, .t k)

mutual
/-- the replacer's traversal (parser/ast/visitor.py:106-163) -/
def replaceExpr (d : Deep) : Expr → Expr
  | .num v => .num v
  | .par n => .par n
  | .var n t => let r := replaceVar d n t; .var r.1 r.2
  | .bin op l r => .bin op (replaceExpr d l) (replaceExpr d r)
  | .neg e => .neg (replaceExpr d e)
  | .call f as => .call f (replaceArgs d as)
  | .expect e => .expect (replaceExpr d e)
def replaceArgs (d : Deep) : List Expr → List Expr
  | [] => []
  | a :: as => replaceExpr d a :: replaceArgs d as
end

/-- the replacer on an equation (parser/ast/visitor.py:148-160): multiplier, calibrating parameter and tags
are carried over. -/
def replaceEqn (d : Deep) (e : Eqn) : Eqn := { e with lhs := replaceExpr d e.lhs, rhs := replaceExpr d e.rhs }

/-- one link of the lag chain (expand_time_indices.py:100-107), `level ≥ 1` -/
def lagLink (x : Str) (level : Nat) : Eqn :=
  { lhs := .var (makeLagName x level) (.t 0),
    rhs := .var (if level = 1 then x else makeLagName x (level - 1)) (.t (-1)) }

/-- `_create_lag_chain` (expand_time_indices.py:88-108). -/
def createLagChain (x : Str) (depth : Nat) : List Eqn := (List.range' 1 depth).map (lagLink x)

/-- one link of the lead chain (expand_time_indices.py:124-131) -/
def leadLink (x : Str) (level : Nat) : Eqn :=
  { lhs := .var (makeLeadName x level) (.t 0),
    rhs := .expect (.var (if level = 1 then x else makeLeadName x (level - 1)) (.t 1)) }

/-- `_create_lead_chain` (expand_time_indices.py:111-132). -/
def createLeadChain (x : Str) (depth : Nat) : List Eqn := (List.range' 1 depth).map (leadLink x)

/-- the deep indices of a block (expand_time_indices.py:153-163): its equations, then its controls -/
def blockDeep (b : Blk) : Deep :=
  let d := collectFromEquations b.equations
  let c := b.controls.foldl (fun s v => collectVar s v.name v.t) ({} : Deep)
  { lags := c.lags.foldl (fun acc p => dset acc p.1 (min ((dget acc p.1).getD 0) p.2)) d.lags,
    leads := c.leads.foldl (fun acc p => dset acc p.1 (max ((dget acc p.1).getD 0) p.2)) d.leads }

/-- the auxiliary identities (expand_time_indices.py:169-173) -/
def auxIdentities (d : Deep) : List Eqn :=
  d.lags.flatMap (fun p => createLagChain p.1 (p.2.natAbs - 1)) ++
  d.leads.flatMap (fun p => createLeadChain p.1 (p.2.natAbs - 1))

/-- `expand_block_time_indices` (expand_time_indices.py:135-192). Shocks, shock distributions and
calibration are carried over untouched. -/
def expandBlock (b : Blk) : Blk :=
  let d := blockDeep b
  if d.lags.isEmpty ∧ d.leads.isEmpty then b
  else
    { name := b.name
      definitions := b.definitions.map (replaceEqn d)
      controls := b.controls.map fun v => let r := replaceVar d v.name v.t; ⟨r.1, r.2⟩
      objective := b.objective.map (replaceEqn d)
      constraints := b.constraints.map (replaceEqn d)
      identities := (b.identities ++ auxIdentities d).map (replaceEqn d)
      shocks := b.shocks
      shockDists := b.shockDists
      calibration := b.calibration }

/-- `expand_model_time_indices` (expand_time_indices.py:195-215), also the per-block call in
parser/transform/to_block.py:290. -/
def expandModel (m : Mdl) : Mdl := { m with blocks := m.blocks.map expandBlock }

end GE
