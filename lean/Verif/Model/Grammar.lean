import Verif.Model.Lexer
/-!
# The GCN grammar above expressions: `gEconpy/parser/grammar/{statements,components,blocks,special_blocks,gcn_file}.py`

Recursive descent on the tokens of `Lexer.lean`; expressions and equations are `pAdd` and `pEqn` of `Printer.lean`. pyparsing tries
alternatives in order and backtracks; no two alternatives of this grammar can both go past their first three tokens, so each
choice is made on the next tokens. `pp.ZeroOrMore(item) - RBRACE` is "items until `}`": no item starts with `}`. Which
message a rejected text gets is not modelled here. The fuel `f` bounds the recursion; it is not part of the code.
-/

namespace GE.Gcn

/-- `PRELIZ_DISTS` (parser/constants.py:78-126, 135) -/
def dists : List Str := ["AsymmetricLaplace".toList, "Bernoulli".toList, "Beta".toList, "BetaBinomial".toList, "BetaScaled".toList,
  "Binomial".toList, "Categorical".toList, "Cauchy".toList, "ChiSquared".toList, "Dirichlet".toList, "DiscreteUniform".toList,
  "DiscreteWeibull".toList, "ExGaussian".toList, "Exponential".toList, "Gamma".toList, "Geometric".toList, "Gumbel".toList,
  "HalfCauchy".toList, "HalfNormal".toList, "HalfStudentT".toList, "HyperGeometric".toList, "InverseGamma".toList,
  "Kumaraswamy".toList, "Laplace".toList, "LogLogistic".toList, "LogNormal".toList, "Logistic".toList, "LogitNormal".toList,
  "Moyal".toList, "MvNormal".toList, "NegativeBinomial".toList, "Normal".toList, "Pareto".toList, "Poisson".toList, "Rice".toList,
  "SkewNormal".toList, "SkewStudentT".toList, "StudentT".toList, "Triangular".toList, "TruncatedNormal".toList, "Uniform".toList,
  "VonMises".toList, "Wald".toList, "Weibull".toList, "ZeroInflatedBinomial".toList, "ZeroInflatedNegativeBinomial".toList,
  "ZeroInflatedPoisson".toList]

/-- `PRELIZ_DIST_WRAPPERS` (parser/constants.py:128-136) -/
def wrappers : List Str := ["maxent".toList, "Censored".toList, "Truncated".toList, "Hurdle".toList]

/-- `GCN_ASSUMPTIONS` (parser/constants.py:38-47) -/
def assumptionNames : List Str := ["positive".toList, "negative".toList, "nonpositive".toList, "nonnegative".toList, "real".toList,
  "integer".toList, "finite".toList, "unit_interval".toList]

/-- `GCNDistribution` as parsed (parser/ast/nodes.py:350-364): argument values may be `None`, names, numbers, and in shocks lists -/
structure GDist where
  param : Str
  dist : Str
  kwargs : List (Str × NTree)
  wrapper : Option Str
  wrapperKwargs : List (Str × NTree)
  initial : Option Rat

/-- one entry of a `calibration` component -/
inductive GCal
  | eq (e : Eqn)
  | prior (d : GDist)

/-- one entry of a `shocks` component (components.py:88) -/
inductive GShock
  | dist (d : GDist)
  | vars (vs : List VarRef)

/-- one component of a block with its content -/
inductive GComp
  | definitions (es : List Eqn)
  | controls (vs : List VarRef)
  | objective (es : List Eqn)
  | constraints (es : List Eqn)
  | identities (es : List Eqn)
  | shocks (vs : List VarRef) (ds : List GDist)
  | calibration (cs : List GCal)

/-- `GCNBlock` as parsed (parser/ast/nodes.py:401-419) -/
structure GBlock where
  name : Str
  definitions : List Eqn := []
  controls : List VarRef := []
  objective : List Eqn := []
  constraints : List Eqn := []
  identities : List Eqn := []
  shocks : List VarRef := []
  shockDists : List GDist := []
  calibration : List GCal := []

/-- a value in the options block (special_blocks.py:25-27) -/
inductive OptVal
  | bool (b : Bool)
  | word (w : Str)

/-- a special block with its content -/
inductive Special
  | options (l : List (Str × OptVal))
  | tryreduce (l : List Str)
  | assumptions (l : List (Str × Asm))

/-- `GCNModel` as parsed (parser/ast/nodes.py:431-444) -/
structure GFile where
  blocks : List GBlock := []
  options : List (Str × OptVal) := []
  tryreduce : List Str := []
  assumptions : List (Str × Asm) := []

/-- the four operators of number expressions (statements.py:341-344) -/
def nop : BinOp → Option NOp
  | .add => some .add | .sub => some .sub | .mul => some .mul | .div => some .div | .pow => none

mutual
/-- `_DIST_NUMBER` or a parenthesis (statements.py:337-338): `pyparsing_common.number` takes a sign. Simplified: white space
between the sign and the digits is accepted here, and so is a number like `.5e3`. -/
def pNAtom : Nat → List Tok → Option (NAtom × List Tok)
  | 0, _ => none
  | _ + 1, .num v :: r => some (.num v, r)
  | _ + 1, .op .sub :: .num v :: r => some (.num (-v), r)
  | _ + 1, .op .add :: .num v :: r => some (.num v, r)
  | f + 1, .lpar :: ts =>
    match pNChain f ts with
    | some (c, .rpar :: r) => some (.paren c, r)
    | _ => none
  | _ + 1, _ => none
/-- operands and operators of `_DIST_NUMBER_EXPR` as they are written (statements.py:338-346); `NChain.tree` groups them -/
def pNChain : Nat → List Tok → Option (NChain × List Tok)
  | 0, _ => none
  | f + 1, ts =>
    match pNAtom f ts with
    | some (a, r) => pNLoop f (.one a) r
    | none => none
/-- the rest of a chain -/
def pNLoop : Nat → NChain → List Tok → Option (NChain × List Tok)
  | 0, _, _ => none
  | f + 1, c, .op o :: ts =>
    match nop o with
    | some o' =>
      match pNAtom f ts with
      | some (a, r) => pNLoop f (.snoc c o' a) r
      | none => none
    | none => some (c, .op o :: ts)
  | _ + 1, c, ts => some (c, ts)
end

/-- `DIST_ARG_VALUE` (statements.py:352) -/
def pArgVal (f : Nat) : List Tok → Option (NTree × List Tok)
  | .id n :: r => if n = "None".toList then some (.none, r) else some (.str n, r)
  | ts =>
    match pNChain f ts with
    | some (c, r) => some (c.tree, r)
    | none => none

/-- `DIST_ARG` (statements.py:353) -/
def pArg (f : Nat) : List Tok → Option ((Str × NTree) × List Tok)
  | .id n :: .eq :: ts =>
    match pArgVal f ts with
    | some (v, r) => some ((n, v), r)
    | none => none
  | _ => none

/-- `pp.DelimitedList(item)` -/
def pListed {α} (p : Nat → List Tok → Option (α × List Tok)) : Nat → List Tok → Option (List α × List Tok)
  | 0, _ => none
  | f + 1, ts =>
    match p f ts with
    | some (a, .comma :: r) =>
      match pListed p f r with
      | some (as, r') => some (a :: as, r')
      | none => none
    | some (a, r) => some ([a], r)
    | none => none

/-- items until the closing brace, which is taken too: `pp.ZeroOrMore(item) - RBRACE` -/
def pUntil {α} (p : Nat → List Tok → Option (α × List Tok)) : Nat → List Tok → Option (List α × List Tok)
  | 0, _ => none
  | _ + 1, .rbrace :: r => some ([], r)
  | f + 1, ts =>
    match p f ts with
    | some (a, r) =>
      match pUntil p f r with
      | some (as, r') => some (a :: as, r')
      | none => none
    | none => none

/-- `pp.Optional(pp.DelimitedList(DIST_ARG)) + RPAREN` (statements.py:355) -/
def pOptArgs (f : Nat) : List Tok → Option (List (Str × NTree) × List Tok)
  | .rpar :: r => some ([], r)
  | ts =>
    match pListed pArg f ts with
    | some (as, .rpar :: r) => some (as, r)
    | _ => none

/-- `DIST_CALL` (statements.py:355) -/
def pDistCall (f : Nat) : List Tok → Option ((Str × List (Str × NTree)) × List Tok)
  | .id d :: .lpar :: ts =>
    if d ∈ dists then
      match pOptArgs f ts with
      | some (as, r) => some ((d, as), r)
      | none => none
    else none
  | _ => none

/-- a distribution as written: its name and arguments, the wrapper and its arguments -/
structure DistX where
  dist : Str
  args : List (Str × NTree)
  wrapper : Option Str := none
  wargs : List (Str × NTree) := []

/-- `pp.Optional(COMMA + pp.DelimitedList(DIST_ARG)) - RPAREN` (statements.py:358) -/
def pWrapArgs (f : Nat) : List Tok → Option (List (Str × NTree) × List Tok)
  | .rpar :: r => some ([], r)
  | .comma :: ts =>
    match pListed pArg f ts with
    | some (as, .rpar :: r) => some (as, r)
    | _ => none
  | _ => none

/-- `DIST_EXPR` (statements.py:357-400); unknown names fail -/
def pDistExpr (f : Nat) (ts : List Tok) : Option (DistX × List Tok) :=
  match ts with
  | .id w :: .lpar :: us =>
    if w ∈ wrappers then
      match pDistCall f us with
      | some ((d, as), r) =>
        match pWrapArgs f r with
        | some (ws, r') => some ({ dist := d, args := as, wrapper := some w, wargs := ws }, r')
        | none => none
      | none => none
    else
      match pDistCall f ts with
      | some ((d, as), r) => some ({ dist := d, args := as }, r)
      | none => none
  | _ => none

/-- the value of one argument of a prior (statements.py:433-439) -/
def evalVal (v : NTree) : Option NTree :=
  match evalNumber v with
  | .ok .none => some .none
  | .ok (.str s) => some (.str s)
  | .ok (.num q) => some (.num q)
  | .error _ => none

/-- a dict filled in order: a repeated name keeps its place and takes the last value -/
def dictOf {α} (l : List (Str × α)) : List (Str × α) := l.foldl (fun d a => dset d a.1 a.2) []

/-- `dist_kwargs[arg.arg_name] = …` for all arguments (statements.py:433-442): evaluated -/
def evalArgs : List (Str × NTree) → Option (List (Str × NTree))
  | as => (as.mapM fun a => (evalVal a.2).map fun v => (a.1, v)).map dictOf

/-- `pp.Optional(EQUALS + _DIST_NUMBER_EXPR)("initial") - SEMI` with `_evaluate_number_expr(tokens.initial)` (statements.py:402, 444-446) -/
def pInitial (f : Nat) : List Tok → Option (Option Rat × List Tok)
  | .semi :: r => some (none, r)
  | .eq :: ts =>
    match pNChain f ts with
    | some (c, .semi :: r) =>
      match evalNumber c.tree with
      | .ok (.num q) => some (some q, r)
      | _ => none
    | _ => none
  | _ => none

/-- `DISTRIBUTION` with `_build_distribution` (statements.py:402, 427-459) -/
def pPrior (f : Nat) : List Tok → Option (GDist × List Tok)
  | .id p :: .tilde :: ts =>
    match pDistExpr f ts with
    | some (x, r) =>
      match pInitial f r with
      | some (i, r') =>
        match evalArgs x.args, evalArgs x.wargs with
        | some as, some ws => some ({ param := p, dist := x.dist, kwargs := as, wrapper := x.wrapper, wrapperKwargs := ws, initial := i }, r')
        | _, _ => none
      | none => none
    | none => none
  | _ => none

/-- the optional initial value of a shock's distribution (components.py:54, 77-79): an unsigned number -/
def pShockInitial : List Tok → Option (Option Rat × List Tok)
  | .semi :: r => some (none, r)
  | .eq :: .num v :: .semi :: r => some (some v, r)
  | _ => none

/-- `SHOCK_ITEM` (components.py:54-88): with a distribution, whose arguments are kept as they were parsed, or one or more names -/
def pShock (f : Nat) : List Tok → Option (GShock × List Tok)
  | .id n :: .tix _ :: .tilde :: ts =>
    match pDistExpr f ts with
    | some (x, r) =>
      match pShockInitial r with
      | some (i, r') =>
        some (.dist { param := n, dist := x.dist, kwargs := dictOf x.args, wrapper := x.wrapper, wrapperKwargs := dictOf x.wargs, initial := i }, r')
      | none => none
    | none => none
  | ts =>
    match pVarList ts with
    | some (vs, .semi :: r) => some (.vars vs, r)
    | _ => none

/-- `_build_shocks` (components.py:91-104): variables; a shock with a distribution is declared at the present date -/
def shockVars (l : List GShock) : List VarRef :=
  l.flatMap fun
    | .dist d => [{ name := d.param }]
    | .vars vs => vs

/-- `_build_shocks` (components.py:91-104): distributions -/
def shockDists (l : List GShock) : List GDist :=
  l.flatMap fun
    | .dist d => [d]
    | .vars _ => []

/-- `WRAPPER_NAME | DIST_NAME` matches a word that only *starts* with a known name: `pp.one_of` has no word boundary
(statements.py:348-349) -/
def startsDist (n : Str) : Bool := (wrappers ++ dists).any fun d => d.isPrefixOf n

/-- `CALIBRATION_ITEM` (components.py:111): `MISSING_TILDE` (statements.py:405-424) fails for good -/
def pCal (f : Nat) : List Tok → Option (GCal × List Tok)
  | .id p :: .tilde :: ts =>
    match pPrior f (.id p :: .tilde :: ts) with
    | some (d, r) => some (.prior d, r)
    | none => none
  | .id p :: .eq :: .id n :: ts =>
    if startsDist n then none
    else
      match pEqn f (.id p :: .eq :: .id n :: ts) with
      | some (e, r) => some (.eq e, r)
      | none => none
  | ts =>
    match pEqn f ts with
    | some (e, r) => some (.eq e, r)
    | none => none

/-- `LBRACE - pp.Optional(VARIABLE_LIST + SEMI) - RBRACE - SEMI` (components.py:50-52, special_blocks.py:45) -/
def pVarBlock : List Tok → Option (List VarRef × List Tok)
  | .lbrace :: .rbrace :: .semi :: r => some ([], r)
  | .lbrace :: ts =>
    match pVarList ts with
    | some (vs, .semi :: .rbrace :: .semi :: r) => some (vs, r)
    | _ => none
  | _ => none

/-- `LBRACE - pp.ZeroOrMore(item) - RBRACE - SEMI` -/
def pBraced {α} (p : Nat → List Tok → Option (α × List Tok)) (f : Nat) : List Tok → Option (List α × List Tok)
  | .lbrace :: ts =>
    match pUntil p f ts with
    | some (as, .semi :: r) => some (as, r)
    | _ => none
  | _ => none

/-- `COMPONENT` (components.py:38-148); the keywords are caseless -/
def pComp (f : Nat) : List Tok → Option (GComp × List Tok)
  | .id k :: ts =>
    if lowerStr k = "definitions".toList then (pBraced pEqn f ts).map fun p => (.definitions p.1, p.2)
    else if lowerStr k = "controls".toList then (pVarBlock ts).map fun p => (.controls p.1, p.2)
    else if lowerStr k = "objective".toList then (pBraced pEqn f ts).map fun p => (.objective p.1, p.2)
    else if lowerStr k = "constraints".toList then (pBraced pEqn f ts).map fun p => (.constraints p.1, p.2)
    else if lowerStr k = "identities".toList then (pBraced pEqn f ts).map fun p => (.identities p.1, p.2)
    else if lowerStr k = "shocks".toList then (pBraced pShock f ts).map fun p => (.shocks (shockVars p.1) (shockDists p.1), p.2)
    else if lowerStr k = "calibration".toList then (pBraced pCal f ts).map fun p => (.calibration p.1, p.2)
    else none
  | _ => none

/-- one step of the loop of `_build_block` (blocks.py:20-37): every component assigns -/
def GBlock.addComp (b : GBlock) : GComp → GBlock
  | .definitions es => { b with definitions := es }
  | .controls vs => { b with controls := vs }
  | .objective es => { b with objective := es }
  | .constraints es => { b with constraints := es }
  | .identities es => { b with identities := es }
  | .shocks vs ds => { b with shocks := vs, shockDists := ds }
  | .calibration cs => { b with calibration := cs }

/-- `MODEL_BLOCK` with `_build_block` (blocks.py:14-43) -/
def pBlock (f : Nat) : List Tok → Option (GBlock × List Tok)
  | .id k :: .id n :: ts =>
    if lowerStr k = "block".toList then
      (pBraced pComp f ts).map fun p => (p.1.foldl GBlock.addComp { name := n }, p.2)
    else none
  | _ => none

/-- the words of an option key (special_blocks.py:24). Simplified: the words are separated by spaces in the text; here by any layout,
and the key is the words with one space between them. -/
def pWords : List Tok → List Str × List Tok
  | .id n :: ts => (n :: (pWords ts).1, (pWords ts).2)
  | ts => ([], ts)

/-- the words with a space between them -/
def joinWords : List Str → Str
  | [] => []
  | [w] => w
  | w :: ws => w ++ ' ' :: joinWords ws

/-- `OPTION_VALUE` (special_blocks.py:25-27) -/
def optVal (w : Str) : OptVal :=
  if lowerStr w = "true".toList then .bool true else if lowerStr w = "false".toList then .bool false else .word w

/-- `OPTION_ENTRY` (special_blocks.py:28) -/
def pOption (_ : Nat) (ts : List Tok) : Option ((Str × OptVal) × List Tok) :=
  match pWords ts with
  | (k :: ks, .eq :: .id v :: .semi :: r) => some ((joinWords (k :: ks), optVal v), r)
  | _ => none

/-- `ASSUMPTION_ITEM` (special_blocks.py:82, 95): only the name matters -/
def pAsmItem (_ : Nat) : List Tok → Option (Str × List Tok)
  | .id n :: .tix _ :: r => some (n, r)
  | .id n :: r => some (n, r)
  | _ => none

/-- `ASSUMPTION_SUBBLOCK` (special_blocks.py:57, 85-86) -/
def pAsmSub (f : Nat) : List Tok → Option ((Str × List Str) × List Tok)
  | .id n :: .lbrace :: ts =>
    if lowerStr n ∈ assumptionNames then
      match pListed pAsmItem f ts with
      | some (vs, .semi :: .rbrace :: .semi :: r) => some ((n, vs), r)
      | _ => none
    else none
  | _ => none

/-- is it the keyword of a special block (tokens.py:40-42)? -/
def isSpecial (k : Str) : Bool :=
  lowerStr k = "options".toList || lowerStr k = "tryreduce".toList || lowerStr k = "assumptions".toList

/-- `SPECIAL_BLOCK` (special_blocks.py:29-53, 88-109; gcn_file.py:34-38) -/
def pSpecial (f : Nat) : List Tok → Option (Special × List Tok)
  | .id k :: ts =>
    if lowerStr k = "options".toList then
      (pBraced pOption f ts).map fun p => (.options (dictOf p.1), p.2)
    else if lowerStr k = "tryreduce".toList then (pVarBlock ts).map fun p => (.tryreduce (p.1.map (·.name)), p.2)
    else if lowerStr k = "assumptions".toList then (pBraced pAsmSub f ts).map fun p => (.assumptions (buildAssumptions p.1), p.2)
    else none
  | _ => none

/-- `pp.ZeroOrMore(SPECIAL_BLOCK)` (gcn_file.py:55): after one of the three keywords there is no way back -/
def pSpecials : Nat → List Tok → Option (List Special × List Tok)
  | 0, _ => none
  | f + 1, .id k :: ts =>
    if isSpecial k then
      match pSpecial f (.id k :: ts) with
      | some (s, r) =>
        match pSpecials f r with
        | some (ss, r') => some (s :: ss, r')
        | none => none
      | none => none
    else some ([], .id k :: ts)
  | _ + 1, ts => some ([], ts)

/-- `pp.OneOrMore(ORPHAN_COMPONENT | MODEL_BLOCK)` to the end of the text (gcn_file.py:53-55, `parse_all=True` at 271) -/
def pBlocks : Nat → List Tok → Option (List GBlock)
  | 0, _ => none
  | f + 1, ts =>
    match pBlock f ts with
    | some (b, []) => some [b]
    | some (b, r) =>
      match pBlocks f r with
      | some bs => some (b :: bs)
      | none => none
    | none => none

/-- one step of the loop of `_build_model` (gcn_file.py:63-69) -/
def GFile.addSpecial (m : GFile) : Special → GFile
  | .options l => { m with options := l }
  | .tryreduce l => { m with tryreduce := l }
  | .assumptions l => { m with assumptions := l }

/-- `GCN_FILE` with `_build_model` (gcn_file.py:55-73) -/
def pFile (f : Nat) (ts : List Tok) : Option GFile :=
  match pSpecials f ts with
  | some (ss, r) =>
    match pBlocks f r with
    | some bs => some { ss.foldl GFile.addSpecial {} with blocks := bs }
    | none => none
  | none => none

/-- `parse_gcn(text)` returns this model (gcn_file.py:268-274); it raises when there is none. "Some fuel suffices" -/
def ParseGcn (s : List Char) (m : GFile) : Prop := ∃ ts, lexText s = some ts ∧ ∃ f, pFile f ts = some m

end GE.Gcn
