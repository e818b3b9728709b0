import Verif.Model.SimplifyBlock
import Verif.Model.Validate
/-!
# `gEconpy/parser/loader.py` and `ast_model_to_block_dict` (parser/transform/to_block.py:248-297)

Steady-state dictionaries and merged parameter dictionaries are plain dictionaries here; the `SymbolDictionary` metadata that
`sort_keys` and `to_string` carry along is the subject of `Model/Containers.lean`. `values_to_float` (a change of number type) is
not modelled.
-/

namespace GE

/-- `name.upper().replace("_", "")` (to_block.py:286, loader.py:303), ASCII letters -/
def normName (name : Str) : Str := (name.map Char.toUpper).filter fun c => c ≠ '_'

/-- the names skipped by `ast_model_to_block_dict` (to_block.py:287) -/
def isSkippedName (name : Str) : Bool := normName name ∈ [['S','T','E','A','D','Y','S','T','A','T','E'], ['S','S']]

/-- the names `_extract_ss_solution_dict` recognises (loader.py:302-304): `STEADY_STATE_NAMES` (parser/constants.py:28) with the
underscores removed -/
def isSSName (name : Str) : Bool :=
  normName name ∈ [['S','T','E','A','D','Y','S','T','A','T','E'], ['S','S'], ['S','T','E','A','D','Y','S','T','A','T','E'],
    ['S','T','E','A','D','Y']]

/-- the string a key becomes in `to_string` (classes/containers.py:30-33) -/
def Sym.toStr : Sym → Str
  | .tv s => safeName s
  | .par n => n

/-- `d.sort_keys().to_string()` (loader.py:128, 331): string keys, in increasing order (classes/containers.py:60-65, 87-93) -/
def sortToString (d : List (Sym × SExpr)) : List (Str × SExpr) :=
  sortBy (fun a b => strLe a.1 b.1) (dupdate [] (d.map fun p => (p.1.toStr, p.2)))

/-- the loop of `_block_dict_to_param_dict` (loader.py:115-123): the merged dictionary and the duplicates, both started empty -/
def mergeLoop : List (List (Sym × SExpr)) → List (Sym × SExpr) → List Sym → List (Sym × SExpr) × List Sym
  | [], acc, dups => (acc, dups)
  | d :: ds, acc, dups => mergeLoop ds (dupdate acc d) (dups ++ (dkeys d).filter fun k => k ∈ dkeys acc)

/-- `_block_dict_to_param_dict` (loader.py:113-128); the error carries the duplicates of `DuplicateParameterError` -/
def mergeParams (ds : List (List (Sym × SExpr))) : Except (List Sym) (List (Str × SExpr)) :=
  let r := mergeLoop ds [] []
  if r.2.isEmpty then .ok (sortToString r.1) else .error r.2

/-- `x.set_t(0)` -/
def TSym.now (x : TSym) : TSym := { x with idx := .t 0 }

/-- `sorted({...}, key=lambda x: x.name)` for a set of symbols -/
def sortByName (xs : List TSym) : List TSym := sortBy (fun a b => strLe (createName a) (createName b)) xs.eraseDups

/-- `_block_dict_to_variables_and_shocks` (loader.py:131-149); a missing list (`None`) is the empty one -/
def mergeVariables (blocks : List (List TSym × List TSym)) : List TSym × List TSym :=
  let shocks := sortByName ((blocks.flatMap Prod.snd).map TSym.now)
  let variables := sortByName (((blocks.flatMap Prod.fst).map TSym.now).filter fun x => x ∉ shocks)
  (variables, shocks)

/-- `flatten_substitution_dict(sub_dict) if sub_dict else {}` (model/block/basic.py:333); `none` is the ValueError -/
def flattenOrEmpty (d : List (Sym × SExpr)) : Option (List (Sym × SExpr)) :=
  match d with
  | [] => some []
  | p :: d => (flattenSubs (p :: d)).join

/-- `_get_variable_list` (model/block/basic.py:309-351): `prev` is the list recorded before, `ms` the multiplier record. Raises
ValueError (`none`) when the definitions are circular. -/
def Block.variableList (B : Block) (prev : List TSym) (ms : List (Nat × Option TSym)) : Option (List TSym) :=
  match flattenOrEmpty (defDict (dvals B.definitions)) with
  | some flat =>
    let occurring := (dvals B.objective ++ dvals B.constraints ++ dvals B.identities).flatMap fun e =>
      ((e.subsSeq flat).lhs.tsyms ++ (e.subsSeq flat).rhs.tsyms).map toSS
    some (sortByName ((prev ++ occurring ++ ms.filterMap Prod.snd).filter fun x => TSym.now x ∉ B.shocks.getD []))
  | none => none

/-- a `Block` after `solve_optimization` -/
structure Built where
  block : Block
  dicts : ParamDicts
  variables : List TSym
  equations : List SExpr

/-- what can go wrong while loading a model -/
inductive LErr where
  | conv (e : ConvErr)
  | block (e : BErr)
  | ssCycle
  | duplicateParameter (ps : List Sym)

/-- conversion of one block (to_block.py:290-295): `expand_block_time_indices`, the `Block` constructor (model/block/basic.py:129-163)
and `solve_optimization(try_simplify=False)`. The specialised block classes of `model/block/registry.py` are treated in
`Model/ClosedForm.lean`; `_get_variable_list` runs again only for blocks with controls (basic.py:707-708, 742). -/
def constructBlock (asm : List (Str × Asm)) (ss : List (TSym × SExpr)) (b : Blk) : Except LErr Built :=
  match astBlockToBlock asm (expandBlock b) with
  | .error e => .error (.conv e)
  | .ok B0 =>
    match B0.validate with
    | .error e => .error (.block e)
    | .ok _ =>
      match B0.consolidate with
      | .error e => .error (.block e)
      | .ok B =>
        match B.variableList [] B.multipliers with
        | none => .error (.block .valueError)
        | some vs0 =>
          match B.paramDicts ss with
          | .error e => .error (.block e)
          | .ok dicts =>
            match B.solve with
            | .error e => .error (.block e)
            | .ok r =>
              match B.controls with
              | none => .ok ⟨{ B with multipliers := r.multipliers }, dicts, vs0, r.equations⟩
              | some _ =>
                match B.variableList vs0 r.multipliers with
                | none => .error (.block .valueError)
                | some vs => .ok ⟨{ B with multipliers := r.multipliers }, dicts, vs, r.equations⟩

/-- `ast_model_to_block_dict` (to_block.py:248-297): a dictionary by block name -/
def blockDictLoop (asm : List (Str × Asm)) (ss : List (TSym × SExpr)) : List Blk → List (Str × Built) → Except LErr (List (Str × Built))
  | [], acc => .ok acc
  | b :: bs, acc =>
    if isSkippedName b.name then blockDictLoop asm ss bs acc
    else
      match constructBlock asm ss b with
      | .error e => .error e
      | .ok r => blockDictLoop asm ss bs (dset acc r.block.name r)

/-- the equations of the steady-state block: definitions, then identities (loader.py:319-327). Left-hand sides that are not a single
symbol are not modelled (left out, as in `defDict`). -/
def ssEquations (asm : List (Str × Asm)) (b : Blk) : Except ConvErr (List SEq × List SEq) :=
  match b.definitions.mapM (eqnToSympy asm), b.identities.mapM (eqnToSympy asm) with
  | .ok ds, .ok is => .ok (ds, is)
  | .error e, _ => .error e
  | _, .error e => .error e

/-- the symbol on the left of an equation -/
def SEq.lhsSym (e : SEq) : Option Sym := match e.lhs with | .sym s => some s | _ => none

/-- `_extract_ss_solution_dict` (loader.py:299-331) before the final change of keys: the first steady-state block only -/
def extractSS (asm : List (Str × Asm)) (m : Mdl) : Except LErr (List (Sym × SExpr)) :=
  match m.blocks.find? fun b => isSSName b.name with
  | none => .ok []
  | some b =>
    match ssEquations asm b with
    | .error e => .error (.conv e)
    | .ok (ds, is) =>
      match flattenSubs (defDict (ds ++ is)) with
      | some (some flat) => .ok ((is.filterMap SEq.lhsSym).foldl (fun d k => match dget flat k with | some v => dset d k v | none => d) [])
      | _ => .error .ssCycle

/-- `_extract_tryreduce` (loader.py:341-367); the entries are variable names (grammar/special_blocks.py:48-51) -/
def extractTryreduce (names : List Str) (variables : List TSym) : List TSym :=
  names.filterMap fun n => variables.find? fun v => v.base = n

/-- `ModelPrimitives` (loader.py:23-41), the parts modelled -/
structure Primitives where
  equations : List SExpr
  variables : List TSym
  shocks : List TSym
  param : List (Str × SExpr)
  calib : List (Str × SExpr)
  determ : List (Str × SExpr)
  ss : List (Str × SExpr)
  tryreduce : List TSym
  blocks : List (Str × Built)

/-- the dated symbols of the steady-state dictionary, as `_try_substitute_ss_values` finds them (model/block/basic.py:494-503) -/
def ssSymbols (d : List (Sym × SExpr)) : List (TSym × SExpr) :=
  d.filterMap fun p => match p.1 with | .tv s => some (s, p.2) | .par _ => none

/-- `ast_model_to_primitives` after the steady-state dictionary has been extracted (loader.py:403-463) with `simplify_blocks=False`,
without the distributions -/
def loadRest (m : Mdl) (ss : List (Sym × SExpr)) : Except LErr Primitives :=
  match blockDictLoop m.assumptions (ssSymbols ss) m.blocks [] with
  | .error e => .error e
  | .ok bd =>
    let bs := bd.map Prod.snd
    match mergeParams (bs.map fun b => b.dicts.param) with
    | .error e => .error (.duplicateParameter e)
    | .ok param =>
      match mergeParams (bs.map fun b => b.dicts.calib) with
      | .error e => .error (.duplicateParameter e)
      | .ok calib =>
        match mergeParams (bs.map fun b => b.dicts.determ) with
        | .error e => .error (.duplicateParameter e)
        | .ok determ =>
          let vs := mergeVariables (bs.map fun b => (b.variables, b.block.shocks.getD []))
          .ok { equations := bs.flatMap Built.equations
                variables := vs.1
                shocks := vs.2
                param := param
                calib := calib
                determ := determ
                ss := sortToString ss
                tryreduce := extractTryreduce m.tryreduce vs.1
                blocks := bd }

/-- `ast_model_to_primitives` (loader.py:370-463) -/
def loadModel (m : Mdl) : Except LErr Primitives :=
  match extractSS m.assumptions m with
  | .error e => .error e
  | .ok ss => loadRest m ss

/-- a `CompositeDistribution` (classes/distributions.py) as built for a shock: fixed numbers, hyper-priors found, and the names of the
parameters used -/
structure ShockDist where
  name : Str
  fixed : List (Str × Rat) := []
  hyper : List (Str × Dist) := []
  names : List (Str × Str) := []

/-- the loop of `_create_shock_distribution` (loader.py:74-90). Keyword values are numbers or names; `None` is not modelled. -/
def shockLoop (priors : List (Str × Dist)) : List (Str × (Rat ⊕ Str)) → ShockDist → ShockDist
  | [], s => s
  | (k, .inl q) :: rest, s => shockLoop priors rest { s with fixed := dset s.fixed k q }
  | (k, .inr n) :: rest, s =>
    match dget priors n with
    | some d => shockLoop priors rest { s with hyper := dset s.hyper k d, names := dset s.names k n }
    | none => shockLoop priors rest { s with names := dset s.names k n }

/-- `_create_shock_distribution` (loader.py:43-102): only `Normal`, only with parameter references -/
def createShockDist (item : Dist) (priors : List (Str × Dist)) : Option ShockDist :=
  if item.dist ≠ ['N','o','r','m','a','l'] then none
  else
    let s := shockLoop priors item.kwargs { name := item.param }
    if s.names.isEmpty then none else some s

/-- the priors of one block (loader.py:428-435); `ok d`: `ast_to_distribution_with_metadata` accepts `d` (an oracle for PreliZ). The
prior is represented by the statement it is built from. -/
def blockPriors (ok : Dist → Bool) (b : Blk) (priors : List (Str × Dist)) : List (Str × Dist) :=
  b.calibration.foldl (fun ps c => match c with | .dist d => if ok d then dset ps d.param d else ps | .eq _ => ps) priors

/-- the shock distributions of one block (loader.py:438-441) -/
def blockShockDists (priors : List (Str × Dist)) (b : Blk) (sd : List (Str × ShockDist)) : List (Str × ShockDist) :=
  b.shockDists.foldl (fun sd i => match createShockDist i priors with | some s => dset sd i.param s | none => sd) sd

/-- the distribution loop of `ast_model_to_primitives` (loader.py:427-446): priors and shock distributions -/
def loadDists (ok : Dist → Bool) : List Blk → List (Str × Dist) → List (Str × ShockDist) → List (Str × Dist) × List (Str × ShockDist)
  | [], ps, sd => (ps, sd)
  | b :: bs, ps, sd => loadDists ok bs (blockPriors ok b ps) (blockShockDists (blockPriors ok b ps) b sd)

end GE
