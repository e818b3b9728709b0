import Verif.Model.SimplifyBlock
import Verif.Model.Pipeline
/-!
# Loading with simplified blocks, the default of `model_from_gcn` and `load_gcn_file`

`gEconpy/model/block/basic.py:603-642, 738-742`, `parser/transform/to_block.py:280-297`, `parser/loader.py:466-485`
-/

namespace GE

/-- the parts of sympy and Python that are oracles: the solver (`none`: no solution, an IndexError), automatic evaluation together with `powsimp`,
and the order in which a set is iterated -/
structure SimpOps where
  solve : Solver
  norm : SExpr → SExpr
  ord : List TSym → List TSym

/-- `"lambda__" in x.base_name` (basic.py:619) -/
def isGenerated (x : TSym) : Bool := decide ("lambda__".toList <:+: x.base)

/-- the equations at a point of the elimination loop, and what has been eliminated, with the solution used (basic.py:623-633) -/
structure Elim where
  equations : List SExpr
  eliminated : List (TSym × SExpr)

/-- one turn of the elimination loop (basic.py:624-633), with the record of what is eliminated -/
def elimStep (solve : Solver) (st : Elim) (x : TSym) : Option Elim :=
  match (st.equations.filter fun e => e.tsyms.contains x).find? fun e => e.atoms.eraseDups.length ≤ 3 with
  | none => some st
  | some e =>
    match solve e x with
    | none => none
    | some rhs => some ⟨st.equations.map fun e => e.subsSeq (expandSubsAllTimes [(x, rhs)]), st.eliminated ++ [(x, rhs)]⟩

/-- `simplify_system_equations` (basic.py:617-638): the equations and the eliminated multipliers. The equations are in evaluated form to begin with. -/
def simplifyEquations (ops : SimpOps) (eqs : List SExpr) : Option Elim :=
  let system := eqs.map ops.norm
  let generated := ops.ord ((system.flatMap SExpr.tsyms).filter isGenerated).eraseDups
  match generated.foldlM (elimStep ops.solve) ⟨system, []⟩ with
  | none => none
  | some s => some ⟨(s.equations.map ops.norm).filter fun e => decide (e ≠ .num 0), s.eliminated⟩

/-- the multiplier record after simplification (basic.py:640-642): `eliminated_variables` holds every eliminated multiplier at the dates -1, 0, 1 and
the steady state -/
def clearMultipliers (eliminated : List (TSym × SExpr)) (ms : List (Nat × Option TSym)) : List (Nat × Option TSym) :=
  ms.map fun p => (p.1, match p.2 with
    | some v => if eliminated.any fun q => [TIdx.t (-1), .t 0, .t 1, .ss].any fun i => decide (v = { q.1 with idx := i }) then none else some v
    | none => none)

/-- a block after `solve_optimization(try_simplify=True)`, with the solutions used -/
structure BuiltS where
  built : Built
  eliminated : List (TSym × SExpr)

/-- errors: those of loading, and the IndexError when a multiplier cannot be solved for (basic.py:629) -/
inductive LSErr where
  | load (e : LErr)
  | unsolved

/-- conversion of one block (to_block.py:290-295) with `solve_optimization(try_simplify=True)` (basic.py:644-742): as `constructBlock`, and a block with
an optimisation problem is simplified before its variables are collected -/
def constructBlockS (ops : SimpOps) (asm : List (Str × Asm)) (ss : List (TSym × SExpr)) (b : Blk) : Except LSErr BuiltS :=
  match astBlockToBlock asm (expandBlock b) with
  | .error e => .error (.load (.conv e))
  | .ok B0 =>
    match B0.validate with
    | .error e => .error (.load (.block e))
    | .ok _ =>
      match B0.consolidate with
      | .error e => .error (.load (.block e))
      | .ok B =>
        match B.variableList [] B.multipliers with
        | none => .error (.load (.block .valueError))
        | some vs0 =>
          match B.paramDicts ss with
          | .error e => .error (.load (.block e))
          | .ok dicts =>
            match B.solve with
            | .error e => .error (.load (.block e))
            | .ok r =>
              match B.controls with
              | none => .ok ⟨⟨{ B with multipliers := r.multipliers }, dicts, vs0, r.equations⟩, []⟩
              | some _ =>
                match simplifyEquations ops r.equations with
                | none => .error .unsolved
                | some s =>
                  match B.variableList vs0 (clearMultipliers s.eliminated r.multipliers) with
                  | none => .error (.load (.block .valueError))
                  | some vs => .ok ⟨⟨{ B with multipliers := clearMultipliers s.eliminated r.multipliers }, dicts, vs, s.equations⟩, s.eliminated⟩

/-- `ast_model_to_block_dict(simplify_blocks=True)` (to_block.py:248-297) -/
def blockDictLoopS (ops : SimpOps) (asm : List (Str × Asm)) (ss : List (TSym × SExpr)) : List Blk → List (Str × BuiltS) → Except LSErr (List (Str × BuiltS))
  | [], acc => .ok acc
  | b :: bs, acc =>
    if isSkippedName b.name then blockDictLoopS ops asm ss bs acc
    else
      match constructBlockS ops asm ss b with
      | .error e => .error e
      | .ok r => blockDictLoopS ops asm ss bs (dset acc r.built.block.name r)

/-- `ast_model_to_primitives(simplify_blocks=True)` after the steady-state dictionary (loader.py:403-463), and what was eliminated -/
def loadRestS (ops : SimpOps) (m : Mdl) (ss : List (Sym × SExpr)) : Except LSErr (Primitives × List (TSym × SExpr)) :=
  match blockDictLoopS ops m.assumptions (ssSymbols ss) m.blocks [] with
  | .error e => .error e
  | .ok bd =>
    let bs := bd.map fun p => p.2.built
    match mergeParams (bs.map fun b => b.dicts.param) with
    | .error e => .error (.load (.duplicateParameter e))
    | .ok param =>
      match mergeParams (bs.map fun b => b.dicts.calib) with
      | .error e => .error (.load (.duplicateParameter e))
      | .ok calib =>
        match mergeParams (bs.map fun b => b.dicts.determ) with
        | .error e => .error (.load (.duplicateParameter e))
        | .ok determ =>
          let vs := mergeVariables (bs.map fun b => (b.variables, b.block.shocks.getD []))
          .ok ({ equations := bs.flatMap Built.equations
                 «variables» := vs.1
                 shocks := vs.2
                 param := param
                 calib := calib
                 determ := determ
                 ss := sortToString ss
                 tryreduce := extractTryreduce m.tryreduce vs.1
                 blocks := bd.map fun p => (p.1, p.2.built) }, bd.flatMap fun p => p.2.eliminated)

/-- `ast_model_to_primitives(simplify_blocks=True)` (loader.py:370-463) -/
def loadModelS (ops : SimpOps) (m : Mdl) : Except LSErr (Primitives × List (TSym × SExpr)) :=
  match extractSS m.assumptions m with
  | .error e => .error (.load e)
  | .ok ss => loadRestS ops m ss

/-- `load_gcn_file(path)` (loader.py:466-485) for a file with this text returns these primitives, having eliminated these multipliers -/
def Gcn.LoadGcnFile (ops : SimpOps) (text : List Char) (P : Primitives) (eliminated : List (TSym × SExpr)) : Prop :=
  ∃ m, Gcn.ParseGcn text m ∧ loadModelS ops m.toMdl = .ok (P, eliminated)

end GE
