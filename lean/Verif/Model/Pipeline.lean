import Verif.Model.Grammar
import Verif.Model.Loader
import Verif.Props.ToBlock
/-!
# From the text of a GCN file to the equations of the model

`load_gcn_string` = `parse_gcn` (Model/Grammar.lean) followed by `ast_model_to_primitives` (Model/Loader.lean).
-/

namespace GE.Gcn

/-- a value of a prior's keyword argument as the loader looks at it: numbers and parameter names (parser/loader.py:317-371).
Simplified: `None` and unevaluated lists are dropped here; they only occur in shock distributions -/
def argVal : NTree → Option (Rat ⊕ Str)
  | .num q => some (.inl q)
  | .str s => some (.inr s)
  | _ => none

/-- `GCNDistribution` handed to the loader (parser/ast/nodes.py:350-364) -/
def GDist.toDist (d : GDist) : Dist where
  param := d.param
  dist := d.dist
  kwargs := d.kwargs.filterMap fun p => (argVal p.2).map fun v => (p.1, v)
  wrapper := d.wrapper
  wrapperKwargs := d.wrapperKwargs.map fun p => (p.1, match p.2 with | .num q => some q | _ => none)
  initial := d.initial

/-- one entry of the calibration component (parser/ast/nodes.py:418) -/
def GCal.toCalib : GCal → Calib
  | .eq e => .eq e
  | .prior d => .dist d.toDist

/-- `GCNBlock` handed to the loader (parser/ast/nodes.py:401-419) -/
def GBlock.toBlk (b : GBlock) : Blk where
  name := b.name
  definitions := b.definitions
  controls := b.controls
  objective := b.objective
  constraints := b.constraints
  identities := b.identities
  shocks := b.shocks
  shockDists := b.shockDists.map GDist.toDist
  calibration := b.calibration.map GCal.toCalib

/-- `GCNModel` handed to the loader (parser/preprocessor.py:133-140): the validation run there only collects messages -/
def GFile.toMdl (m : GFile) : Mdl where
  blocks := m.blocks.map GBlock.toBlk
  tryreduce := m.tryreduce
  assumptions := m.assumptions

/-- `load_gcn_string(text)` returns these primitives (parser/loader.py:488-503). Simplified: as in `loadModel`, blocks are the
general ones (`model/block/basic.py`), without the simplification of closed forms -/
def LoadGcn (text : List Char) (P : Primitives) : Prop := ∃ m, ParseGcn text m ∧ loadModel m.toMdl = .ok P

end GE.Gcn
