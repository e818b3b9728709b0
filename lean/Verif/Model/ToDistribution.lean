import Verif.Model.Pipeline
/-!
# `gEconpy/parser/transform/to_distribution.py`: from a prior statement to a PreliZ object

PreliZ itself is not modelled: the result is the call that builds the object.
-/

namespace GE.Gcn

/-- an argument of a wrapper: a number, `None`, or a flag -/
inductive PzArg | num (q : Rat) | none | flag (b : Bool)
  deriving DecidableEq

/-- the call that builds a PreliZ distribution: `pz.dist(**kwargs)`, perhaps inside `pz.wrapper(·, **kwargs)` -/
structure PzCall where
  dist : Str
  kwargs : List (Str × (Rat ⊕ Str))
  wrap : Option (Str × List (Str × PzArg))

/-- the value of a keyword argument of a wrapper -/
def pzArg : Option Rat → PzArg
  | some q => .num q
  | none => .none

/-- the keyword arguments of the wrapper (to_distribution.py:42-44): `maxent` gets `plot=False`, whatever was written -/
def wrapArgs (w : Str) (kw : List (Str × Option Rat)) : List (Str × PzArg) :=
  let kw : List (Str × PzArg) := kw.map fun p => (p.1, pzArg p.2)
  if w = "maxent".toList then dset kw "plot".toList (.flag false) else kw

/-- `ast_to_distribution` (to_distribution.py:12-48) up to the calls into PreliZ -/
def toPreliz (d : Dist) : Except String PzCall :=
  if d.dist ∉ dists then .error "InvalidDistributionException"
  else
    match d.wrapper with
    | none => .ok ⟨d.dist, d.kwargs, none⟩
    | some w => if w ∉ wrappers then .error "ValueError" else .ok ⟨d.dist, d.kwargs, some (w, wrapArgs w d.wrapperKwargs)⟩

/-- the loader's `try` (parser/loader.py:430-435): `pz c` says whether PreliZ performs the call without `ValueError` or `TypeError` -/
def acceptsDist (pz : PzCall → Bool) (d : Dist) : Bool :=
  match toPreliz d with
  | .ok c => pz c
  | .error _ => false

/-- the metadata (to_distribution.py:72-77): name, starting value, whether wrapped, wrapper -/
def metadata (d : Dist) : Str × Option Rat × Bool × Option Str := (d.param, d.initial, d.wrapper.isSome, d.wrapper)

/-- `distributions_from_calibration` (to_distribution.py:82-107); an error of PreliZ or of `toPreliz` is not caught here -/
def distsFromCalibration (pz : PzCall → Bool) : List Calib → List (Str × PzCall × (Str × Option Rat × Bool × Option Str)) →
    Except String (List (Str × PzCall × (Str × Option Rat × Bool × Option Str)))
  | [], acc => .ok acc
  | .eq _ :: cs, acc => distsFromCalibration pz cs acc
  | .dist d :: cs, acc =>
    match toPreliz d with
    | .error e => .error e
    | .ok c => if pz c then distsFromCalibration pz cs (dset acc d.param (c, metadata d)) else .error "ValueError"

/-- `distributions_from_model` (to_distribution.py:110-130) -/
def distsFromModel (pz : PzCall → Bool) : List Blk → List (Str × PzCall × (Str × Option Rat × Bool × Option Str)) →
    Except String (List (Str × PzCall × (Str × Option Rat × Bool × Option Str)))
  | [], acc => .ok acc
  | b :: bs, acc =>
    match distsFromCalibration pz b.calibration [] with
    | .error e => .error e
    | .ok r => distsFromModel pz bs (dupdate acc r)

/-- the priors and shock distributions `load_gcn_string(text)` returns (parser/loader.py:422-446, 488-503) -/
def LoadGcnDists (pz : PzCall → Bool) (text : List Char) (r : List (Str × Dist) × List (Str × ShockDist)) : Prop :=
  ∃ m, ParseGcn text m ∧ r = loadDists (acceptsDist pz) m.toMdl.blocks [] []

end GE.Gcn
