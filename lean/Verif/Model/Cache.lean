import Verif.Model.Base
import Mathlib.Data.Finset.Dedup
import Mathlib.Data.Finset.Insert
/-!
# Memoisation: `gEconpy/pytensorf/compile.py` and the lazily built parts of a `Model` (`gEconpy/model/model.py`)

Compiled functions and graphs are values; a graph node is known by a number (its identity). -/

namespace GE

/-! ## compile.py: `_compile_cached` -/

/-- the state of a `functools.lru_cache`: entries, most recently used first, and the counters of `cache_info()` -/
structure Lru (κ ν : Type) where
  entries : List (κ × ν)
  hits : ℕ
  misses : ℕ

/-- an empty cache, also the state after `clear_compile_cache()` (compile.py:130-132) -/
def Lru.empty {κ ν : Type} : Lru κ ν := ⟨[], 0, 0⟩

/-- one call of a function wrapped in `lru_cache(maxsize=cap)` (compile.py:16-48 with `cap = 128`). The key is the tuple of arguments; `compute` is the
compilation. Exceptions, which are not cached, are not modelled. -/
def Lru.call {κ ν : Type} [DecidableEq κ] (cap : ℕ) (compute : κ → ν) (s : Lru κ ν) (k : κ) : ν × Lru κ ν :=
  match dget s.entries k with
  | some v => (v, { s with entries := (k, v) :: s.entries.filter fun e => decide (e.1 ≠ k), hits := s.hits + 1 })
  | none =>
    let v := compute k
    (v, { s with entries := ((k, v) :: s.entries).take cap, misses := s.misses + 1 })

/-- what a program does with the cache: compile something, or clear -/
inductive LruOp (κ : Type) where
  | call (k : κ)
  | clear

/-- a whole program; the results of the calls in order, and the final state -/
def Lru.run {κ ν : Type} [DecidableEq κ] (cap : ℕ) (compute : κ → ν) : Lru κ ν → List (LruOp κ) → List ν × Lru κ ν
  | s, [] => ([], s)
  | s, .call k :: ops =>
    let r := s.call cap compute k
    let rest := Lru.run cap compute r.2 ops
    (r.1 :: rest.1, rest.2)
  | _, .clear :: ops => Lru.run cap compute Lru.empty ops

/-! ## model.py: nodes, equations and linearisations of a model -/

/-- the cache of a `Model` (model.py:343-347, 1460-1487, 1649-1657). `nodes` is `_cache` (keys are name and class of a symbol), `sym` is
`_symbolic_linearize_cache`, `lin` is `_linearize_cache`, `eqs` and `fullEqs` are the two memoised lists of equations, `next` the identity of the next
object created. -/
structure ModelCache (G F E : Type) where
  nodes : List ((Str × Bool) × ℕ)
  sym : List (Finset Str × (ℕ × G))
  lin : List (ℕ × F)
  eqs : Option E
  fullEqs : Option E
  next : ℕ

/-- the state of a new model -/
def ModelCache.init {G F E : Type} : ModelCache G F E := ⟨[], [], [], none, none, 0⟩

/-- one lookup `if key not in cache: cache[key] = pt.scalar(...)` (model.py:425-428, 466-469) -/
def nodeOf {G F E : Type} (s : ModelCache G F E) (key : Str × Bool) : ℕ × ModelCache G F E :=
  match dget s.nodes key with
  | some i => (i, s)
  | none => (s.next, { s with nodes := s.nodes ++ [(key, s.next)], next := s.next + 1 })

/-- the loop of `ss_tensors` and `param_tensors` (model.py:391-470) over the keys of the symbols -/
def nodesOf {G F E : Type} : ModelCache G F E → List (Str × Bool) → List ℕ × ModelCache G F E
  | s, [] => ([], s)
  | s, k :: ks =>
    let r := nodeOf s k
    let rest := nodesOf r.2 ks
    (r.1 :: rest.1, rest.2)

/-- `_ensure_equation_tensors(filter_known)` (model.py:361-389): `build true` substitutes the known steady-state values -/
def equationTensors {G F E : Type} (build : Bool → E) (s : ModelCache G F E) (filterKnown : Bool) : E × ModelCache G F E :=
  if filterKnown then
    match s.eqs with
    | some e => (e, s)
    | none => (build true, { s with eqs := some (build true) })
  else
    match s.fullEqs with
    | some e => (e, s)
    | none => (build false, { s with fullEqs := some (build false) })

/-- the variables that are log-linearised (model.py:1457): those whose flag is 0, i.e. `false` -/
def loglinSelected (vars : List Str) (notLoglin : List Bool) : List Str := ((vars.zip notLoglin).filter fun p => !p.2).map Prod.fst

/-- `symbolic_linearization` after the flags are known (model.py:1457-1487): the key is the set of names. The result carries the identity of its first
Jacobian. -/
def symbolicLinearization {G F E : Type} (vars : List Str) (build : List Str → G) (s : ModelCache G F E) (notLoglin : List Bool) :
    (ℕ × G) × ModelCache G F E :=
  let names := loglinSelected vars notLoglin
  let key := names.toFinset
  match dget s.sym key with
  | some g => (g, s)
  | none => ((s.next, build names), { s with sym := s.sym ++ [(key, (s.next, build names))], next := s.next + 1 })

/-- the compiled function used by `linearize_model` (model.py:1632-1657): keyed by the identity of the first Jacobian -/
def linearizeFunction {G F E : Type} (vars : List Str) (build : List Str → G) (compile : G → F) (s : ModelCache G F E) (notLoglin : List Bool) :
    F × ModelCache G F E :=
  let g := symbolicLinearization vars build s notLoglin
  match dget g.2.lin g.1.1 with
  | some f => (f, g.2)
  | none => (compile g.1.2, { g.2 with lin := g.2.lin ++ [(g.1.1, compile g.1.2)] })

/-- the calls a program can make on one model -/
inductive ModelOp where
  | nodes (keys : List (Str × Bool))
  | equations (filterKnown : Bool)
  | symbolic (notLoglin : List Bool)
  | linearize (notLoglin : List Bool)

/-- their results; the graph returned by `symbolic_linearization` without its identity -/
inductive ModelRes (G F E : Type) where
  | nodes (ids : List ℕ)
  | equations (e : E)
  | symbolic (g : G)
  | linearize (f : F)

/-- one call -/
def modelStep {G F E : Type} (vars : List Str) (build : List Str → G) (compile : G → F) (buildEqs : Bool → E) (s : ModelCache G F E) :
    ModelOp → ModelRes G F E × ModelCache G F E
  | .nodes ks => let r := nodesOf s ks; (.nodes r.1, r.2)
  | .equations b => let r := equationTensors buildEqs s b; (.equations r.1, r.2)
  | .symbolic fl => let r := symbolicLinearization vars build s fl; (.symbolic r.1.2, r.2)
  | .linearize fl => let r := linearizeFunction vars build compile s fl; (.linearize r.1, r.2)

/-- a whole history -/
def modelRun {G F E : Type} (vars : List Str) (build : List Str → G) (compile : G → F) (buildEqs : Bool → E) :
    ModelCache G F E → List ModelOp → List (ModelRes G F E) × ModelCache G F E
  | s, [] => ([], s)
  | s, op :: ops =>
    let r := modelStep vars build compile buildEqs s op
    let rest := modelRun vars build compile buildEqs r.2 ops
    (r.1 :: rest.1, rest.2)

end GE
