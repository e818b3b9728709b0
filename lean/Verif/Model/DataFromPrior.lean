import Verif.Model.Base
/-!
# Artificial data from the prior (`gEconpy/model/statespace.py:1139-1215, 1324-1430`)

The random generator, PyMC's sampling of the prior and the simulation of trajectories are oracles. A data frame is a list of columns; `none` is NaN.
-/

namespace GE

/-- numpy's `Generator.choice`: one of `n` positions, and `k` of `n` positions without replacement -/
structure RngOps (G : Type) where
  pick : Nat → G → Nat × G
  sample : Nat → Nat → G → List Nat × G

/-- what numpy promises of them -/
structure RngOps.Lawful {G : Type} (r : RngOps G) : Prop where
  pick_lt : ∀ n g, 0 < n → (r.pick n g).1 < n
  sample_length : ∀ n k g, k ≤ n → (r.sample n k g).1.length = k
  sample_nodup : ∀ n k g, k ≤ n → (r.sample n k g).1.Nodup
  sample_lt : ∀ n k g, k ≤ n → ∀ i ∈ (r.sample n k g).1, i < n

/-- a PyMC model: the names of what is registered in it -/
structure PMModel where
  nodes : List Str

/-- the parts of a `DSGEStateSpace` that matter here: what `configure` left, and the data the graph was last built with (`_fit_data`, `_fit_dims`,
`_fit_coords`, all set or all `None`), as its number of rows -/
structure DFPState where
  observed : List Str
  cyclic : Bool
  fit : Option Nat

/-- keyword arguments: the switches by name -/
abbrev Kwargs := List (Str × Bool)

/-- the names `build_statespace_graph` takes besides the data (statespace.py:1142-1150) -/
def graphKwNames : List Str := ["register_data".toList, "missing_fill_value".toList, "cov_jitter".toList,
  "save_kalman_filter_outputs_in_idata".toList, "add_norm_check".toList, "add_bk_check".toList, "add_solver_success_check".toList, "solver_tol".toList]

/-- the value of a switch: the keyword argument if given, else the default of the signature (statespace.py:1142-1150) -/
def graphSwitch (kw : Kwargs) (name : String) (dflt : Bool) : Bool := (dget kw name.toList).getD dflt

/-- what `build_statespace_graph` adds to the PyMC model (statespace.py:1152-1215), `data` only if registered; what the parent class adds besides is left out -/
def graphNodes (obj : DFPState) (kw : Kwargs) : List Str :=
  (if graphSwitch kw "register_data" true then ["data".toList] else []) ++
  (if obj.cyclic then ["n_cycle_steps".toList] else []) ++
  (if graphSwitch kw "add_norm_check" true then ["deterministic_norm".toList, "stochastic_norm".toList] else []) ++
  (if graphSwitch kw "add_bk_check" false then ["bk_satisfied".toList, "bk_condition_satisfied".toList] else []) ++
  (if graphSwitch kw "add_solver_success_check" false then ["policy_resid".toList, "policy_resid_within_tol".toList] else [])

inductive DFPErr where
  /-- TypeError: unexpected keyword argument -/
  | keyword (name : Str)
  /-- ValueError of numpy: nothing to choose from, or more to choose than there are -/
  | choice
  /-- the state-space model has not been built with any data -/
  | notBuilt
deriving DecidableEq

/-- `build_statespace_graph(data, **kw)` (statespace.py:1139-1215) on data with `rows` rows -/
def buildGraph (obj : DFPState) (m : PMModel) (rows : Nat) (kw : Kwargs) : Except DFPErr (DFPState × PMModel) :=
  match (dkeys kw).find? fun k => k ∉ graphKwNames with
  | some k => .error (.keyword k)
  | none => .ok ({ obj with fit := some rows }, { nodes := m.nodes ++ graphNodes obj kw })

/-- the keyword arguments `data_from_prior` means to use by default (statespace.py:1369-1374) -/
def dfpDefaults : Kwargs := [("add_bk_check".toList, false), ("add_solver_success_check".toList, true), ("add_norm_check".toList, true),
  ("add_steady_state_penalty".toList, true)]

/-- PyMC and the state-space library: draws from the prior of a model (`n` of them, one chain), and a trajectory of the observed states for every draw,
as long as the data the graph was built with -/
structure DFPOps (P α G : Type) where
  rng : RngOps G
  prior : PMModel → Nat → G → List P × G
  uncond : DFPState → List P → G → List (List (Str × List α)) × G

/-- `data.loc[missing_idxs, col] = np.nan` (statespace.py:1420) -/
def setMissing {α : Type} (idxs : List Nat) (col : List (Option α)) : List (Option α) :=
  col.zipIdx.map fun p => if p.2 ∈ idxs then none else p.1

/-- the loop over columns (statespace.py:1418-1420) -/
def missingLoop {α G : Type} (r : RngOps G) (rows k : Nat) : List (Str × List (Option α)) → G → List (Str × List (Option α))
  | [], _ => []
  | (c, col) :: rest, g =>
    let s := r.sample rows k g
    (c, setMissing s.1 col) :: missingLoop r rows k rest s.2

/-- the returned tuple, and the objects as the call leaves them; `used` is the copied model that was sampled from -/
structure DFPOut (P α : Type) where
  params : P
  paramIdx : Nat
  data : List (Str × List (Option α))
  draws : List P
  obj : DFPState
  caller : PMModel
  used : PMModel

/-- the number of rows of a data frame (`data.shape[0]`) -/
def frameRows {β : Type} : List (Str × List β) → Nat
  | [] => 0
  | (_, col) :: _ => col.length

/-- missing values (statespace.py:1416-1420): `int(rows * pct)` of every column, the product taken exactly -/
def addMissing {α G : Type} (r : RngOps G) (pct : Rat) (data : List (Str × List (Option α))) (g : G) : Except DFPErr (List (Str × List (Option α))) :=
  if 0 < pct then
    let rows := frameRows data
    let k := ((rows : Rat) * pct).floor.toNat
    if rows < k ∧ data ≠ [] then .error .choice else .ok (missingLoop r rows k data g)
  else .ok data

/-- `data_from_prior` (statespace.py:1324-1430); `rows` is the length of the index, 180 if none is given. The update of a copy of the defaults
(statespace.py:1379) is thrown away, so the caller's keyword arguments alone are passed on. The index is assumed to have no repeated dates. -/
def dataFromPrior {P α G : Type} (ops : DFPOps P α G) (obj : DFPState) (model : PMModel) (index : Option Nat) (nSamples : Nat) (pct : Rat)
    (kwargs : Option Kwargs) (g : G) : Except DFPErr (DFPOut P α) :=
  let kw := kwargs.getD []
  let rows := index.getD 180
  let built : Except DFPErr (DFPState × PMModel) :=
    if "data".toList ∉ model.nodes then buildGraph obj model rows kw else .ok (obj, model)
  match built with
  | .error e => .error e
  | .ok (obj1, new) =>
    let d := ops.prior new nSamples g
    if obj1.fit = none then .error .notBuilt
    else
      let t := ops.uncond obj1 d.1 d.2
      if d.1.length = 0 then .error .choice
      else
        let pk := ops.rng.pick d.1.length t.2
        match d.1[pk.1]?, t.1[pk.1]? with
        | some p, some traj =>
          match addMissing ops.rng pct (traj.map fun c => (c.1, c.2.map some)) pk.2 with
          | .error e => .error e
          | .ok data =>
            .ok { params := p, paramIdx := pk.1, data := data, draws := d.1, obj := { obj1 with fit := none }, caller := model, used := new }
        | _, _ => .error .choice

end GE
