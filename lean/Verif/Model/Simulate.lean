import Verif.Model.LinearSolve
/-! # Impulse responses and simulation (gEconpy/model/simulate.py)

Arrays are real; random draws are arguments. -/

open Matrix

namespace GE

/-- a two-dimensional array: `cols` columns, one function per row (meaningful below `cols`) -/
structure Arr2 where
  cols : ℕ
  rows : List (ℕ → ℝ)

/-- the forms of `shock_size` (simulate.py:104-119): a number, a one-dimensional array, a dictionary (names distinct) -/
inductive ShockSize where
  | scalar (r : ℝ)
  | arr (l : List ℝ)
  | dict (d : List (Str × ℝ))

/-- the shock arguments of `impulse_response_function`: `cov` is a square array of some size, `traj` a two-dimensional array -/
structure IrfArgs where
  size : Option ShockSize
  cov : Option ((m : ℕ) × Mat m m)
  traj : Option Arr2

inductive IrfErr where
  /-- `ValueError: not enough values to unpack (expected 2, got 0)` (simulate.py:33) -/
  | notEnoughValues
  /-- `ValueError: too many values to unpack (expected 2)` (simulate.py:35) -/
  | tooManyValues
  /-- `ValueError: Only one of ... may be specified, got n.` (simulate.py:36) -/
  | onlyOne (names : List Str) (n : ℕ)
  /-- `ValueError: Shock size cannot be empty.` (simulate.py:51) -/
  | emptyDict
  /-- `ValueError: shock_size dict contains unknown shock names` (simulate.py:55) -/
  | unknownShocks
  /-- wrong shapes (simulate.py:117-118, 148-149, 154-155, 300-301) -/
  | badShape
  /-- `ValueError: could not broadcast input array` (simulate.py:163) -/
  | broadcast
  /-- `IndexError` of `traj[0]`, `out[0]` or `shock_traj[0]` for zero periods -/
  | noPeriods
  /-- `LinAlgError` of `np.linalg.cholesky` -/
  | notPosDef
  deriving DecidableEq, Repr

/-- `_validate_irf_shock_arguments` (simulate.py:31-36). `zip(*[])` yields nothing to unpack into two names; the generator of line 35 unpacks each
*name* into two, which works for two-character names only. -/
def validateIrfShockArguments (vals : List (Str × Bool)) : Except IrfErr Unit :=
  let provided := (vals.filter Prod.snd).map Prod.fst
  if provided = [] then .error .notEnoughValues
  else if 1 < provided.length then
    if provided.all fun n => n.length = 2 then .error (.onlyOne (provided.map fun n => n.take 1) provided.length) else .error .tooManyValues
  else .ok ()

/-- the call in `_make_shock_spec` (simulate.py:86-98) -/
def validateIrfArgs (a : IrfArgs) : Except IrfErr Unit :=
  validateIrfShockArguments [("shock_size".toList, a.size.isSome), ("shock_cov".toList, a.cov.isSome), ("shock_trajectory".toList, a.traj.isSome)]

/-- the mode chosen in `_make_shock_spec` (simulate.py:98) -/
inductive ShockMode where
  | trajectory (tr : Arr2)
  | cov (m : ℕ) (Q : Mat m m)
  | size (s : Option ShockSize)

def shockMode (a : IrfArgs) : ShockMode :=
  match a.traj with
  | some tr => .trajectory tr
  | none =>
    match a.cov with
    | some ⟨m, Q⟩ => .cov m Q
    | none => .size a.size

/-- `_get_selected_shock_names` (simulate.py:43-59) -/
def selectedShocks (md : ShockMode) (names : List Str) : Except IrfErr (List Str) :=
  match md with
  | .size (some (.dict d)) =>
    if d = [] then .error .emptyDict
    else if (dkeys d).any fun x => x ∉ names then .error .unknownShocks
    else .ok (names.filter fun x => x ∈ dkeys d)
  | _ => .ok names

/-- `_is_diagonal` (simulate.py:39-40): `np.allclose` with its default tolerances; the diagonals agree exactly -/
noncomputable def isDiagonal {m : ℕ} (M : Mat m m) : Bool := open Classical in decide (∀ i j, i ≠ j → |M i j| ≤ 1 / 100000000)

/-- `_infer_shocks_are_individual` (simulate.py:62-83) -/
noncomputable def inferIndividual (requested : Option Bool) (md : ShockMode) (nSelected : ℕ) : Bool :=
  match requested with
  | some b => b
  | none =>
    match md with
    | .size none => true
    | .size (some (.scalar _)) => true
    | .size (some (.dict _)) => true
    | .size (some (.arr l)) => decide (l.length = nSelected)
    | .cov _ Q => isDiagonal Q
    | .trajectory _ => false

/-- `_shock_vector_from_spec` (simulate.py:104-119): one entry per name -/
noncomputable def shockVector (s : Option ShockSize) (names : List Str) : Except IrfErr (List ℝ) :=
  match s with
  | none => .ok (names.map fun _ => 1)
  | some (.scalar r) => .ok (names.map fun _ => r)
  | some (.dict d) => .ok (names.map fun x => (dget d x).getD 0)
  | some (.arr l) => if l.length = names.length then .ok l else .error .badShape

/-- `traj[0] = v` for a row of `k` entries: numpy assigns equal lengths and broadcasts one element -/
def assignRow (k : ℕ) (v : List ℝ) : Except IrfErr (Fin k → ℝ) :=
  if v.length = k then .ok fun i => v.getD i 0
  else if v.length = 1 then .ok fun _ => v.getD 0 0
  else .error .broadcast

/-- a trajectory whose first row is `v` and whose other rows are zero (simulate.py:152, 158, 161, 163) -/
def impulse {k : ℕ} (len : ℕ) (v : Fin k → ℝ) : Except IrfErr (List (Fin k → ℝ)) :=
  match len with
  | 0 => .error .noPeriods
  | l + 1 => .ok (v :: List.replicate l 0)

/-- `_build_trajectory` (simulate.py:137-168). `z` is the draw of `rng.standard_normal`, `chol` is `np.linalg.cholesky`; `_orthogonal_factor`
without unit variance (simulate.py:122-134) is the same factor, so both branches of line 156 are written out equal. -/
noncomputable def buildTrajectory {k : ℕ} (chol : Mat k k → Option (Mat k k)) (orthogonalize : Bool) (z : Fin k → ℝ) (md : ShockMode)
    (len : ℕ) (names : List Str) : Except IrfErr (List (Fin k → ℝ)) :=
  match md with
  | .trajectory tr => if tr.cols ≠ k then .error .badShape else .ok (tr.rows.map fun r (j : Fin k) => r j)
  | .cov m Q =>
    if h : m = k then
      match (if orthogonalize then chol (h ▸ Q) else chol (h ▸ Q)) with
      | none => .error .notPosDef
      | some L => impulse len (L *ᵥ z)
    else .error .badShape
  | .size s =>
    match shockVector s names with
    | .error e => .error e
    | .ok v =>
      match len with
      | 0 => .error .noPeriods
      | _ + 1 =>
        match assignRow k v with
        | .error e => .error e
        | .ok v => impulse len v

/-- the loop of `_simulate_linear_system` after the first period (simulate.py:180-181) -/
noncomputable def simGo {n k : ℕ} (T : Mat n n) (R : Mat n k) : (Fin n → ℝ) → List (Fin k → ℝ) → List (Fin n → ℝ)
  | _, [] => []
  | x, e :: es => (T *ᵥ x + R *ᵥ e) :: simGo T R (T *ᵥ x + R *ᵥ e) es

/-- `_simulate_linear_system` (simulate.py:171-182) -/
noncomputable def simulateLinear {n k : ℕ} (T : Mat n n) (R : Mat n k) : List (Fin k → ℝ) → Except IrfErr (List (Fin n → ℝ))
  | [] => .error .noPeriods
  | e :: es => .ok ((R *ᵥ e) :: simGo T R (R *ᵥ e) es)

/-- `traj = zeros_like(full); traj[:, idx] = full[:, idx]` (simulate.py:303-304, 309-310) -/
noncomputable def keepShock {k : ℕ} (idx : Fin k) (tr : List (Fin k → ℝ)) : List (Fin k → ℝ) := tr.map fun r => Pi.single idx (r idx)

/-- `simulation_length` is the number of rows of a given trajectory (simulate.py:290-291) -/
def irfLength (md : ShockMode) (len : ℕ) : ℕ :=
  match md with
  | .trajectory tr => tr.rows.length
  | .cov _ _ => len
  | .size _ => len

/-- `data[i] = response`, where `data` has room for `len` periods (simulate.py:297, 305, 311): numpy assigns equal lengths and broadcasts a
single period -/
def assignPeriods {α : Type} (len : ℕ) (d : List α) : Except IrfErr (List α) :=
  if d.length = len then .ok d
  else
    match d with
    | [x] => .ok (List.replicate len x)
    | _ => .error .broadcast

/-- the result of `impulse_response_function`: one response per selected shock, or one joint response -/
inductive IrfResult (n : ℕ) where
  | individual (names : List Str) (data : List (List (Fin n → ℝ)))
  | joint (data : List (Fin n → ℝ))

/-- the list of results of a function that may raise -/
def mapExcept {α β ε : Type} (f : α → Except ε β) : List α → Except ε (List β)
  | [] => .ok []
  | a :: l =>
    match f a with
    | .error e => .error e
    | .ok b =>
      match mapExcept f l with
      | .error e => .error e
      | .ok bs => .ok (b :: bs)

/-- `impulse_response_function` (simulate.py:201-317) for given `T`, `R`; `names` are the `k` shock names of the model -/
noncomputable def impulseResponse {n k : ℕ} (chol : Mat k k → Option (Mat k k)) (z : Fin k → ℝ) (names : Fin k → Str) (T : Mat n n) (R : Mat n k)
    (len : ℕ) (a : IrfArgs) (requested : Option Bool) (orthogonalize : Bool) : Except IrfErr (IrfResult n) :=
  match validateIrfArgs a with
  | .error e => .error e
  | .ok () =>
    let md := shockMode a
    let all := List.ofFn names
    match selectedShocks md all with
    | .error e => .error e
    | .ok sel =>
      let idxs := (List.finRange k).filter fun i => names i ∈ sel
      let len := irfLength md len
      if inferIndividual requested md sel.length then
        match buildTrajectory chol orthogonalize z md len all with
        | .error e => .error e
        | .ok full =>
          match mapExcept (fun i => (simulateLinear T R (keepShock i full)).bind (assignPeriods len)) idxs with
          | .error e => .error e
          | .ok data => .ok (.individual sel data)
      else
        match buildTrajectory chol orthogonalize z md len sel with
        | .error e => .error e
        | .ok traj =>
          match simulateLinear T R traj with
          | .error e => .error e
          | .ok data => .ok (.joint data)

/-- the inner part of `simulate` (simulate.py:398-402) for one simulation with the drawn shocks `eps` -/
noncomputable def simulateOne {n k : ℕ} (T : Mat n n) (R : Mat n k) (eps : List (Fin k → ℝ)) : Except IrfErr (List (Fin n → ℝ)) :=
  match eps with
  | [] => .error .noPeriods
  | e :: es => .ok (es.scanl (fun x e => T *ᵥ x + R *ᵥ e) (R *ᵥ e))

end GE
