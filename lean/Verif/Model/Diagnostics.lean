import Verif.Model.Gensys
/-!
# Residual norms, solving a model, solvability checks and sampling

`gEconpy/model/perturbation.py` 287-372, `gEconpy/model/model.py` 1682-2026, `gEconpy/model/statistics/perturbation_diagnostics.py` 62-160 and
345-579, `gEconpy/model/sampling.py`. Floats are real numbers, except where a NaN matters (`Fl`). -/

open Matrix

namespace GE

/-! ## perturbation.py: gEcon representation and residual norms -/

/-- `M[np.abs(M) < tol] = 0` on a copy (perturbation.py:354-357) -/
noncomputable def truncTol {n m : ℕ} (tol : ℝ) (M : Mat n m) : Mat n m := open Classical in fun i j => if |M i j| < tol then 0 else M i j

/-- column `j` is in `state_var_idx` (perturbation.py:351): the entry of largest modulus in the column has modulus at least `tol` -/
def IsState {n : ℕ} (tol : ℝ) (T : Mat n n) (j : Fin n) : Prop := ∃ i, (∀ i', |T i' j| ≤ |T i j|) ∧ tol ≤ |T i j|

/-- the states and the jumpers of `T` -/
abbrev StateIx {n : ℕ} (tol : ℝ) (T : Mat n n) := {j : Fin n // IsState tol T j}
abbrev JumperIx {n : ℕ} (tol : ℝ) (T : Mat n n) := {j : Fin n // ¬IsState tol T j}

/-- the seven matrices returned by `statespace_to_gEcon_representation` -/
structure GEconRep {n : ℕ} (k : ℕ) (tol : ℝ) (T : Mat n n) where
  P : Matrix (StateIx tol T) (StateIx tol T) ℝ
  Q : Matrix (StateIx tol T) (Fin k) ℝ
  R : Matrix (JumperIx tol T) (StateIx tol T) ℝ
  S : Matrix (JumperIx tol T) (Fin k) ℝ
  A' : Matrix (Fin n) (StateIx tol T) ℝ
  R' : Matrix (Fin n) (StateIx tol T) ℝ
  S' : Mat n k

/-- `statespace_to_gEcon_representation(A, T, R, tol)` (perturbation.py:311-372) -/
noncomputable def gEconRep {n k : ℕ} (A T : Mat n n) (R : Mat n k) (tol : ℝ) : GEconRep k tol T :=
  let PP := truncTol tol T
  let QQ := truncTol tol R
  { P := PP.submatrix Subtype.val Subtype.val
    Q := QQ.submatrix Subtype.val id
    R := PP.submatrix Subtype.val Subtype.val
    S := QQ.submatrix Subtype.val id
    A' := A.submatrix id Subtype.val
    R' := PP.submatrix id Subtype.val
    S' := QQ }

/-- `linalg.norm(M)`: the Frobenius norm -/
noncomputable def frob {α β : Type} [Fintype α] [Fintype β] (M : Matrix α β ℝ) : ℝ := Real.sqrt (∑ i, ∑ j, M i j ^ 2)

/-- `residual_norms` (perturbation.py:287-318) applied to the matrices of the representation, as in `check_perturbation_solution` (406-407) and
`_check_one_draw` (perturbation_diagnostics.py:145-146) -/
noncomputable def residualNorms {n k : ℕ} (A B C : Mat n n) (D : Mat n k) (T : Mat n n) (R : Mat n k) (tol : ℝ) : ℝ × ℝ :=
  open Classical in
  let g := gEconRep A T R tol
  (frob (g.A' + B * g.R' + C * g.R' * g.P), frob (B * g.S' + C * g.R' * g.Q + D))

/-! ## model.py: solve_model -/

/-- the exceptions that leave `solve_model` -/
inductive SolveErr where
  | badOnFailure
  | steadyState
  | linearize
  /-- an exception of the numpy operations of the solver -/
  | numpy (e : NpErr)
  /-- LAPACK fails inside gensys -/
  | lapack
  | gensysFailed
  | notBackwardLooking
  | unknownSolver
  deriving DecidableEq, Repr

/-- the linearised system -/
structure LinMats (n k : ℕ) where
  A : Mat n n
  B : Mat n n
  C : Mat n n
  D : Mat n k

/-- LAPACK results for the systems gensys may be called on; `none` is a LAPACK failure, raised as an exception -/
abbrev GenOracle (n : ℕ) (tol : ℝ) := ∀ A B C : Mat n n, Option (GensysOracle A B C tol)

/-- the part of `Model.solve_model` after the linearisation (model.py:2001-2026); `verbose` only logs -/
noncomputable def solveLinear {n k : ℕ} (tol : ℝ) (gen : GenOracle n tol) (maxIter : ℕ) (backward : Bool) (solver : Str) (onFailureError : Bool)
    (m : LinMats n k) : Except SolveErr (Option (Mat n n × Mat n k)) :=
  let solver := if backward then "backward_direct".toList else solver
  if solver = "gensys".toList then
    match gen m.A m.B m.C with
    | none => .error .lapack
    | some o =>
      match modelSolveGensys m.D o onFailureError with
      | .solved T R => .ok (some (T, R))
      | .nothing => .ok none
      | .failedException => .error .gensysFailed
  else if solver = "cycle_reduction".toList then
    match solveWithCR m.A m.B m.C m.D maxIter tol with
    | .error e => .error (.numpy e)
    | .ok r => .ok r
  else if solver = "backward_direct".toList then
    if backward then
      match solveBackwardDirect m.A m.B m.C m.D with
      | none => .error (.numpy .singular)
      | some r => .ok (some r)
    else .error .notBackwardLooking
  else .error .unknownSolver

/-- `Model.solve_model` (model.py:1731-2026). `steady` is `_maybe_solve_steady_state`, which returns a result with its `success` flag, or raises;
the flag is not looked at. `linearize` is `linearize_model` at that steady state. -/
noncomputable def solveModel {n k : ℕ} {S : Type} (steady : Option (S × Bool)) (linearize : S → Option (LinMats n k)) (tol : ℝ) (gen : GenOracle n tol)
    (maxIter : ℕ) (backward : Bool) (solver onFailure : Str) : Except SolveErr (Option (Mat n n × Mat n k)) :=
  if onFailure ≠ "error".toList ∧ onFailure ≠ "ignore".toList then .error .badOnFailure
  else
    match steady with
    | none => .error .steadyState
    | some (ss, _) =>
      match linearize ss with
      | none => .error .linearize
      | some m => solveLinear tol gen maxIter backward solver (decide (onFailure = "error".toList)) m

/-! ## perturbation_diagnostics.py -/

/-- a float that may be NaN (`none`) -/
abbrev Fl := Option ℝ

/-- how a call ends: with a value, with one of `_NUMERICAL_ERRORS` (perturbation_diagnostics.py:97: ValueError, ArithmeticError, LinAlgError,
RuntimeError and their subclasses), or with another exception -/
inductive Call (α : Type) where
  | ret (a : α)
  | numeric
  | other

/-- the values of `failure_step` -/
inductive FailStep where
  | steadyState | perturbation | blanchardKahn | deterministicNorm | stochasticNorm
  deriving DecidableEq, Repr

/-- what `_check_one_draw` returns -/
structure DrawResult where
  step : Option FailStep
  det : Fl
  stoch : Fl

/-- `x > tol`; false for NaN -/
noncomputable def Fl.gt (x : Fl) (tol : ℝ) : Bool := open Classical in
  match x with
  | none => false
  | some v => decide (tol < v)

/-- the comparison of the norms (perturbation_diagnostics.py:150-154) -/
noncomputable def normStep (normTol : ℝ) (d s : Fl) : Option FailStep :=
  if d.gt normTol then some .deterministicNorm else if s.gt normTol then some .stochasticNorm else none

/-- `_check_one_draw` (perturbation_diagnostics.py:100-156) for given calls: `steady` (with its success flag), `linearize`, the solver, the
Blanchard-Kahn check and the norms. `none` is an exception that leaves the function. The Blanchard-Kahn check stands outside any `try`. -/
noncomputable def checkOneDraw {U S L P : Type} (steady : U → Call (S × Bool)) (linearize : U → S → Call L) (solve : L → Call (Option P))
    (bk : L → Call Bool) (norms : L → P → Call (Fl × Fl)) (normTol : ℝ) (u : U) : Option DrawResult :=
  match steady u with
  | .other => none
  | .numeric => some ⟨some .steadyState, none, none⟩
  | .ret (_, false) => some ⟨some .steadyState, none, none⟩
  | .ret (ss, true) =>
    match linearize u ss with
    | .other => none
    | .numeric => some ⟨some .perturbation, none, none⟩
    | .ret l =>
      match solve l with
      | .other => none
      | .numeric => some ⟨some .perturbation, none, none⟩
      | .ret none => some ⟨some .perturbation, none, none⟩
      | .ret (some p) =>
        match bk l with
        | .numeric => none
        | .other => none
        | .ret false => some ⟨some .blanchardKahn, none, none⟩
        | .ret true =>
          match norms l p with
          | .other => none
          | .numeric => some ⟨some .deterministicNorm, none, none⟩
          | .ret (d, s) => some ⟨normStep normTol d s, d, s⟩

/-- the class of a numpy exception: the product with the array `[None]` is a shape mismatch (ValueError) unless there is one variable, where it
is a TypeError -/
def npCall {α : Type} (n : ℕ) : NpErr → Call α
  | .singular => .numeric
  | .badOperand => if n = 1 then .other else .numeric

/-- `_solve_perturbation` (perturbation_diagnostics.py:62-94) -/
noncomputable def solvePerturbation {n k : ℕ} (tol : ℝ) (gen : GenOracle n tol) (maxIter : ℕ) (backward : Bool) (solver : Str) (m : LinMats n k) :
    Call (Option (Mat n n × Mat n k)) :=
  let effective := if backward then "backward_direct".toList else solver
  if effective = "cycle_reduction".toList then
    match solvePolicyCR m.A m.B m.C m.D maxIter tol with
    | .error e => npCall n e
    | .ok p => .ret (some (p.T, p.R))
  else if effective = "gensys".toList then
    match gen m.A m.B m.C with
    | none => .numeric
    | some o =>
      match solveWithGensys m.D o with
      | (some (G1, impact), eu) =>
        if eu.1 = 1 ∧ eu.2.1 = 1 then .ret (some (G1.submatrix Sum.inl Sum.inl, impact.submatrix Sum.inl id)) else .ret none
      | (none, _) => .ret none
  else if effective = "backward_direct".toList then
    match solveBackwardDirect m.A m.B m.C m.D with
    | none => .numeric
    | some r => .ret (some r)
  else .numeric

/-- the tolerance 1e-8 with which the Blanchard-Kahn check is called (perturbation.py:514, default) -/
noncomputable def bkTol : ℝ := 1 / 100000000

/-- `_check_bk_condition(A, B, C, D, verbose=False, return_value="bool")`; `none` is LAPACK failing to reorder -/
noncomputable def bkCall {n k : ℕ} (qz : ∀ A B C : Mat n n, Option (SortedQZ (toC (-setupG0 B C bkTol)) (toC (setupG1 A C bkTol)))) (m : LinMats n k) :
    Call Bool :=
  match qz m.A m.B m.C with
  | none => .numeric
  | some q =>
    match checkBK (bkEigenvalues q) (bkForward m.C bkTol) false .bool with
    | .ok (.flag b) _ _ _ => .ret b
    | _ => .other

/-- `_check_one_draw` with the solvers of the package -/
noncomputable def checkDraw {U S : Type} {n k : ℕ} (steady : U → Call (S × Bool)) (linearize : U → S → Call (LinMats n k)) (tol : ℝ)
    (gen : GenOracle n tol) (qz : ∀ A B C : Mat n n, Option (SortedQZ (toC (-setupG0 B C bkTol)) (toC (setupG1 A C bkTol)))) (maxIter : ℕ)
    (backward : Bool) (solver : Str) (normTol : ℝ) (u : U) : Option DrawResult :=
  checkOneDraw steady linearize (solvePerturbation tol gen maxIter backward solver) (bkCall qz)
    (fun m p => let r := residualNorms m.A m.B m.C m.D p.1 p.2 tol; .ret (some r.1, some r.2)) normTol u

/-- a data frame: column names and rows with their labels (numbers here) -/
structure DrawTable where
  columns : List Str
  rows : List (ℝ × List ℝ)

/-- `keyword.kwlist` (Python 3.11-3.13) -/
def pyKeywords : List Str :=
  ["False", "None", "True", "and", "as", "assert", "async", "await", "break", "class", "continue", "def", "del", "elif", "else", "except", "finally",
    "for", "from", "global", "if", "import", "in", "is", "lambda", "nonlocal", "not", "or", "pass", "raise", "return", "try", "while", "with",
    "yield"].map String.toList

/-- `str.isidentifier()`, for ASCII strings -/
def isIdentifier : Str → Bool
  | [] => false
  | c :: s => (c.isAlpha || c == '_') && s.all fun x => x.isAlphanum || x == '_'

/-- `name.startswith("_")` -/
def startsUnderscore : Str → Bool
  | '_' :: _ => true
  | _ => false

/-- the test of `collections.namedtuple(..., rename=True)` that replaces a field name -/
def badField (seen : List Str) (name : Str) : Bool :=
  !isIdentifier name || decide (name ∈ pyKeywords) || startsUnderscore name || decide (name ∈ seen)

/-- the renaming loop of `collections.namedtuple(..., rename=True)` -/
def renameFields : ℕ → List Str → List Str → List Str
  | _, _, [] => []
  | i, seen, name :: rest => (if badField seen name then '_' :: (toString i).toList else name) :: renameFields (i + 1) (name :: seen) rest

/-- the name `itertuples` gives to the row label -/
def indexName : Str := "Index".toList

/-- `{k: v for k, v in row._asdict().items() if k != "Index"}` for a row of `samples.itertuples()` (perturbation_diagnostics.py:418) -/
def paramDict (columns : List Str) (row : ℝ × List ℝ) : List (Str × ℝ) :=
  ((renameFields 0 [] (indexName :: columns)).zip (row.1 :: row.2)).filter fun p => decide (p.1 ≠ indexName)

/-- errors of `solvability_check` -/
inductive CheckErr where
  /-- an exception raised while checking a draw -/
  | draw
  /-- `Pool(cores)` with `cores < 1` -/
  | poolSize
  /-- `zip(*[])` cannot be unpacked into three -/
  | noSamples
  deriving DecidableEq, Repr

/-- `_run_serial` (perturbation_diagnostics.py:432-446) -/
def runSerial {U : Type} (check : U → Option DrawResult) (us : List U) : Option (List DrawResult) := us.mapM check

/-- `_run_parallel` (perturbation_diagnostics.py:449-471): `imap_unordered` yields results in the order in which the workers finish. -/
def runParallel {U : Type} (check : U → Option DrawResult) (finished : List ℕ) (us : List U) : Option (List DrawResult) :=
  (finished.filterMap fun i => us[i]?).mapM check

/-- `solvability_check` (perturbation_diagnostics.py:345-429); the three columns are attached to the rows. Samples are assumed not to have
columns of those names already. -/
def solvabilityCheck (check : List (Str × ℝ) → Option DrawResult) (cores : Int) (finished : List ℕ) (f : DrawTable) :
    Except CheckErr (List ((ℝ × List ℝ) × DrawResult)) :=
  let dicts := f.rows.map (paramDict f.columns)
  let run : Except CheckErr (Option (List DrawResult)) :=
    if cores = 1 then .ok (runSerial check dicts)
    else if cores < 1 then .error .poolSize
    else .ok (runParallel check finished dicts)
  match run with
  | .error e => .error e
  | .ok none => .error .draw
  | .ok (some []) => .error .noSamples
  | .ok (some results) => .ok (f.rows.zip results)

/-- errors of `_collect_priors` -/
inductive PriorErr where
  | noPriors
  | unknown (names : List Str)
  deriving DecidableEq, Repr

/-- `_collect_priors` (perturbation_diagnostics.py:474-508) -/
def collectPriors {π : Type} (priors : List (Str × π)) (subset : Option (List Str)) : Except PriorErr (List (Str × π)) :=
  if priors.isEmpty then .error .noPriors
  else
    match subset with
    | none => .ok priors
    | some ns =>
      let unknown := ns.filter fun x => decide (x ∉ dkeys priors)
      if unknown.isEmpty then .ok (priors.filter fun p => decide (p.1 ∈ ns)) else .error (.unknown unknown)

/-! ## sampling.py -/

/-- the argument `seed`: an `int` or `None`, or anything else (a Generator, a numpy integer) -/
inductive SeedArg where
  | none | int (k : Int) | obj (id : ℕ)
  deriving DecidableEq, Repr

/-- `rng_seed = seed if isinstance(seed, (int, type(None))) else None` (sampling.py:120, 229) -/
def SeedArg.forQmc : SeedArg → Option Int
  | .int k => Option.some k
  | _ => Option.none

/-- the QMC engines of scipy -/
inductive Engine where
  | lhs | sobol | halton | poissonDisk
  deriving DecidableEq, Repr

/-- the random sources: `unit` is what an engine returns for dimension `d`, `n` points, its seed and the entropy of the operating system;
`uniform` is `default_rng(seed).uniform(size=(n, d))` -/
structure Sources (Ω : Type) where
  unit : Engine → (d n : ℕ) → Option Int → Ω → List (List ℝ)
  uniform : (d n : ℕ) → SeedArg → Ω → List (List ℝ)

/-- errors of the samplers -/
inductive SampleErr where
  | notPowerOfTwo | unknownMethod
  /-- `qmc.scale`: bounds not strictly ordered -/
  | inconsistentBounds
  /-- `qmc.scale`: a sample outside the unit cube -/
  | notInUnitCube
  /-- `qmc.scale`: maximum of an empty sample -/
  | emptySample
  deriving DecidableEq, Repr

/-- the test of sampling.py:114 and 223 -/
def sobolRefuses (n : ℕ) : Bool := decide (n &&& (n - 1) ≠ 0)

/-- the engine of a method name in `sample_uniform` (sampling.py:125-136) -/
def engineOf (method : Str) : Option Engine :=
  if method = "lhs".toList then some .lhs
  else if method = "sobol".toList then some .sobol
  else if method = "halton".toList then some .halton
  else if method = "poisson_disk".toList then some .poissonDisk
  else none

/-- `qmc.scale(sample, l, u)` (scipy): checks, then `sample * (u - l) + l` -/
noncomputable def qmcScale (sample : List (List ℝ)) (l u : List ℝ) : Except SampleErr (List (List ℝ)) :=
  open Classical in
  if ¬∀ p ∈ l.zip u, p.1 < p.2 then .error .inconsistentBounds
  else if sample = [] then .error .emptySample
  else if ¬∀ r ∈ sample, ∀ x ∈ r, 0 ≤ x ∧ x ≤ 1 then .error .notInUnitCube
  else .ok (sample.map fun r => List.zipWith (fun x p => x * (p.2 - p.1) + p.1) r (l.zip u))

/-- `sample_uniform` (sampling.py:69-146) -/
noncomputable def sampleUniform {Ω : Type} (src : Sources Ω) (ω : Ω) (bounds : List (Str × (ℝ × ℝ))) (n : ℕ) (seed : SeedArg) (method : Str) :
    Except SampleErr DrawTable :=
  let names := dkeys bounds
  let l := bounds.map fun b => b.2.1
  let u := bounds.map fun b => b.2.2
  let d := names.length
  if method = "sobol".toList ∧ sobolRefuses n then .error .notPowerOfTwo
  else
    let unit : Option (List (List ℝ)) :=
      if method = "random".toList then some (src.uniform d n seed ω) else (engineOf method).map fun e => src.unit e d n seed.forQmc ω
    match unit with
    | none => .error .unknownMethod
    | some pts =>
      match qmcScale pts l u with
      | .error e => .error e
      | .ok rows => .ok ⟨names, rows.zipIdx.map fun r => ((r.2 : ℝ), r.1)⟩

/-- what is used of a preliz distribution: `hdi(p)` (`none` for ValueError), `ppf` -/
structure PriorDist where
  hdi : ℝ → Option (ℝ × ℝ)
  ppf : ℝ → ℝ

/-- `bounds_from_priors` (sampling.py:8-43) -/
noncomputable def boundsFromPriors (priors : List (Str × PriorDist)) (p : ℝ) : List (Str × (ℝ × ℝ)) :=
  priors.map fun x => (x.1, (x.2.hdi p).getD (x.2.ppf (1 - p), x.2.ppf p))

/-- `sample_uniform_from_priors` (sampling.py:149-187) -/
noncomputable def sampleUniformFromPriors {Ω : Type} (src : Sources Ω) (ω : Ω) (priors : List (Str × PriorDist)) (n : ℕ) (seed : SeedArg) (method : Str)
    (hdiProb : ℝ) : Except SampleErr DrawTable :=
  sampleUniform src ω (boundsFromPriors priors hdiProb) n seed method

/-- the engine of a method name in `sample_from_priors_qmc` (sampling.py:231-238) -/
def ppfEngineOf (method : Str) : Option Engine :=
  if method = "sobol".toList then some .sobol
  else if method = "halton".toList then some .halton
  else if method = "lhs".toList then some .lhs
  else none

/-- `np.clip(x, eps, 1 - eps)` -/
noncomputable def clip (eps x : ℝ) : ℝ := min (max x eps) (1 - eps)

/-- `sample_from_priors_qmc` (sampling.py:190-252); `eps` is `np.finfo(float).eps` -/
noncomputable def sampleFromPriorsQmc {Ω : Type} (src : Sources Ω) (eps : ℝ) (ω : Ω) (priors : List (Str × PriorDist)) (n : ℕ) (seed : SeedArg)
    (method : Str) : Except SampleErr DrawTable :=
  let d := priors.length
  if method = "sobol".toList ∧ sobolRefuses n then .error .notPowerOfTwo
  else
    match ppfEngineOf method with
    | none => .error .unknownMethod
    | some e =>
      let pts := src.unit e d n seed.forQmc ω
      .ok ⟨dkeys priors, pts.zipIdx.map fun r => ((r.2 : ℝ), List.zipWith (fun x q => q.2.ppf (clip eps x)) r.1 priors)⟩

/-- `s.endswith(suffix)` -/
def nameEndsWith (s suffix : Str) : Bool := suffix.isSuffixOf s

/-- which sampler `prior_solvability_check` calls for `method` (perturbation_diagnostics.py:571-577) -/
inductive Sampler where
  | rvs | ppf (method : Str) | uniform (method : Str)
  deriving DecidableEq, Repr

/-- the dispatch of `prior_solvability_check` (perturbation_diagnostics.py:571-577) -/
def samplerOf (method : Str) : Sampler :=
  if method = "random".toList then .rvs
  else if nameEndsWith method "_ppf".toList then .ppf (method.take (method.length - 4))
  else .uniform method

end GE
