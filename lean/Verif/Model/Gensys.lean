import Verif.Model.LinearSolve
import Mathlib.Data.Complex.Basic
import Mathlib.Analysis.Complex.Norm
import Mathlib.LinearAlgebra.Matrix.Rank
import Mathlib.LinearAlgebra.Matrix.ConjTranspose
/-! # gensys (gEconpy/solvers/gensys.py) and the Blanchard-Kahn check (gEconpy/model/perturbation.py:412-583)

Real and complex matrices replace floating-point arrays. LAPACK's factorisations are not modelled: the functions take their results as
arguments, of types (`SortedQZ`, `ThinSVD`) that state what LAPACK promises in exact arithmetic. -/

open Matrix

namespace GE

/-! ## `_gensys_setup` -/

/-- `lead_var_idx` (gensys.py:582-589): the columns of `C` whose absolute sum exceeds `tol` -/
abbrev Lead {n : ℕ} (C : Mat n n) (tol : ℝ) := {j : Fin n // tol < ∑ i, |C i j|}

noncomputable instance {n : ℕ} (C : Mat n n) (tol : ℝ) : Fintype (Lead C tol) := Fintype.ofFinite _

/-- `eqs_and_leads_idx` (gensys.py:591): all equations, then the auxiliary rows of the lead variables. Positions `0..n-1` of the stacked
arrays are `Sum.inl`, positions `n..2n-1` are `Sum.inr`. -/
def eqsAndLeads {n : ℕ} (C : Mat n n) (tol : ℝ) : Fin n ⊕ Lead C tol → Fin n ⊕ Fin n := Sum.map id Subtype.val

/-- `G0` (gensys.py:593-598, 609, 614): note the minus sign -/
def setupG0 {n : ℕ} (B C : Mat n n) (tol : ℝ) : Matrix (Fin n ⊕ Lead C tol) (Fin n ⊕ Lead C tol) ℝ :=
  -((fromBlocks B C (-1) 0).submatrix (eqsAndLeads C tol) (eqsAndLeads C tol))

/-- `Gamma_1` (gensys.py:599-604, 610) -/
def setupG1 {n : ℕ} (A C : Mat n n) (tol : ℝ) : Matrix (Fin n ⊕ Lead C tol) (Fin n ⊕ Lead C tol) ℝ :=
  (fromBlocks A 0 0 1).submatrix (eqsAndLeads C tol) (eqsAndLeads C tol)

/-- `Psi` (gensys.py:606, 611) -/
def setupPsi {n k : ℕ} (C : Mat n n) (D : Mat n k) (tol : ℝ) : Matrix (Fin n ⊕ Lead C tol) (Fin k) ℝ :=
  (fromRows D 0).submatrix (eqsAndLeads C tol) id

/-- `Pi` (gensys.py:605, 612) -/
def setupPi {n : ℕ} (C : Mat n n) (tol : ℝ) : Matrix (Fin n ⊕ Lead C tol) (Lead C tol) ℝ :=
  (fromRows (0 : Mat n n) (1 : Mat n n)).submatrix (eqsAndLeads C tol) Subtype.val

/-! ## LAPACK contracts -/

/-- what `_qz_complex_sort_eig(g0, g1, "ouc")` (gensys.py:231) and `linalg.ordqz(.., sort="ouc", output="complex")` (perturbation.py:437)
promise: unitary `Q` (already conjugated, gensys.py:233) and `Z`, upper triangular `A = Q g0 Z` and `B = Q g1 Z`, with the pairs
`|alpha| > |beta|` first. The `ns` leading positions are `Sum.inl`, the `nu` trailing ones `Sum.inr`. -/
structure SortedQZ {ι : Type} [Fintype ι] [DecidableEq ι] (g0 g1 : Matrix ι ι ℂ) where
  ns : ℕ
  nu : ℕ
  Q : Matrix (Fin ns ⊕ Fin nu) ι ℂ
  Z : Matrix ι (Fin ns ⊕ Fin nu) ℂ
  A : Matrix (Fin ns ⊕ Fin nu) (Fin ns ⊕ Fin nu) ℂ
  B : Matrix (Fin ns ⊕ Fin nu) (Fin ns ⊕ Fin nu) ℂ
  Q_right : Q * Qᴴ = 1
  Q_left : Qᴴ * Q = 1
  Z_right : Z * Zᴴ = 1
  Z_left : Zᴴ * Z = 1
  A_eq : Q * g0 * Z = A
  B_eq : Q * g1 * Z = B
  A_low : ∀ i j, A (.inr i) (.inl j) = 0
  A_tri₁ : ∀ i j, j < i → A (.inl i) (.inl j) = 0
  A_tri₂ : ∀ i j, j < i → A (.inr i) (.inr j) = 0
  B_low : ∀ i j, B (.inr i) (.inl j) = 0
  B_tri₁ : ∀ i j, j < i → B (.inl i) (.inl j) = 0
  B_tri₂ : ∀ i j, j < i → B (.inr i) (.inr j) = 0
  sorted₁ : ∀ i, ‖B (.inl i) (.inl i)‖ < ‖A (.inl i) (.inl i)‖
  sorted₂ : ∀ i, ¬ ‖B (.inr i) (.inr i)‖ < ‖A (.inr i) (.inr i)‖

/-- the pairs `(alpha[i], beta[i])`, `i = 0..n-1` -/
def SortedQZ.pairs {ι : Type} [Fintype ι] [DecidableEq ι] {g0 g1 : Matrix ι ι ℂ} (q : SortedQZ g0 g1) : List (ℂ × ℂ) :=
  (List.finRange q.ns).map (fun i => (q.A (.inl i) (.inl i), q.B (.inl i) (.inl i))) ++
  (List.finRange q.nu).map (fun i => (q.A (.inr i) (.inr i), q.B (.inr i) (.inr i)))

/-- what `_thin_svd_and_rank` (gensys.py:120-123) followed by the selection of the kept components (gensys.py:277-280, 292-295) promises,
when every discarded singular value (those `≤ realsmall`) is exactly zero -/
structure ThinSVD {a b : Type} [Fintype a] [Fintype b] (M : Matrix a b ℂ) (realsmall : ℝ) where
  r : ℕ
  u : Matrix a (Fin r) ℂ
  d : Fin r → ℝ
  v : Matrix b (Fin r) ℂ
  uu : uᴴ * u = 1
  vv : vᴴ * v = 1
  big : ∀ i, realsmall < d i
  exact : M = u * diagonal (fun i => (d i : ℂ)) * vᴴ

/-! ## `_gensys_core` -/

/-- the counting loop (gensys.py:239-249): number of unstable pairs, and whether a pair is coincident near-zero -/
noncomputable def gensysCount (realsmall : ℝ) : List (ℂ × ℂ) → ℕ × Bool → ℕ × Bool
  | [], st => st
  | (a, b) :: l, (k, zxz) =>
    open Classical in
    gensysCount realsmall l
      (if (‖b‖ < realsmall ∧ realsmall ≤ ‖a‖) ∨ (realsmall ≤ ‖b‖ ∧ ‖b‖ < ‖a‖) then k else k + 1,
       if ‖a‖ < realsmall ∧ ‖b‖ < realsmall then true else zxz)

section core

variable {ι η κ : Type} [Fintype ι] [DecidableEq ι] [Fintype η] [DecidableEq η] [Fintype κ]
variable {g0 g1 : Matrix ι ι ℂ} {pi : Matrix ι η ℂ} (psi : Matrix ι κ ℂ)

/-- `Q1` (gensys.py:268; `split_matrix_on_eigen_stability` gensys.py:96-117). The split is at the number of unstable pairs counted by the loop,
which is `nu` whenever no pair is coincident near-zero (`C69_count`). -/
def SortedQZ.Q1 (q : SortedQZ g0 g1) : Matrix (Fin q.ns) ι ℂ := q.Q.submatrix Sum.inl id

/-- `Q2` (gensys.py:268) -/
def SortedQZ.Q2 (q : SortedQZ g0 g1) : Matrix (Fin q.nu) ι ℂ := q.Q.submatrix Sum.inr id

/-- the two decompositions of the expectational errors (gensys.py:271-295) -/
structure EtaSVD (q : SortedQZ g0 g1) (pi : Matrix ι η ℂ) (realsmall : ℝ) where
  unstable : ThinSVD (q.Q2 * pi) realsmall
  stable : ThinSVD (q.Q1 * pi) realsmall

variable {realsmall : ℝ} {q : SortedQZ g0 g1}

/-- `loose_for_rank` (gensys.py:303) -/
def EtaSVD.loose (s : EtaSVD q pi realsmall) : Matrix η (Fin s.stable.r) ℂ :=
  s.stable.v - s.unstable.v * s.unstable.vᴴ * s.stable.v

/-- `inner_term_H` (gensys.py:313-321): the conjugate transpose of `U D⁻¹ V^H V₁ D₁ U₁^H` -/
noncomputable def EtaSVD.innerH (s : EtaSVD q pi realsmall) : Matrix (Fin q.ns) (Fin q.nu) ℂ :=
  (s.unstable.u * (diagonal (fun i => ((s.unstable.d i : ℂ))⁻¹) * s.unstable.vᴴ) * s.stable.v *
    (diagonal (fun i => (s.stable.d i : ℂ)) * s.stable.uᴴ))ᴴ

/-- `T_mat` (gensys.py:323) -/
noncomputable def EtaSVD.tMat (s : EtaSVD q pi realsmall) : Matrix (Fin q.ns) (Fin q.ns ⊕ Fin q.nu) ℂ := fromCols 1 (-s.innerH)

/-- `G_0` (gensys.py:324-331) -/
noncomputable def EtaSVD.bigG0 (s : EtaSVD q pi realsmall) : Matrix (Fin q.ns ⊕ Fin q.nu) (Fin q.ns ⊕ Fin q.nu) ℂ :=
  fromRows (s.tMat * q.A) (fromCols 0 1)

/-- `Z @ G_1_c @ Z_H` before `.real` is taken (gensys.py:333-345); `_getrs` with the LU factors is the inverse -/
noncomputable def EtaSVD.transitionC (s : EtaSVD q pi realsmall) : Matrix ι ι ℂ :=
  q.Z * (s.bigG0⁻¹ * fromRows (s.tMat * q.B) (0 : Matrix (Fin q.nu) (Fin q.ns ⊕ Fin q.nu) ℂ)) * q.Zᴴ

/-- `Z @ impact_complex` before `.real` is taken (gensys.py:352, 361-367, 395) -/
noncomputable def EtaSVD.impactC (s : EtaSVD q pi realsmall) : Matrix ι κ ℂ :=
  q.Z * (s.bigG0⁻¹ * fromRows (s.tMat * q.Q * psi) (0 : Matrix (Fin q.nu) κ ℂ))

/-- `eu` (gensys.py:253-310): existence, uniqueness, number of loose directions. The rank (`_matrix_rank`, gensys.py:173-187) is that of exact
arithmetic. -/
noncomputable def gensysEU (s : EtaSVD q pi realsmall) : ℤ × ℤ × ℕ :=
  if (gensysCount realsmall q.pairs (0, false)).2 then (-2, -2, 0)
  else
    let exist : ℤ := if q.nu ≤ s.unstable.r then 1 else 0
    let nLoose := s.loose.rank
    (exist, if nLoose = 0 then 1 else 0, nLoose)

end core

/-- what `_gensys_core` (gensys.py:190-397) returns, without `C`, `f_mat`, `f_wt`, `y_wt`, `gev` and `loose`, which no caller reads -/
structure GensysOut (ι κ : Type) where
  G1 : Matrix ι ι ℝ
  impact : Matrix ι κ ℝ
  eu : ℤ × ℤ × ℕ

/-- `_gensys_core` -/
noncomputable def gensysCore {ι η κ : Type} [Fintype ι] [DecidableEq ι] [Fintype η] [DecidableEq η] [Fintype κ]
    {g0 g1 : Matrix ι ι ℂ} {pi : Matrix ι η ℂ} (psi : Matrix ι κ ℂ) {realsmall : ℝ} {q : SortedQZ g0 g1} (s : EtaSVD q pi realsmall) :
    GensysOut ι κ :=
  if (gensysCount realsmall q.pairs (0, false)).2 then ⟨0, 0, gensysEU s⟩
  else ⟨s.transitionC.map Complex.re, (s.impactC psi).map Complex.re, gensysEU s⟩

/-! ## callers -/

/-- the complex copy of a real array (`astype(np.complex128)`) -/
def toC {a b : Type} (M : Matrix a b ℝ) : Matrix a b ℂ := M.map Complex.ofReal

/-- the two LAPACK results used by one call of gensys on the model `A, B, C, D` -/
structure GensysOracle {n : ℕ} (A B C : Mat n n) (tol : ℝ) where
  qz : SortedQZ (toC (setupG0 B C tol)) (toC (setupG1 A C tol))
  svd : EtaSVD qz (toC (setupPi C tol)) tol

/-- `solve_policy_function_with_gensys` (gensys.py:617-632) and `gensys` (400-517): `none` for the matrices when zeros coincide. The tolerance is
assumed positive (otherwise the code replaces it by the spacing of floats at 1). -/
noncomputable def solveWithGensys {n k : ℕ} {A B C : Mat n n} (D : Mat n k) {tol : ℝ} (o : GensysOracle A B C tol) :
    Option (Matrix (Fin n ⊕ Lead C tol) (Fin n ⊕ Lead C tol) ℝ × Matrix (Fin n ⊕ Lead C tol) (Fin k) ℝ) × (ℤ × ℤ × ℕ) :=
  let r := gensysCore (toC (setupPsi C D tol)) o.svd
  if r.eu.1 = -2 ∧ r.eu.2.1 = -2 then (none, r.eu) else (some (r.G1, r.impact), r.eu)

/-- outcome of `Model._solve_with_gensys` (model.py:1682-1709) -/
inductive GensysResult (n k : ℕ) where
  | solved (T : Mat n n) (R : Mat n k)
  | nothing
  | failedException

/-- `Model._solve_with_gensys` (model.py:1682-1709) -/
noncomputable def modelSolveGensys {n k : ℕ} {A B C : Mat n n} (D : Mat n k) {tol : ℝ} (o : GensysOracle A B C tol) (onFailureError : Bool) :
    GensysResult n k :=
  match solveWithGensys D o with
  | (m, eu) =>
    if eu.1 = 1 ∧ eu.2.1 = 1 then
      match m with
      | some (G1, impact) => .solved (G1.submatrix Sum.inl Sum.inl) (impact.submatrix Sum.inl id)
      | none => .nothing
    else if onFailureError then .failedException else .nothing

/-- the messages of `interpret_gensys_output` (gensys.py:520-566) -/
inductive GensysMsg where
  | coincidentZeros | indeterminate (loose : ℕ) | sunspots | noSolution | notUnique | unique | unknown
  deriving DecidableEq, Repr

/-- `interpret_gensys_output` (gensys.py:520-566) -/
def interpretGensys (eu : ℤ × ℤ × ℕ) : GensysMsg :=
  if eu.1 = -2 ∧ eu.2.1 = -2 then .coincidentZeros
  else if eu.1 = -1 then .indeterminate eu.2.2
  else if eu.2.1 = -1 then .sunspots
  else if eu.1 = 0 ∧ eu.2.1 = 0 then .noSolution
  else if eu.1 = 1 ∧ eu.2.1 = 0 then .notUnique
  else if eu.1 = 1 ∧ eu.2.1 = 1 then .unique
  else .unknown

/-- `GensysWrapper.perform` (gensys.py:654-664): the two-element unpacking of the nine-element tuple returned for coincident zeros raises
ValueError (`none`) -/
noncomputable def gensysPerform {n k : ℕ} {A B C : Mat n n} (D : Mat n k) {tol : ℝ} (o : GensysOracle A B C tol) : Option (Mat n n × Bool) :=
  match solveWithGensys D o with
  | (none, _) => none
  | (some (G1, _), eu) => some (G1.submatrix Sum.inl Sum.inl, decide (eu.1 = 1 ∧ eu.2.1 = 1))

/-- the compiled wrapper (gensys.py:708-716) -/
noncomputable def gensysNumba {n k : ℕ} {A B C : Mat n n} (D : Mat n k) {tol : ℝ} (o : GensysOracle A B C tol) : Mat n n × Bool :=
  let r := gensysCore (toC (setupPsi C D tol)) o.svd
  (r.G1.submatrix Sum.inl Sum.inl, decide (r.eu.1 = 1 ∧ r.eu.2.1 = 1))

/-! ## Blanchard-Kahn check -/

/-- the values on which the check is based: `diag(BB) / (diag(AA) + tol)` (perturbation.py:439), before sorting (which does not change the
count). `Gamma_0` of perturbation.py:436 is the already negated `G0`, and is negated again. -/
noncomputable def bkEigenvalues {n : ℕ} {A B C : Mat n n} {tol : ℝ} (q : SortedQZ (toC (-setupG0 B C tol)) (toC (setupG1 A C tol))) : List ℂ :=
  q.pairs.map fun p => p.2 / (p.1 + (tol : ℂ))

/-- `n_forward` (perturbation.py:443) -/
noncomputable def bkForward {n : ℕ} (C : Mat n n) (tol : ℝ) : ℕ := open Classical in (Finset.univ.filter fun j => tol < ∑ i, |C i j|).card

/-- `n_unstable` (perturbation.py:554-555) -/
noncomputable def bkUnstable (vals : List ℂ) : ℕ := open Classical in vals.countP fun z => 1 < Real.sqrt (z.re ^ 2 + z.im ^ 2)

/-- the sentence added to the message (perturbation.py:563-567) -/
inductive BKMsg where
  | satisfied | noStable | noUnique
  deriving DecidableEq, Repr

/-- what `check_bk_condition` returns -/
inductive BKReturn where
  | nothing | table (modRealImag : List (ℝ × ℝ × ℝ)) | flag (b : Bool)

/-- outcome of `check_bk_condition` -/
inductive BKOutcome where
  | badReturnValue
  | raised (m : BKMsg) (nUnstable nForward : ℕ)
  | ok (r : BKReturn) (m : BKMsg) (nUnstable nForward : ℕ)

/-- the argument `return_value`: `"dataframe"`, `"bool"`, `None` or anything else -/
inductive BKWhat where
  | dataframe | bool | none | other
  deriving DecidableEq, Repr

/-- `check_bk_condition` (perturbation.py:508-583); the eigenvalues are those of `compute_bk_eigenvalues` in sorted order -/
noncomputable def checkBK (vals : List ℂ) (nForward : ℕ) (raiseOnFailure : Bool) (what : BKWhat) : BKOutcome :=
  if what = .other then .badReturnValue
  else
    let nU := bkUnstable vals
    let msg : BKMsg := if nForward = nU then .satisfied else if nForward < nU then .noStable else .noUnique
    if nForward ≠ nU ∧ raiseOnFailure then .raised msg nU nForward
    else
      let ret : BKReturn :=
        match what with
        | .dataframe => .table (vals.map fun z => (Real.sqrt (z.re ^ 2 + z.im ^ 2), z.re, z.im))
        | .bool => .flag (decide (nForward = nU))
        | _ => .nothing
      .ok ret msg nU nForward

end GE
