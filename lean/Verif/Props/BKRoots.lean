import Verif.Props.GensysExample
import Verif.Props.Responses
import Mathlib.LinearAlgebra.Matrix.SchurComplement
import Mathlib.LinearAlgebra.Matrix.Determinant.Basic
import Mathlib.LinearAlgebra.Matrix.InvariantBasisNumber
import Mathlib.Algebra.Polynomial.FieldDivision
import Mathlib.Algebra.Polynomial.Roots
import Mathlib.Algebra.Polynomial.BigOperators
/-! # C137: what the Blanchard-Kahn check counts -/

open Matrix Polynomial

namespace GE

/-! ## specification -/

/-- the characteristic polynomial `det (A + z B + z² C)` of the linearised model `A x(t-1) + B x(t) + C x(t+1) = 0` -/
noncomputable def charPoly {n : ℕ} (A B C : Mat n n) : ℂ[X] :=
  (Matrix.of fun i j => Polynomial.C (A i j : ℂ) + Polynomial.X * Polynomial.C (B i j : ℂ) + Polynomial.X ^ 2 * Polynomial.C (C i j : ℂ)).det

/-- the number of roots of the model that do not die out, with multiplicity: those of the characteristic polynomial on or outside the unit
circle, and those at infinity, where there are as many roots in all as variables and variables with a lead -/
noncomputable def explosiveRoots {n : ℕ} (A B C : Mat n n) (leads : ℕ) : ℕ :=
  open Classical in (charPoly A B C).roots.countP (fun z => 1 ≤ ‖z‖) + (n + leads - (charPoly A B C).natDegree)

namespace BKR

variable {n : ℕ} {A B C : Mat n n} {tol : ℝ}

theorem countP_bind' {α β : Type} (s : Finset α) (f : α → Multiset β) (p : β → Prop) [DecidablePred p] :
    (s.val.bind f).countP p = ∑ i ∈ s, (f i).countP p := by
  classical
  rw [Multiset.countP_eq_card_filter, Multiset.filter_bind, Multiset.card_bind]
  simp only [Finset.sum, Function.comp_def, Multiset.countP_eq_card_filter]

/-- the pencil in polynomials -/
noncomputable def pencil {ι : Type} (g0 g1 : Matrix ι ι ℂ) : Matrix ι ι ℂ[X] := Matrix.of fun i j => Polynomial.X * Polynomial.C (g0 i j) + Polynomial.C (g1 i j)

theorem pencil_mul {ι κ : Type} [Fintype ι] [DecidableEq ι] [Fintype κ] [DecidableEq κ] (g0 g1 : Matrix ι ι ℂ) (Q : Matrix κ ι ℂ) (Z : Matrix ι κ ℂ) :
    Q.map Polynomial.C * pencil g0 g1 * Z.map Polynomial.C = pencil (Q * g0 * Z) (Q * g1 * Z) := by
  ext1 i j
  simp only [pencil, mul_apply, map_apply, of_apply, map_sum, map_mul, Finset.sum_mul, Finset.mul_sum, ← Finset.sum_add_distrib]
  refine Finset.sum_congr rfl fun a _ => Finset.sum_congr rfl fun b _ => ?_
  ring

/-- the determinant of the pencil, up to a constant -/
theorem det_pencil {ι : Type} [Fintype ι] [DecidableEq ι] {g0 g1 : Matrix ι ι ℂ} (q : SortedQZ g0 g1) :
    ∃ u : ℂ, u ≠ 0 ∧ Polynomial.C u * (pencil g0 g1).det = (pencil q.A q.B).det := by
  have hcard : Fintype.card (Fin q.ns ⊕ Fin q.nu) = Fintype.card ι := Matrix.square_of_invertible q.Q q.Qᴴ q.Q_right q.Q_left
  let e : (Fin q.ns ⊕ Fin q.nu) ≃ ι := Fintype.equivOfCardEq hcard
  have hQ : (q.Q.submatrix id e).det ≠ 0 := by
    intro h
    have : (q.Q.submatrix id e) * (q.Qᴴ.submatrix e id) = 1 := by rw [submatrix_mul_equiv, q.Q_right, submatrix_id_id]
    have := congrArg det this
    rw [det_mul, h, zero_mul, det_one] at this
    exact zero_ne_one this
  have hZ : (q.Z.submatrix e id).det ≠ 0 := by
    intro h
    have : (q.Zᴴ.submatrix id e) * (q.Z.submatrix e id) = 1 := by rw [submatrix_mul_equiv, q.Z_left, submatrix_id_id]
    have := congrArg det this
    rw [det_mul, h, mul_zero, det_one] at this
    exact zero_ne_one this
  refine ⟨(q.Q.submatrix id e).det * (q.Z.submatrix e id).det, mul_ne_zero hQ hZ, ?_⟩
  have h1 := pencil_mul g0 g1 q.Q q.Z
  rw [q.A_eq, q.B_eq] at h1
  rw [← h1]
  have h2 : q.Q.map Polynomial.C * pencil g0 g1 * q.Z.map Polynomial.C =
      (q.Q.submatrix id e).map Polynomial.C * (pencil g0 g1).submatrix e e * (q.Z.submatrix e id).map Polynomial.C := by
    rw [← submatrix_map, ← submatrix_map, submatrix_mul_equiv, submatrix_mul_equiv, submatrix_id_id]
  rw [h2, det_mul, det_mul, det_submatrix_equiv_self]
  have h3 : ∀ M : Matrix (Fin q.ns ⊕ Fin q.nu) (Fin q.ns ⊕ Fin q.nu) ℂ, (M.map Polynomial.C).det = Polynomial.C M.det := fun M => by
    rw [RingHom.map_det]; rfl
  rw [h3, h3, map_mul]
  ring

/-- the pencil of the triangular pair -/
theorem det_tri {ι : Type} [Fintype ι] [DecidableEq ι] {g0 g1 : Matrix ι ι ℂ} (q : SortedQZ g0 g1) :
    (pencil q.A q.B).det = ∏ i, (Polynomial.C (q.A i i) * Polynomial.X + Polynomial.C (q.B i i)) := by
  have h : pencil q.A q.B = fromBlocks (pencil q.A q.B).toBlocks₁₁ (pencil q.A q.B).toBlocks₁₂ 0 (pencil q.A q.B).toBlocks₂₂ := by
    ext1 i j
    rcases i with i | i <;> rcases j with j | j
    · rfl
    · rfl
    · simp [pencil, q.A_low, q.B_low]
    · rfl
  rw [h, det_fromBlocks_zero₂₁, det_of_upperTriangular, det_of_upperTriangular, Fintype.prod_sum_type]
  · congr 1 <;> exact Finset.prod_congr rfl fun i _ => by
      rw [mul_comm (Polynomial.C _)]; rfl
  · intro i j hij
    simp [pencil, toBlocks₂₂, q.A_tri₂ i j hij, q.B_tri₂ i j hij]
  · intro i j hij
    simp [pencil, toBlocks₁₁, q.A_tri₁ i j hij, q.B_tri₁ i j hij]

/-- the number of trailing pairs is a count of roots -/
theorem nu_roots {ι : Type} [Fintype ι] [DecidableEq ι] {g0 g1 : Matrix ι ι ℂ} (q : SortedQZ g0 g1) (h : (pencil g0 g1).det ≠ 0) :
    open Classical in q.nu = (pencil g0 g1).det.roots.countP (fun z => 1 ≤ ‖z‖) + (Fintype.card ι - (pencil g0 g1).det.natDegree) := by
  classical
  obtain ⟨u, hu, he⟩ := det_pencil q
  have hcard : Fintype.card (Fin q.ns ⊕ Fin q.nu) = Fintype.card ι := Matrix.square_of_invertible q.Q q.Qᴴ q.Q_right q.Q_left
  rw [det_tri] at he
  have hp : ∏ i, (Polynomial.C (q.A i i) * Polynomial.X + Polynomial.C (q.B i i)) ≠ 0 := by
    rw [← he]; exact mul_ne_zero (by simpa using hu) h
  have hf : ∀ i, Polynomial.C (q.A i i) * Polynomial.X + Polynomial.C (q.B i i) ≠ 0 := fun i => (Finset.prod_ne_zero_iff.mp hp) i (Finset.mem_univ i)
  have hr : (pencil g0 g1).det.roots = (Finset.univ.val.bind fun i => (Polynomial.C (q.A i i) * Polynomial.X + Polynomial.C (q.B i i)).roots) := by
    rw [← Polynomial.roots_prod _ _ hp, ← he, Polynomial.roots_C_mul _ hu]
  have hd : (pencil g0 g1).det.natDegree = ∑ i, (Polynomial.C (q.A i i) * Polynomial.X + Polynomial.C (q.B i i)).natDegree := by
    rw [← Polynomial.natDegree_prod _ _ fun i _ => hf i, ← he, Polynomial.natDegree_C_mul hu]
  have hroot : ∀ i, ((Polynomial.C (q.A i i) * Polynomial.X + Polynomial.C (q.B i i)).roots.countP fun z => 1 ≤ ‖z‖) +
      1 = (Polynomial.C (q.A i i) * Polynomial.X + Polynomial.C (q.B i i)).natDegree + (if ‖q.B i i‖ < ‖q.A i i‖ then 0 else 1) := by
    intro i
    by_cases ha : q.A i i = 0
    · have hb : ¬ ‖q.B i i‖ < ‖q.A i i‖ := by rw [ha]; simp
      rw [if_neg hb, ha]; simp
    · rw [Polynomial.roots_C_mul_X_add_C _ ha, Polynomial.natDegree_linear ha]
      have hn : 1 ≤ ‖-((q.A i i)⁻¹ * q.B i i)‖ ↔ ¬ ‖q.B i i‖ < ‖q.A i i‖ := by
        rw [norm_neg, norm_mul, norm_inv, not_lt, inv_mul_eq_div, one_le_div (norm_pos_iff.mpr ha)]
      by_cases hb : ‖q.B i i‖ < ‖q.A i i‖
      · rw [if_pos hb, Multiset.countP_eq_zero.mpr]
        intro z hz; rw [Multiset.mem_singleton] at hz; rw [hz, hn]; simpa using hb
      · rw [if_neg hb, Multiset.countP_eq_card.mpr]
        · simp
        · intro z hz; rw [Multiset.mem_singleton] at hz; rw [hz, hn]; exact hb
  have hnu : ∑ i, (if ‖q.B i i‖ < ‖q.A i i‖ then 0 else 1) = q.nu := by
    rw [Fintype.sum_sum_type, Finset.sum_eq_zero fun i _ => if_pos (q.sorted₁ i), Finset.sum_congr rfl fun i _ => if_neg (q.sorted₂ i)]
    simp
  have hsum := Finset.sum_congr (rfl : (Finset.univ : Finset (Fin q.ns ⊕ Fin q.nu)) = Finset.univ) fun i _ => hroot i
  rw [Finset.sum_add_distrib, Finset.sum_add_distrib, hnu, ← hd] at hsum
  have hc : (pencil g0 g1).det.roots.countP (fun z => 1 ≤ ‖z‖) =
      ∑ i, (Polynomial.C (q.A i i) * Polynomial.X + Polynomial.C (q.B i i)).roots.countP fun z => 1 ≤ ‖z‖ := by
    rw [hr]; exact countP_bind' _ _ _
  have hle : (pencil g0 g1).det.natDegree ≤ Fintype.card ι := by
    rw [hd, ← hcard]
    refine (Finset.sum_le_card_nsmul _ _ 1 fun i _ => Polynomial.natDegree_linear_le).trans (by simp)
  rw [← hc] at hsum
  simp only [Finset.sum_const, Finset.card_univ, smul_eq_mul, mul_one, hcard] at hsum
  omega

/-- the determinant of the pencil of the check is the characteristic polynomial -/
theorem det_model (hC : CleanLeads C tol) : (pencil (toC (-setupG0 B C tol)) (toC (setupG1 A C tol))).det = charPoly A B C := by
  have h : pencil (toC (-setupG0 B C tol)) (toC (setupG1 A C tol)) =
      fromBlocks (Matrix.of fun i j => Polynomial.C (A i j : ℂ) + Polynomial.X * Polynomial.C (B i j : ℂ))
        (Matrix.of fun i (j : Lead C tol) => Polynomial.X * Polynomial.C (C i j.1 : ℂ))
        (Matrix.of fun (i : Lead C tol) j => if i.1 = j then -Polynomial.X else 0) 1 := by
    ext1 i j
    rcases i with i | i <;> rcases j with j | j
    · simp [pencil, toC, setupG0, setupG1, eqsAndLeads, add_comm]
    · simp [pencil, toC, setupG0, setupG1, eqsAndLeads]
    · by_cases hij : i.1 = j <;> simp [pencil, toC, setupG0, setupG1, eqsAndLeads, hij, one_apply]
    · by_cases hij : i = j
      · subst hij; simp [pencil, toC, setupG0, setupG1, eqsAndLeads]
      · have : i.1 ≠ j.1 := fun h => hij (Subtype.ext h)
        simp [pencil, toC, setupG0, setupG1, eqsAndLeads, one_apply, hij, this]
  rw [h, det_fromBlocks_one₂₂, charPoly]
  congr 1
  ext1 i j
  rw [Matrix.sub_apply, mul_apply, of_apply, of_apply]
  have hs : ∑ l : Lead C tol, (Polynomial.X * Polynomial.C (C i l.1 : ℂ)) * (if l.1 = j then -Polynomial.X else 0) =
      -(Polynomial.X ^ 2 * Polynomial.C (C i j : ℂ)) := by
    by_cases hj : tol < ∑ i, |C i j|
    · rw [Finset.sum_eq_single (⟨j, hj⟩ : Lead C tol)]
      · rw [if_pos rfl]; ring
      · intro b _ hb
        rw [if_neg fun h => hb (Subtype.ext h), mul_zero]
      · intro h; exact absurd (Finset.mem_univ _) h
    · rw [hC j (not_lt.mp hj) i, Finset.sum_eq_zero]
      · simp
      · intro l _
        rw [if_neg, mul_zero]
        rintro h; exact hj (h ▸ l.2)
  simp only [of_apply]
  rw [hs]; ring

theorem outside_eq (vals : List ℂ) : bkUnstable vals = outsideUnitCircle vals := by
  classical
  have hn : ∀ z : ℂ, Real.sqrt (z.re ^ 2 + z.im ^ 2) = ‖z‖ := fun z => by
    rw [Complex.norm_def, Complex.normSq_apply]; congr 1; ring
  rw [bkUnstable, outsideUnitCircle, List.countP_eq_length_filter]
  simp only [hn]

/-- the decomposition for the negated matrix -/
def flip {ι : Type} [Fintype ι] [DecidableEq ι] {g0 g0' g1 : Matrix ι ι ℂ} (hg : g0' = -g0) (q : SortedQZ g0 g1) : SortedQZ g0' g1 where
  ns := q.ns
  nu := q.nu
  Q := q.Q
  Z := q.Z
  A := -q.A
  B := q.B
  Q_right := q.Q_right
  Q_left := q.Q_left
  Z_right := q.Z_right
  Z_left := q.Z_left
  A_eq := by rw [hg, Matrix.mul_neg, Matrix.neg_mul, q.A_eq]
  B_eq := q.B_eq
  A_low i j := by simp [q.A_low]
  A_tri₁ i j h := by simp [q.A_tri₁ i j h]
  A_tri₂ i j h := by simp [q.A_tri₂ i j h]
  B_low := q.B_low
  B_tri₁ := q.B_tri₁
  B_tri₂ := q.B_tri₂
  sorted₁ i := by simpa using q.sorted₁ i
  sorted₂ i := by simpa using q.sorted₂ i

theorem det_ne_zero {ι : Type} [Fintype ι] [DecidableEq ι] {g0 g1 : Matrix ι ι ℂ} (q : SortedQZ g0 g1) (h : Gen.NonDeg q) : (pencil g0 g1).det ≠ 0 := by
  obtain ⟨u, hu, he⟩ := det_pencil q
  intro h0
  rw [h0, mul_zero, det_tri] at he
  obtain ⟨i, -, hi⟩ := Finset.prod_eq_zero_iff.mp he.symm
  have h1 : q.A i i = 0 := by have := congrArg (Polynomial.coeff · 1) hi; simpa using this
  have h2 : q.B i i = 0 := by have := congrArg (Polynomial.coeff · 0) hi; simpa using this
  rcases i with i | i
  · have := q.sorted₁ i; rw [h1, h2] at this; exact lt_irrefl _ this
  · exact h i h2

end BKR

variable {n k : ℕ} {A B C : Mat n n} {D : Mat n k} {tol : ℝ}

/-- **C137**: a number is a root of the model exactly when some nonzero vector, growing at that rate, solves the linearised model -/
theorem C137_root (z : ℂ) : (charPoly A B C).IsRoot z ↔
    ∃ v : Fin n → ℂ, v ≠ 0 ∧ ∀ t : ℕ, toC A *ᵥ (z ^ t • v) + toC B *ᵥ (z ^ (t + 1) • v) + toC C *ᵥ (z ^ (t + 2) • v) = 0 := by
  have hev : (charPoly A B C).eval z = (toC A + z • toC B + z ^ 2 • toC C).det := by
    rw [charPoly, ← Polynomial.coe_evalRingHom, RingHom.map_det]
    congr 1
    ext i j
    simp [toC]
    ring
  have hfac : ∀ (v : Fin n → ℂ) (t : ℕ), toC A *ᵥ (z ^ t • v) + toC B *ᵥ (z ^ (t + 1) • v) + toC C *ᵥ (z ^ (t + 2) • v) =
      z ^ t • ((toC A + z • toC B + z ^ 2 • toC C) *ᵥ v) := fun v t => by
    simp only [mulVec_smul, add_mulVec, smul_mulVec, smul_add, smul_smul, pow_succ, mul_assoc, pow_zero, one_mul]
  rw [Polynomial.IsRoot.def, hev, ← Matrix.exists_mulVec_eq_zero_iff]
  refine exists_congr fun v => and_congr_right fun _ => ⟨fun h t => by rw [hfac, h, smul_zero], fun h => ?_⟩
  have := h 0
  rwa [hfac, pow_zero, one_smul] at this

/-- **C137**: what the check counts. Unless every number is a root of the model, and when no root is within the tolerance of the unit circle,
the number of unstable eigenvalues in the message of the check is the number of roots of the model that do not die out, whatever decomposition
LAPACK returns -/
theorem C137_count (h0 : 0 < tol) (hC : CleanLeads C tol) (hp : charPoly A B C ≠ 0)
    (q : SortedQZ (toC (-setupG0 B C tol)) (toC (setupG1 A C tol))) (hs : ∀ p ∈ q.pairs, Separated tol p) :
    bkUnstable (bkEigenvalues q) = explosiveRoots A B C (bkForward C tol) := by
  classical
  have hf : bkForward C tol = Fintype.card (Lead C tol) := by rw [bkForward, ← Fintype.card_subtype]
  rw [C40_unstable_count h0 q hs, BKR.nu_roots q (by rw [BKR.det_model hC]; exact hp), BKR.det_model hC, explosiveRoots, hf, Fintype.card_sum,
    Fintype.card_fin]

/-- **C137**: the verdict: as many explosive roots as variables with a lead -/
theorem C137_verdict (h0 : 0 < tol) (hC : CleanLeads C tol) (hp : charPoly A B C ≠ 0)
    (q : SortedQZ (toC (-setupG0 B C tol)) (toC (setupG1 A C tol))) (hs : ∀ p ∈ q.pairs, Separated tol p) :
    ∃ msg nU nF, checkBK (bkEigenvalues q) (bkForward C tol) false .bool =
      .ok (.flag (decide (explosiveRoots A B C (bkForward C tol) = bkForward C tol))) msg nU nF := by
  have h := ((C40_report (bkEigenvalues q) (bkForward C tol) false .bool).2 (by decide)).2 (.inr rfl)
  have hu : outsideUnitCircle (bkEigenvalues q) = explosiveRoots A B C (bkForward C tol) := by
    rw [← C137_count h0 hC hp q hs, BKR.outside_eq]
  exact ⟨_, _, _, by rw [← hu]; exact h.1 rfl⟩

/-- **C137**: whenever gensys returns a solution, not every number is a root, and there are exactly as many explosive roots as variables with a
lead -/
theorem C137_solved (h0 : 0 < tol) (hC : CleanLeads C tol) (o : GensysOracle A B C tol) {T : Mat n n} {R : Mat n k} {f : Bool}
    (h : modelSolveGensys D o f = .solved T R) :
    charPoly A B C ≠ 0 ∧ explosiveRoots A B C (bkForward C tol) = bkForward C tol := by
  classical
  have hf : bkForward C tol = Fintype.card (Lead C tol) := by rw [bkForward, ← Fintype.card_subtype]
  obtain ⟨hz, -, -, -, -⟩ := Gen.solved_data h
  have hnd := Gen.nd hz h0
  have hg : toC (-setupG0 B C tol) = -toC (setupG0 B C tol) := by ext i j; simp [toC]
  let q := BKR.flip hg o.qz
  have hp : charPoly A B C ≠ 0 := by
    rw [← BKR.det_model hC]
    exact BKR.det_ne_zero q (Gen.nondeg_flip hg o.qz q hnd)
  refine ⟨hp, ?_⟩
  have h1 := BKR.nu_roots q (by rw [BKR.det_model hC]; exact hp)
  rw [BKR.det_model hC, Fintype.card_sum, Fintype.card_fin] at h1
  rw [explosiveRoots, hf, ← h1]
  exact Gen.nu_card h0 o h

namespace BKR

/-- real roots have real vectors -/
theorem real_root (A B C : Mat n n) (z : ℝ) : (charPoly A B C).IsRoot (z : ℂ) ↔ ∃ v : Fin n → ℝ, v ≠ 0 ∧ (A + z • B + z ^ 2 • C) *ᵥ v = 0 := by
  have hev : (charPoly A B C).eval (z : ℂ) = ((A + z • B + z ^ 2 • C).det : ℝ) := by
    rw [charPoly, ← Polynomial.coe_evalRingHom, RingHom.map_det]
    have : ((A + z • B + z ^ 2 • C).det : ℂ) = Complex.ofRealHom (A + z • B + z ^ 2 • C).det := rfl
    rw [this, RingHom.map_det]
    congr 1
    ext i j
    simp
    ring
  rw [Polynomial.IsRoot.def, hev, Complex.ofReal_eq_zero, ← Matrix.exists_mulVec_eq_zero_iff]

end BKR

/-- **C137**: a number is a root of the model exactly when its equations hold to first order along some nonzero deviation from the steady state
(in percent for the log-linearised variables) that grows at that rate without shocks -/
theorem C137_equations (vars : List TSym) (eqs : List SExpr) (shocks loglin : List TSym) (par : Str → ℝ) (ss : List (Str × ℝ))
    (hn : Named vars shocks) (hsh : Shallow vars shocks eqs) (hss : ∀ v ∈ vars, (dget (normalizeConditions ss) v.base).isSome)
    (hsm : ∀ e ∈ eqs, e.Smooth (steadyPath par (ssOf ss) shocks) 0) (hsq : eqs.length = vars.length) (z : ℝ) (hz : z ≠ 0) (last : Int) (hlast : 2 ≤ last) :
    ∃ m, linearMats vars eqs shocks loglin par ss = some m ∧ ((charPoly m.A m.B m.C).IsRoot (z : ℂ) ↔
      ∃ v : Fin vars.length → ℝ, v ≠ 0 ∧ ∀ F : ℝ → RealPath, (∀ h, Deviates vars shocks loglin par ss (fun u => z ^ u • v) 0 last h (F h)) →
        ∀ q ∈ eqs, ∀ t : Int, t + 1 ≤ last → HasDerivAt (fun h => q.val (F h) t) 0 0) := by
  obtain ⟨F0, hF0⟩ := C130_paths_exist vars shocks loglin hn par ss (fun _ => 0) 0 last
  obtain ⟨m, hm, -⟩ := C130_first_order vars eqs shocks loglin par ss hn hsh hss hsm _ _ last F0 hF0
  have hder : ∀ (v : Fin vars.length → ℝ) (F : ℝ → RealPath), (∀ h, Deviates vars shocks loglin par ss (fun u => z ^ u • v) 0 last h (F h)) →
      ∀ (i : Fin vars.length) (q : SExpr), eqs[(i : ℕ)]? = some q → ∀ t : Int, t + 1 ≤ last →
      HasDerivAt (fun h => q.val (F h) t) (z ^ (t - 1) * ((m.A + z • m.B + z ^ 2 • m.C) *ᵥ v) i) 0 := by
    intro v F hF i q hq t ht
    obtain ⟨m', hm', h⟩ := C130_first_order vars eqs shocks loglin par ss hn hsh hss hsm _ _ last F hF
    obtain rfl : m = m' := by simpa [hm] using hm'
    have := h i q hq t ht
    convert this using 1
    have e1 : z ^ t = z ^ (t - 1) * z := by rw [← zpow_add_one₀ hz]; congr 1; omega
    have e2 : z ^ (t + 1) = z ^ (t - 1) * z ^ 2 := by rw [← zpow_natCast z 2, ← zpow_add₀ hz]; congr 1; push_cast; omega
    simp only [mulVec_smul, add_mulVec, smul_mulVec, Pi.add_apply, Pi.smul_apply, smul_eq_mul, Pi.zero_apply, e1, e2, mulVec_zero]
    ring
  refine ⟨m, hm, ?_⟩
  rw [BKR.real_root]
  refine exists_congr fun v => and_congr_right fun _ => ⟨fun h F hF q hq t ht => ?_, fun h => ?_⟩
  · obtain ⟨i, hi, hqi⟩ := List.getElem_of_mem hq
    have := hder v F hF ⟨i, by omega⟩ q (by simpa [List.getElem?_eq_getElem hi] using hqi) t ht
    rwa [h, Pi.zero_apply, mul_zero] at this
  · obtain ⟨F, hF⟩ := C130_paths_exist vars shocks loglin hn par ss (fun u => z ^ u • v) 0 last
    funext i
    have hi : (i : ℕ) < eqs.length := by rw [hsq]; exact i.2
    have h1 := hder v F hF i eqs[(i : ℕ)] (by simp [hi]) 1 (by omega)
    have h2 := h F hF eqs[(i : ℕ)] (List.getElem_mem _) 1 (by omega)
    simpa using h1.unique h2

/-- **C137, from the file**: for every real root of the matrices a file leads to there is a nonzero deviation growing at that rate along which
every equation of the file, as written, holds up to something smaller than any multiple of the deviation's scale -/
theorem C137_written (text : List Char) (ts : List Tok) (f : Gcn.GFile) (P : Primitives) (hs : SpellsToks text ts) (hf : Gcn.IsFile ts f)
    (hl : Gcn.LoadGcn text P) (hd : f.DistinctNames) (loglin : List TSym) (par : Str → ℝ) (ss : List (Str × ℝ))
    (hn : Named P.variables P.shocks) (hsh : Shallow P.variables P.shocks P.equations)
    (hsm : ∀ e ∈ P.equations, e.Smooth (steadyPath par (ssOf ss) P.shocks) 0)
    (hss : ∀ v ∈ P.variables, (dget (normalizeConditions ss) v.base).isSome) (hsq : P.equations.length = P.variables.length)
    (hzero : ∀ e ∈ P.equations, e.val (steadyPath par (ssOf ss) P.shocks) 0 = 0) (z : ℝ) (hz : z ≠ 0) (last : Int) (hlast : 2 ≤ last)
    (m : LinMats P.variables.length P.shocks.length) (hm : linearMats P.variables P.equations P.shocks loglin par ss = some m)
    (hroot : (charPoly m.A m.B m.C).IsRoot (z : ℂ)) :
    ∃ v : Fin P.variables.length → ℝ, v ≠ 0 ∧ ∀ F : ℝ → RealPath, (∀ h, f.DefinitionsHold (F h)) → (∀ h, f.ShiftsHold (F h)) →
      (∀ h, Deviates P.variables P.shocks loglin par ss (fun u => z ^ u • v) 0 last h (F h)) →
      ∀ b, f.IsModelBlock b → ∀ e ∈ b.stated, ∀ t : Int, t + 1 ≤ last → (fun h => Gcn.writtenGap f e (F h) t) =o[nhds 0] fun h : ℝ => h := by
  obtain ⟨m', hm', hiff⟩ := C137_equations P.variables P.equations P.shocks loglin par ss hn hsh hss hsm hsq z hz last hlast
  obtain rfl : m = m' := by simpa [hm] using hm'
  obtain ⟨v, hv, hall⟩ := hiff.1 hroot
  refine ⟨v, hv, fun F hdef hshift hF b hb e he t ht => ?_⟩
  obtain ⟨q, hqP, hval⟩ := Rsp.written_gaps hs hf hl hd b hb e he
  have hder := hall F hF q hqP t ht
  have h0 : q.val (F 0) t = 0 := by
    have hz := hzero q hqP
    rw [← Rsp.eval_symAt] at hz ⊢
    refine Eq.trans ?_ hz
    exact OEq.eval_congr _ _ _ fun x hx => Rsp.at_zero hsh hn (hF 0) hqP hx ht 0
  have key : (fun h => q.val (F h) t) =o[nhds 0] fun h : ℝ => h := by
    have := hasDerivAt_iff_isLittleO.1 hder
    simpa [h0] using this
  have : (fun h => Gcn.writtenGap f e (F h) t) = fun h => - q.val (F h) t := by
    funext h
    rw [hval (F h) (hshift h) (hdef h) t, neg_neg]
  rw [this]
  exact key.neg_left

namespace BKR

/-- a model with the equation `0 = 0` -/
noncomputable def zA : Mat 1 1 := 0
theorem zA0 (i j) : zA i j = 0 := rfl

noncomputable instance : IsEmpty (Lead zA GenEx.eTol) := ⟨fun j => by
  have := j.2
  simp [zA, GenEx.eTol] at this
  norm_num at this⟩

noncomputable def zQ : Matrix (Fin 0 ⊕ Fin 1) (Fin 1 ⊕ Lead zA GenEx.eTol) ℂ := fun _ i => match i with | .inl _ => 1 | .inr _ => 0
noncomputable def zZ : Matrix (Fin 1 ⊕ Lead zA GenEx.eTol) (Fin 0 ⊕ Fin 1) ℂ := fun i _ => match i with | .inl _ => 1 | .inr _ => 0

/-- its decomposition -/
noncomputable def zQZ : SortedQZ (toC (-setupG0 zA zA GenEx.eTol)) (toC (setupG1 zA zA GenEx.eTol)) where
  ns := 0
  nu := 1
  Q := zQ
  Z := zZ
  A := 0
  B := 0
  Q_right := by
    ext (i | i) (j | j)
    · exact i.elim0
    · exact i.elim0
    · exact j.elim0
    · rw [Subsingleton.elim i j]; simp [mul_apply, Fintype.sum_sum_type, conjTranspose_apply, zQ, zZ]
  Q_left := by
    ext (i | i) (j | j)
    · rw [Subsingleton.elim i j]; simp [mul_apply, Fintype.sum_sum_type, conjTranspose_apply, zQ, zZ]
    · exact isEmptyElim j
    · exact isEmptyElim i
    · exact isEmptyElim i
  Z_right := by
    ext (i | i) (j | j)
    · rw [Subsingleton.elim i j]; simp [mul_apply, Fintype.sum_sum_type, conjTranspose_apply, zQ, zZ]
    · exact isEmptyElim j
    · exact isEmptyElim i
    · exact isEmptyElim i
  Z_left := by
    ext (i | i) (j | j)
    · exact i.elim0
    · exact i.elim0
    · exact j.elim0
    · rw [Subsingleton.elim i j]; simp [mul_apply, Fintype.sum_sum_type, conjTranspose_apply, zQ, zZ]
  A_eq := by
    have : toC (-setupG0 zA zA GenEx.eTol) = 0 := by
      ext (i | i) (j | j)
      · change ((-(-(zA i j)) : ℝ) : ℂ) = 0
        rw [zA0]; simp
      · exact isEmptyElim j
      · exact isEmptyElim i
      · exact isEmptyElim i
    rw [this, Matrix.mul_zero, Matrix.zero_mul]
  B_eq := by
    have : toC (setupG1 zA zA GenEx.eTol) = 0 := by
      ext (i | i) (j | j)
      · change ((zA i j : ℝ) : ℂ) = 0
        rw [zA0]; simp
      · exact isEmptyElim j
      · exact isEmptyElim i
      · exact isEmptyElim i
    rw [this, Matrix.mul_zero, Matrix.zero_mul]
  A_low i j := rfl
  A_tri₁ i j h := i.elim0
  A_tri₂ i j h := rfl
  B_low i j := rfl
  B_tri₁ i j h := i.elim0
  B_tri₂ i j h := rfl
  sorted₁ i := i.elim0
  sorted₂ i := by simp

end BKR

/-- **C137, where the check is silent**: a model for which every number is a root (here one variable and the equation `0 = 0`) is reported as
satisfying the Blanchard-Kahn condition: the pair `(0, 0)` counts as a stable root -/
theorem C137_singular_violated : ∃ (A B C : Mat 1 1) (tol : ℝ) (q : SortedQZ (toC (-setupG0 B C tol)) (toC (setupG1 A C tol))),
    0 < tol ∧ CleanLeads C tol ∧ charPoly A B C = 0 ∧ (∀ z : ℂ, (charPoly A B C).IsRoot z) ∧
    checkBK (bkEigenvalues q) (bkForward C tol) true .bool = .ok (.flag true) .satisfied 0 0 := by
  classical
  have hp : charPoly BKR.zA BKR.zA BKR.zA = 0 := by
    rw [charPoly, det_fin_one]; simp [BKR.zA]
  have hf : bkForward BKR.zA GenEx.eTol = 0 := by
    rw [bkForward, ← Fintype.card_subtype]
    exact Fintype.card_eq_zero (α := Lead BKR.zA GenEx.eTol)
  refine ⟨BKR.zA, BKR.zA, BKR.zA, GenEx.eTol, BKR.zQZ, by norm_num [GenEx.eTol], fun j _ i => rfl, hp, fun z => by rw [hp]; simp, ?_⟩
  have hu : bkUnstable (bkEigenvalues BKR.zQZ) = 0 := by
    rw [bkUnstable, List.countP_eq_zero]
    intro z hz
    rw [bkEigenvalues, List.mem_map] at hz
    obtain ⟨p, hp, rfl⟩ := hz
    have : p.2 = 0 := by
      rw [SortedQZ.pairs, List.mem_append, List.mem_map, List.mem_map] at hp
      rcases hp with ⟨i, _, rfl⟩ | ⟨i, _, rfl⟩ <;> rfl
    simp [this]
  rw [checkBK, if_neg (by decide)]
  simp only [hu, hf]
  simp

namespace BKR
open GenEx

/-- the hypotheses are met by a model with two variables, one of them with a lead; it has one explosive root -/
example : charPoly bA bB bC ≠ 0 ∧ explosiveRoots bA bB bC 1 = 1 := by
  have hp : charPoly bA bB bC ≠ 0 := by
    intro h
    have := congrArg (Polynomial.eval 1) h
    rw [charPoly, det_fin_two] at this
    simp [bA, bB, bC] at this
    norm_num at this
  have hC : CleanLeads bC eTol := by
    intro j hj i
    fin_cases j
    · fin_cases i <;> simp [bC]
    · exact absurd hj (by simp [bC, eTol]; norm_num)
  have h := C137_count (by norm_num [eTol]) hC hp bQZ bSep
  rw [C40_unstable_count (by norm_num [eTol]) bQZ bSep, bFwd] at h
  exact ⟨hp, h.symm⟩

/-- so is that of the model that gensys solves in `GensysExample.lean` -/
example : charPoly eA eB eC ≠ 0 := by
  intro h0
  have := congrArg (Polynomial.eval 0) h0
  rw [charPoly, det_fin_one] at this
  simp [eA] at this

end BKR

end GE
