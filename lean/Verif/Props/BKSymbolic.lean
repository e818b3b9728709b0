import Verif.Props.RealEig
import Verif.Props.BKCheck
import Mathlib.Topology.Sequences
import Mathlib.Topology.MetricSpace.ProperSpace
import Mathlib.LinearAlgebra.Matrix.Block
/-! # C98: the symbolic Blanchard-Kahn check -/

open Matrix Polynomial Filter Topology

namespace GE

/-- `lead` lists the forward-looking variables, each once -/
structure ListsLeads {n k : ℕ} (C : Mat n n) (tol : ℝ) (lead : Fin k → Fin n) : Prop where
  inj : Function.Injective lead
  mem : ∀ j, (∃ i, lead i = j) ↔ tol < ∑ i, |C i j|

/-- the system in Sims' form, `Γ₀ y' + Γ₁ y = 0`, regularised: `z` is a generalised eigenvalue of it with eigenvector `(x, y)` -/
def SimsEigen {n k : ℕ} (A B C : Mat n n) (lead : Fin k → Fin n) (eps : ℝ) (z : ℂ) (x : Fin n → ℂ) (y : Fin k → ℂ) : Prop :=
  (∀ r, ∑ c, (A r c : ℂ) * x c = z * (-(∑ c, (B r c : ℂ) * x c) - ∑ j, (C r (lead j) : ℂ) * y j + (eps : ℂ) * x r)) ∧
  ∀ j, y j = z * (x (lead j) + (eps : ℂ) * y j)

namespace REig

variable {n k m : ℕ}

/-- number of roots with a property of a product of linear factors -/
theorem count_roots {ι : Type} [Fintype ι] (a b : ι → ℂ) (hab : ∀ i, a i ≠ 0 ∨ b i ≠ 0) (P : ℂ → Prop) [DecidablePred P] [DecidablePred fun i => a i ≠ 0 ∧ P (b i / a i)] :
    (∏ i, (C (a i) * X - C (b i)) : ℂ[X]).roots.countP P = (Finset.univ.filter fun i => a i ≠ 0 ∧ P (b i / a i)).card := by
  have hne : ∀ i, (C (a i) * X - C (b i) : ℂ[X]) ≠ 0 := by
    intro i h
    rcases hab i with h1 | h1
    · apply h1
      have := congrArg (fun p => coeff p 1) h
      simpa using this
    · apply h1
      have := congrArg (fun p => coeff p 0) h
      simpa using this
  have hroots : (∏ i, (C (a i) * X - C (b i)) : ℂ[X]).roots = (Finset.univ.val).bind fun i => if a i = 0 then 0 else {b i / a i} := by
    rw [roots_prod _ _ (Finset.prod_ne_zero_iff.2 fun i _ => hne i)]
    refine Multiset.bind_congr fun i _ => ?_
    split_ifs with h
    · rw [h]
      simp only [C_0, zero_mul, zero_sub, roots_neg, roots_C]
    · have : (C (a i) * X - C (b i) : ℂ[X]) = C (a i) * (X - C (b i / a i)) := by
        rw [mul_sub, ← C_mul, mul_div_cancel₀ _ h]
      rw [this, roots_C_mul _ h, roots_X_sub_C]
  rw [hroots, Multiset.countP_eq_card_filter]
  rw [Multiset.filter_bind]
  rw [Multiset.card_bind, Finset.card_filter]
  refine congrArg Multiset.sum (Multiset.map_congr rfl fun i _ => ?_)
  simp only [Function.comp]
  by_cases h : a i = 0
  · simp [h]
  · by_cases hp : P (b i / a i)
    · simp [h, hp, Multiset.filter_singleton]
    · simp [h, hp, Multiset.filter_singleton]

theorem tri_det {ι : Type} [Fintype ι] [DecidableEq ι] {g0 g1 : Matrix ι ι ℂ} (q : SortedQZ g0 g1) (z w : ℂ) :
    (z • q.A + w • q.B).det = ∏ i, (z * q.A i i + w * q.B i i) := by
  rw [Fintype.prod_sum_type]
  have hb : z • q.A + w • q.B = fromBlocks (z • Gen.A11 q + w • Gen.B11 q) (z • q.A.toBlocks₁₂ + w • q.B.toBlocks₁₂) 0 (z • Gen.A22 q + w • Gen.B22 q) := by
    ext (i | i) (j | j) <;> simp [Gen.A11, Gen.B11, Gen.A22, Gen.B22, toBlocks₁₁, toBlocks₁₂, toBlocks₂₂, q.A_low, q.B_low]
  rw [hb, det_fromBlocks_zero₂₁, det_of_isUpperTriangular (M := z • Gen.A11 q + w • Gen.B11 q), det_of_isUpperTriangular (M := z • Gen.A22 q + w • Gen.B22 q)]
  · rfl
  · intro i j hij
    have e1 := q.A_tri₂ i j hij
    have e2 := q.B_tri₂ i j hij
    simp [Gen.A22, Gen.B22, toBlocks₂₂, e1, e2]
  · intro i j hij
    have e1 := q.A_tri₁ i j hij
    have e2 := q.B_tri₁ i j hij
    simp [Gen.A11, Gen.B11, toBlocks₁₁, e1, e2]

theorem qz_card {ι : Type} [Fintype ι] [DecidableEq ι] {g0 g1 : Matrix ι ι ℂ} (q : SortedQZ g0 g1) : Fintype.card (Fin q.ns ⊕ Fin q.nu) = Fintype.card ι := by
  apply Matrix.square_of_invertible q.Q q.Qᴴ q.Q_right q.Q_left

/-- the determinant of the pencil is, up to a non-zero constant, the product of its QZ factors -/
theorem qz_pencil {ι : Type} [Fintype ι] [DecidableEq ι] {g0 g1 : Matrix ι ι ℂ} (q : SortedQZ g0 g1) :
    ∃ c : ℂ, c ≠ 0 ∧ ∀ z w : ℂ, c * (z • g0 + w • g1).det = ∏ i, (z * q.A i i + w * q.B i i) := by
  obtain ⟨e⟩ := Fintype.card_eq.1 (qz_card q)
  set Q' : Matrix ι ι ℂ := q.Q.submatrix e.symm id
  set Z' : Matrix ι ι ℂ := q.Z.submatrix id e.symm
  have hQ : Q' * q.Qᴴ.submatrix id e.symm = 1 := by
    have := congrArg (fun X => X.submatrix e.symm e.symm) q.Q_right
    simp only [Matrix.submatrix_one_equiv] at this
    rw [← this, ← Matrix.submatrix_mul_equiv _ _ _ (Equiv.refl ι) _]
    rfl
  have hZ : q.Zᴴ.submatrix e.symm id * Z' = 1 := by
    have := congrArg (fun X => X.submatrix e.symm e.symm) q.Z_left
    simp only [Matrix.submatrix_one_equiv] at this
    rw [← this, ← Matrix.submatrix_mul_equiv _ _ _ (Equiv.refl ι) _]
    rfl
  refine ⟨Q'.det * Z'.det, mul_ne_zero ?_ ?_, fun z w => ?_⟩
  · intro h
    have := congrArg Matrix.det hQ
    rw [Matrix.det_mul, h, zero_mul, Matrix.det_one] at this
    exact zero_ne_one this
  · intro h
    have := congrArg Matrix.det hZ
    rw [Matrix.det_mul, h, mul_zero, Matrix.det_one] at this
    exact zero_ne_one this
  · rw [← tri_det]
    have h1 : z • q.A + w • q.B = q.Q * (z • g0 + w • g1) * q.Z := by
      rw [Matrix.mul_add, Matrix.add_mul, ← q.A_eq, ← q.B_eq]
      simp only [Matrix.mul_smul, Matrix.smul_mul]
    have h2 : (z • q.A + w • q.B).submatrix e.symm e.symm = Q' * (z • g0 + w • g1) * Z' := by
      rw [h1, ← Matrix.submatrix_mul_equiv _ _ _ (Equiv.refl ι) _, ← Matrix.submatrix_mul_equiv _ _ _ (Equiv.refl ι) _]
      rfl
    rw [← Matrix.det_submatrix_equiv_self e.symm (z • q.A + w • q.B), h2, Matrix.det_mul, Matrix.det_mul]
    ring

/-- the determinant of the regularised pencil is the product over the reported eigenvalues -/
theorem sym_pencil {A B C : Mat n n} {lead : Fin k → Fin n} {eps : ℝ} (o : EigOracle (bkMatrixPt A B C lead eps))
    (hd : (-gamma0Sel B C lead + eps • (1 : Mat (n + k) (n + k))).det ≠ 0) (z w : ℂ) :
    (z • toC (-gamma0Sel B C lead + eps • (1 : Mat (n + k) (n + k))) - w • toC (gamma1Sel A lead)).det =
      (toC (-gamma0Sel B C lead + eps • (1 : Mat (n + k) (n + k)))).det * ∏ i, (z - w * o.reported i) := by
  set G := -gamma0Sel B C lead + eps • (1 : Mat (n + k) (n + k)) with hG
  have hGM : toC G * toC (bkMatrixPt A B C lead eps) = toC (gamma1Sel A lead) := by
    have h1 : G * bkMatrixPt A B C lead eps = gamma1Sel A lead := by
      unfold bkMatrixPt
      rw [← hG, ← Matrix.mul_assoc, Matrix.mul_nonsing_inv _ (isUnit_iff_ne_zero.2 hd), Matrix.one_mul]
    have h2 := congrArg toC h1
    rw [← h2]
    exact (Matrix.map_mul (f := Complex.ofRealHom)).symm
  have e1 : z • toC G - w • toC (gamma1Sel A lead) = toC G * (z • 1 - w • toC (bkMatrixPt A B C lead eps)) := by
    rw [Matrix.mul_sub, Matrix.mul_smul, Matrix.mul_smul, Matrix.mul_one, hGM]
  rw [e1, Matrix.det_mul]
  congr 1
  by_cases hw : w = 0
  · subst hw
    simp [Matrix.det_smul]
  · have e2 : z • (1 : Matrix (Fin (n + k)) (Fin (n + k)) ℂ) - w • toC (bkMatrixPt A B C lead eps) =
        w • (scalar (Fin (n + k)) (z / w) - toC (bkMatrixPt A B C lead eps)) := by
      rw [smul_sub]
      congr 1
      ext a b
      by_cases h : a = b
      · subst h; simp [mul_div_cancel₀ _ hw]
      · simp [h]
    have hpow : w ^ (n + k) = ∏ _i : Fin (n + k), w := by simp
    rw [e2, Matrix.det_smul, ← Matrix.eval_charpoly, (C98_values o).1, eval_prod, Fintype.card_fin, hpow, ← Finset.prod_mul_distrib]
    refine Finset.prod_congr rfl fun i _ => ?_
    rw [eval_sub, eval_X, eval_C, mul_sub, mul_div_cancel₀ _ hw]

/-- the index set of gensys and that of the symbolic check -/
noncomputable def leadEquiv {C : Mat n n} {tol : ℝ} {lead : Fin k → Fin n} (h : ListsLeads C tol lead) : Fin (n + k) ≃ Fin n ⊕ Lead C tol :=
  finSumFinEquiv.symm.trans (Equiv.sumCongr (Equiv.refl _) (Equiv.ofBijective (fun i => (⟨lead i, (h.mem _).1 ⟨i, rfl⟩⟩ : Lead C tol))
    ⟨fun _ _ hij => h.inj (congrArg Subtype.val hij), fun j => by
      obtain ⟨i, hi⟩ := (h.mem j.1).2 j.2
      exact ⟨i, Subtype.ext hi⟩⟩))

theorem sel_idx {C : Mat n n} {tol : ℝ} {lead : Fin k → Fin n} (h : ListsLeads C tol lead) (i : Fin (n + k)) :
    eqsAndLeads C tol (leadEquiv h i) = finSumFinEquiv.symm (eqsAndLeadsPt lead i) := by
  refine Fin.addCases (fun a => ?_) (fun b => ?_) i
  · simp [leadEquiv, eqsAndLeads, eqsAndLeadsPt]
  · simp only [leadEquiv, eqsAndLeads, eqsAndLeadsPt, Fin.append_right, finSumFinEquiv_symm_apply_natAdd, Equiv.trans_apply, Equiv.sumCongr_apply, Sum.map_inr,
      Equiv.ofBijective_apply]
    rfl

theorem gamma0_setup (B : Mat n n) {C : Mat n n} {tol : ℝ} {lead : Fin k → Fin n} (h : ListsLeads C tol lead) :
    gamma0Sel B C lead = (-setupG0 B C tol).submatrix (leadEquiv h) (leadEquiv h) := by
  ext i j
  simp only [gamma0Sel, setupG0, neg_neg, Matrix.submatrix_apply, sel_idx]

theorem gamma1_setup (A : Mat n n) {C : Mat n n} {tol : ℝ} {lead : Fin k → Fin n} (h : ListsLeads C tol lead) :
    gamma1Sel A lead = (setupG1 A C tol).submatrix (leadEquiv h) (leadEquiv h) := by
  ext i j
  simp only [gamma1Sel, setupG1, Matrix.submatrix_apply, sel_idx]

section entries
variable (A B C : Mat n n) (lead : Fin k → Fin n)

theorem g0_ll (r c : Fin n) : gamma0Sel B C lead (Fin.castAdd k r) (Fin.castAdd k c) = B r c := by
  simp only [gamma0Sel, submatrix_apply, eqsAndLeadsPt, Fin.append_left, finSumFinEquiv_symm_apply_castAdd, fromBlocks_apply₁₁]

theorem g0_lr (r : Fin n) (j : Fin k) : gamma0Sel B C lead (Fin.castAdd k r) (Fin.natAdd n j) = C r (lead j) := by
  simp only [gamma0Sel, submatrix_apply, eqsAndLeadsPt, Fin.append_left, Fin.append_right, finSumFinEquiv_symm_apply_castAdd, finSumFinEquiv_symm_apply_natAdd, fromBlocks_apply₁₂]

theorem g0_rl (j : Fin k) (c : Fin n) : gamma0Sel B C lead (Fin.natAdd n j) (Fin.castAdd k c) = -(1 : Mat n n) (lead j) c := by
  simp only [gamma0Sel, submatrix_apply, eqsAndLeadsPt, Fin.append_left, Fin.append_right, finSumFinEquiv_symm_apply_castAdd, finSumFinEquiv_symm_apply_natAdd, fromBlocks_apply₂₁,
    Matrix.neg_apply]

theorem g0_rr (j i : Fin k) : gamma0Sel B C lead (Fin.natAdd n j) (Fin.natAdd n i) = 0 := by
  simp only [gamma0Sel, submatrix_apply, eqsAndLeadsPt, Fin.append_right, finSumFinEquiv_symm_apply_natAdd, fromBlocks_apply₂₂, Matrix.zero_apply]

theorem g1_ll (r c : Fin n) : gamma1Sel A lead (Fin.castAdd k r) (Fin.castAdd k c) = A r c := by
  simp only [gamma1Sel, submatrix_apply, eqsAndLeadsPt, Fin.append_left, finSumFinEquiv_symm_apply_castAdd, fromBlocks_apply₁₁]

theorem g1_lr (r : Fin n) (j : Fin k) : gamma1Sel A lead (Fin.castAdd k r) (Fin.natAdd n j) = 0 := by
  simp only [gamma1Sel, submatrix_apply, eqsAndLeadsPt, Fin.append_left, Fin.append_right, finSumFinEquiv_symm_apply_castAdd, finSumFinEquiv_symm_apply_natAdd, fromBlocks_apply₁₂,
    Matrix.zero_apply]

theorem g1_rl (j : Fin k) (c : Fin n) : gamma1Sel A lead (Fin.natAdd n j) (Fin.castAdd k c) = 0 := by
  simp only [gamma1Sel, submatrix_apply, eqsAndLeadsPt, Fin.append_left, Fin.append_right, finSumFinEquiv_symm_apply_castAdd, finSumFinEquiv_symm_apply_natAdd, fromBlocks_apply₂₁,
    Matrix.zero_apply]

theorem g1_rr (j i : Fin k) : gamma1Sel A lead (Fin.natAdd n j) (Fin.natAdd n i) = (1 : Mat n n) (lead j) (lead i) := by
  simp only [gamma1Sel, submatrix_apply, eqsAndLeadsPt, Fin.append_right, finSumFinEquiv_symm_apply_natAdd, fromBlocks_apply₂₂]

variable (eps : ℝ) (v : Fin (n + k) → ℂ)

theorem split_mulVec (M : Mat (n + k) (n + k)) (i : Fin (n + k)) :
    (toC M *ᵥ v) i = ∑ c, (M i (Fin.castAdd k c) : ℂ) * v (Fin.castAdd k c) + ∑ j, (M i (Fin.natAdd n j) : ℂ) * v (Fin.natAdd n j) := by
  simp only [Matrix.mulVec, dotProduct, Fin.sum_univ_add, toC, Matrix.map_apply]

theorem reg_mulVec (M : Mat (n + k) (n + k)) : toC (-M + eps • (1 : Mat (n + k) (n + k))) *ᵥ v = -(toC M *ᵥ v) + (eps : ℂ) • v := by
  have : toC (-M + eps • (1 : Mat (n + k) (n + k))) = -toC M + (eps : ℂ) • (1 : Matrix (Fin (n + k)) (Fin (n + k)) ℂ) := by
    ext a b
    by_cases h : a = b
    · subst h; simp [toC]
    · simp [toC, h]
  rw [this, Matrix.add_mulVec, Matrix.neg_mulVec, Matrix.smul_mulVec, Matrix.one_mulVec]

end entries

theorem pencil_vec {A B C : Mat n n} {lead : Fin k → Fin n} (hinj : Function.Injective lead) (eps : ℝ) (z : ℂ) (v : Fin (n + k) → ℂ) :
    (z • toC (-gamma0Sel B C lead + eps • (1 : Mat (n + k) (n + k))) - (1 : ℂ) • toC (gamma1Sel A lead)) *ᵥ v = 0 ↔
      SimsEigen A B C lead eps z (fun i => v (Fin.castAdd k i)) (fun j => v (Fin.natAdd n j)) := by
  rw [one_smul, Matrix.sub_mulVec, sub_eq_zero, Matrix.smul_mulVec, reg_mulVec]
  have h1 : ∀ r, (toC (gamma1Sel A lead) *ᵥ v) (Fin.castAdd k r) = ∑ c, (A r c : ℂ) * v (Fin.castAdd k c) := by
    intro r; rw [split_mulVec]; simp [g1_ll, g1_lr]
  have h2 : ∀ j, (toC (gamma1Sel A lead) *ᵥ v) (Fin.natAdd n j) = v (Fin.natAdd n j) := by
    intro j; rw [split_mulVec]; simp [g1_rl, g1_rr, Matrix.one_apply, hinj.eq_iff, apply_ite Complex.ofReal]
  have h3 : ∀ r, (toC (gamma0Sel B C lead) *ᵥ v) (Fin.castAdd k r) = ∑ c, (B r c : ℂ) * v (Fin.castAdd k c) + ∑ j, (C r (lead j) : ℂ) * v (Fin.natAdd n j) := by
    intro r; rw [split_mulVec]; simp [g0_ll, g0_lr]
  have h4 : ∀ j, (toC (gamma0Sel B C lead) *ᵥ v) (Fin.natAdd n j) = -v (Fin.castAdd k (lead j)) := by
    intro j; rw [split_mulVec]; simp [g0_rl, g0_rr, Matrix.one_apply, apply_ite Complex.ofReal]
  have key : ∀ i, (z • (-(toC (gamma0Sel B C lead) *ᵥ v) + (eps : ℂ) • v)) i = z * (-(toC (gamma0Sel B C lead) *ᵥ v) i + (eps : ℂ) * v i) := fun i => rfl
  constructor
  · intro h
    refine ⟨fun r => ?_, fun j => ?_⟩
    · have := congrFun h (Fin.castAdd k r)
      rw [key, h1, h3] at this
      rw [← this]; ring
    · have := congrFun h (Fin.natAdd n j)
      rw [key, h2, h4, neg_neg] at this
      exact this.symm
  · rintro ⟨e1, e2⟩
    funext i
    refine Fin.addCases (fun r => ?_) (fun j => ?_) i
    · rw [key, h1, h3, e1 r]; ring
    · rw [key, h2, h4, neg_neg]
      exact (e2 j).symm

end REig

/-- **C98 (symbolic eigenvalues).** The numbers that `compute_bk_eigenvalues_pt` reports are exactly the generalised eigenvalues of the system in Sims' form, with `eps` times the
identity added to the matrix in front of the new state. -/
theorem C98_bk_values {n k : ℕ} {A B C : Mat n n} {lead : Fin k → Fin n} (hinj : Function.Injective lead) {eps : ℝ} (o : EigOracle (bkMatrixPt A B C lead eps))
    (hd : (-gamma0Sel B C lead + eps • (1 : Mat (n + k) (n + k))).det ≠ 0) (z : ℂ) :
    (∃ i, (⟨(bkEigenvaluesPt o).1 i, (bkEigenvaluesPt o).2 i⟩ : ℂ) = z) ↔ ∃ x y, (x ≠ 0 ∨ y ≠ 0) ∧ SimsEigen A B C lead eps z x y := by
  have h1 : (∃ i, (⟨(bkEigenvaluesPt o).1 i, (bkEigenvaluesPt o).2 i⟩ : ℂ) = z) ↔
      (z • toC (-gamma0Sel B C lead + eps • (1 : Mat (n + k) (n + k))) - (1 : ℂ) • toC (gamma1Sel A lead)).det = 0 := by
    rw [REig.sym_pencil o hd z 1]
    have hd' : (toC (-gamma0Sel B C lead + eps • (1 : Mat (n + k) (n + k)))).det ≠ 0 := by
      have : (toC (-gamma0Sel B C lead + eps • (1 : Mat (n + k) (n + k)))).det = ((-gamma0Sel B C lead + eps • (1 : Mat (n + k) (n + k))).det : ℂ) :=
        (RingHom.map_det Complex.ofRealHom _).symm
      rw [this]
      exact_mod_cast hd
    rw [mul_eq_zero, or_iff_right hd', Finset.prod_eq_zero_iff]
    constructor
    · rintro ⟨i, hi⟩
      exact ⟨i, Finset.mem_univ _, by rw [← hi, one_mul]; exact sub_self _⟩
    · rintro ⟨i, _, hi⟩
      rw [one_mul, sub_eq_zero] at hi
      exact ⟨i, hi.symm⟩
  rw [h1, ← Matrix.exists_mulVec_eq_zero_iff]
  constructor
  · rintro ⟨v, hv, h⟩
    refine ⟨_, _, ?_, (REig.pencil_vec hinj eps z v).1 h⟩
    by_contra hn
    push Not at hn
    apply hv
    funext i
    refine Fin.addCases (fun r => ?_) (fun j => ?_) i
    · exact congrFun hn.1 r
    · exact congrFun hn.2 j
  · rintro ⟨x, y, hne, h⟩
    refine ⟨Fin.append x y, fun h0 => ?_, (REig.pencil_vec hinj eps z _).2 (by simpa only [Fin.append_left, Fin.append_right] using h)⟩
    rcases hne with hx | hy
    · apply hx; funext r; have := congrFun h0 (Fin.castAdd k r); rwa [Fin.append_left] at this
    · apply hy; funext j; have := congrFun h0 (Fin.natAdd n j); rwa [Fin.append_right] at this

/-- **C98 (meaning).** Without the regularisation, and when `lead` contains every variable with an expectation term, the non-zero reported eigenvalues are exactly the growth
factors `z` of solutions `x_t = z^t x` of `A x_{t-1} + B x_t + C x_{t+1} = 0`. -/
theorem C98_bk_growth {n k : ℕ} {A B C : Mat n n} {lead : Fin k → Fin n} (hinj : Function.Injective lead) (hlead : ∀ j, (∀ i, lead i ≠ j) → ∀ r, C r j = 0)
    (o : EigOracle (bkMatrixPt A B C lead 0)) (hd : (gamma0Sel B C lead).det ≠ 0) (z : ℂ) (hz : z ≠ 0) :
    (∃ i, (⟨(bkEigenvaluesPt o).1 i, (bkEigenvaluesPt o).2 i⟩ : ℂ) = z) ↔
      ∃ x : Fin n → ℂ, x ≠ 0 ∧ ∀ r, ∑ c, (A r c : ℂ) * x c + z * ∑ c, (B r c : ℂ) * x c + z ^ 2 * ∑ c, (C r c : ℂ) * x c = 0 := by
  have hd' : (-gamma0Sel B C lead + (0 : ℝ) • (1 : Mat (n + k) (n + k))).det ≠ 0 := by
    rw [zero_smul, add_zero, Matrix.det_neg]
    exact mul_ne_zero (pow_ne_zero _ (by norm_num)) hd
  rw [C98_bk_values hinj o hd' z]
  have hsum : ∀ (x : Fin n → ℂ) r, ∑ j, (C r (lead j) : ℂ) * x (lead j) = ∑ c, (C r c : ℂ) * x c := by
    intro x r
    refine Finset.sum_of_injOn lead hinj.injOn (fun _ _ => Finset.mem_univ _) (fun c _ hc => ?_) fun _ _ => rfl
    have : C r c = 0 := hlead c (fun i hi => hc ⟨i, Finset.mem_coe.2 (Finset.mem_univ _), hi⟩) r
    rw [this]; simp
  constructor
  · rintro ⟨x, y, hne, h1, h2⟩
    have hy : ∀ j, y j = z * x (lead j) := by
      intro j
      have := h2 j
      rw [Complex.ofReal_zero, zero_mul, add_zero] at this
      exact this
    have hx : x ≠ 0 := by
      rintro rfl
      rcases hne with h | h
      · exact h rfl
      · exact h (funext fun j => by rw [hy j]; simp)
    refine ⟨x, hx, fun r => ?_⟩
    have e : ∑ j, (C r (lead j) : ℂ) * y j = z * ∑ c, (C r c : ℂ) * x c := by
      rw [← hsum x r, Finset.mul_sum]
      exact Finset.sum_congr rfl fun j _ => by rw [hy j]; ring
    rw [h1 r, e, Complex.ofReal_zero]
    ring
  · rintro ⟨x, hx, h⟩
    refine ⟨x, fun j => z * x (lead j), .inl hx, fun r => ?_, fun j => ?_⟩
    · have e : ∑ j, (C r (lead j) : ℂ) * (z * x (lead j)) = z * ∑ c, (C r c : ℂ) * x c := by
        rw [← hsum x r, Finset.mul_sum]
        exact Finset.sum_congr rfl fun j _ => by ring
      rw [e, Complex.ofReal_zero]
      linear_combination h r
    · rw [Complex.ofReal_zero]; ring

end GE
