import Verif.Props.BKCheck
/-! # C40, C68, C69: concrete decompositions, and what the reported roots are -/

open Matrix Filter Topology

namespace GE

open Gen

variable {n k : ℕ} {A B C : Mat n n} {D : Mat n k} {tol : ℝ}

/-- C40: the values the check reports have the wrong sign: for every pair, `-β/α` (not `β/α`) is a root of the model, i.e. the growth factor of a
nonzero solution `x_t = μ^t v` -/
theorem C40_sign_flipped (hC : CleanLeads C tol) (q : SortedQZ (toC (-setupG0 B C tol)) (toC (setupG1 A C tol))) (p : ℂ × ℂ) (hp : p ∈ q.pairs)
    (h1 : p.1 ≠ 0) : ∃ v, v ≠ 0 ∧ toC A *ᵥ v + (-(p.2 / p.1)) • toC B *ᵥ v + (-(p.2 / p.1)) ^ 2 • toC C *ᵥ v = 0 := by
  obtain ⟨i, hi⟩ : ∃ i, p = (q.A i i, q.B i i) := by
    rw [SortedQZ.pairs, List.mem_append, List.mem_map, List.mem_map] at hp
    rcases hp with ⟨i, _, hi⟩ | ⟨i, _, hi⟩
    · exact ⟨.inl i, hi.symm⟩
    · exact ⟨.inr i, hi.symm⟩
  subst hi
  simp only at h1 ⊢
  have hg : toC (-setupG0 B C tol) = -toC (setupG0 B C tol) := by ext i j; simp [toC]
  have hn : ¬ ∀ y, ((-q.B i i) • toC (-setupG0 B C tol) + q.A i i • toC (setupG1 A C tol)) *ᵥ y = 0 → y = 0 := by
    rw [pencil_inj q]
    intro h
    exact h i (by ring)
  push Not at hn
  obtain ⟨y, hy, hy0⟩ := hn
  set μ : ℂ := -(q.B i i / q.A i i) with hμ
  have hy' : toC (setupG1 A C tol) *ᵥ y = μ • (toC (setupG0 B C tol) *ᵥ y) := by
    rw [add_mulVec, smul_mulVec, smul_mulVec, show toC (-setupG0 B C tol) *ᵥ y = -(toC (setupG0 B C tol) *ᵥ y) by rw [hg, neg_mulVec],
      smul_neg, neg_smul, neg_neg] at hy
    have h2 := eq_neg_of_add_eq_zero_right hy
    have h3 : (q.A i i)⁻¹ • (q.A i i • toC (setupG1 A C tol) *ᵥ y) = (q.A i i)⁻¹ • (-(q.B i i • toC (setupG0 B C tol) *ᵥ y)) := by rw [h2]
    rw [smul_smul, inv_mul_cancel₀ h1, one_smul, ← neg_smul, smul_smul] at h3
    rw [h3, hμ]; congr 1; field_simp
  rw [elim_split y, G1_mulVec, G0_mulVec] at hy'
  have hx : toC A *ᵥ (fun i => y (.inl i)) = μ • (-(toC B *ᵥ (fun i => y (.inl i)) + toC (CL C tol) *ᵥ fun i => y (.inr i))) := by
    funext j; exact congrFun hy' (.inl j)
  have hw : (fun l => y (.inr l)) = μ • lead C tol (fun i => y (.inl i)) := by
    funext l; exact congrFun hy' (.inr l)
  refine ⟨fun i => y (.inl i), ?_, ?_⟩
  · intro h0
    apply hy0
    rw [elim_split y, hw, h0]
    funext j; cases j <;> simp [lead]
  · rw [hw, mulVec_smul, CL_lead hC] at hx
    rw [hx, smul_neg, smul_add, smul_smul, pow_two]
    abel

/-! ## a model with one lead -/

namespace GenEx

/-- `x_{t-1} - 11/6 x_t + 2/3 x_{t+1} + ε_t = 0`: roots 3/4 and 2 -/
noncomputable def eA : Mat 1 1 := fun _ _ => 1
noncomputable def eB : Mat 1 1 := fun _ _ => -11 / 6
noncomputable def eC : Mat 1 1 := fun _ _ => 2 / 3
noncomputable def eD : Mat 1 1 := fun _ _ => 1
noncomputable def eTol : ℝ := 1 / 100000000

noncomputable instance : Unique (Lead eC eTol) where
  default := ⟨0, by simp [eC, eTol]; norm_num⟩
  uniq a := Subtype.ext (Subsingleton.elim _ _)

noncomputable def eZ : Matrix (Fin 1 ⊕ Lead eC eTol) (Fin 1 ⊕ Fin 1) ℂ := fun i j =>
  Sum.elim (fun _ => Sum.elim (fun _ => 4 / 5) (fun _ => -3 / 5) j) (fun _ => Sum.elim (fun _ => 3 / 5) (fun _ => 4 / 5) j) i
noncomputable def eQ : Matrix (Fin 1 ⊕ Fin 1) (Fin 1 ⊕ Lead eC eTol) ℂ := fun i j => eZ j i
noncomputable def eAA : Matrix (Fin 1 ⊕ Fin 1) (Fin 1 ⊕ Fin 1) ℂ := fun i j =>
  Sum.elim (fun _ => Sum.elim (fun _ => 4 / 3) (fun _ => -5 / 3) j) (fun _ => Sum.elim (fun _ => 0) (fun _ => 1 / 2) j) i

theorem eQ_eq : eQ = eZᴴ := by
  ext (i | i) (j | j) <;> simp [eQ, eZ, conjTranspose_apply]

theorem eZ_right : eZ * eZᴴ = 1 := by
  ext (i | i) (j | j) <;>
    simp only [mul_apply, Fintype.sum_sum_type, Fintype.sum_unique, conjTranspose_apply, eZ, Sum.elim_inl, Sum.elim_inr, one_apply]
  · rw [Subsingleton.elim i j]; simp; norm_num
  · simp; norm_num
  · simp; norm_num
  · rw [Subsingleton.elim i j]; simp; norm_num

theorem eZ_left : eZᴴ * eZ = 1 := by
  ext (i | i) (j | j) <;>
    simp only [mul_apply, Fintype.sum_sum_type, Fintype.sum_unique, conjTranspose_apply, eZ, Sum.elim_inl, Sum.elim_inr, one_apply]
  · rw [Subsingleton.elim i j]; simp; norm_num
  · simp; norm_num
  · simp; norm_num
  · rw [Subsingleton.elim i j]; simp; norm_num

theorem eG1 : toC (setupG1 eA eC eTol) = 1 := by
  ext (i | i) (j | j)
  · rw [Subsingleton.elim i j]; simp [toC, setupG1, eqsAndLeads, eA]
  · simp [toC, setupG1, eqsAndLeads]
  · simp [toC, setupG1, eqsAndLeads]
  · rw [Subsingleton.elim i j]; simp [toC, setupG1, eqsAndLeads]

noncomputable def eM0 : Matrix (Fin 1 ⊕ Lead eC eTol) (Fin 1 ⊕ Lead eC eTol) ℂ := fun i j =>
    Sum.elim (fun _ => Sum.elim (fun _ => 11 / 6) (fun _ => -2 / 3) j) (fun _ => Sum.elim (fun _ => 1) (fun _ => 0) j) i

theorem eG0 : toC (setupG0 eB eC eTol) = eM0 := by
  ext (i | i) (j | j)
  · change ((-(eB i j) : ℝ) : ℂ) = 11 / 6
    simp [eB]; norm_num
  · change ((-(eC i j.1) : ℝ) : ℂ) = -2 / 3
    simp [eC]; norm_num
  · have : i.1 = j := Subsingleton.elim _ _
    change ((-(-(1 : Mat 1 1)) i.1 j : ℝ) : ℂ) = 1
    rw [this]; simp
  · change ((-(0 : Mat 1 1) i.1 j.1 : ℝ) : ℂ) = 0
    simp

noncomputable def eQZ : SortedQZ (toC (setupG0 eB eC eTol)) (toC (setupG1 eA eC eTol)) where
  ns := 1
  nu := 1
  Q := eQ
  Z := eZ
  A := eAA
  B := 1
  Q_right := by rw [eQ_eq, conjTranspose_conjTranspose, eZ_left]
  Q_left := by rw [eQ_eq, conjTranspose_conjTranspose, eZ_right]
  Z_right := eZ_right
  Z_left := eZ_left
  A_eq := by
    rw [eG0, eQ_eq]
    ext (i | i) (j | j) <;>
      simp only [mul_apply, Fintype.sum_sum_type, Fintype.sum_unique, conjTranspose_apply, eZ, eAA, eM0, Sum.elim_inl, Sum.elim_inr] <;> simp <;> norm_num
  B_eq := by rw [eG1, Matrix.mul_one, eQ_eq, eZ_left]
  A_low i j := rfl
  A_tri₁ i j h := absurd h (by rw [Subsingleton.elim i j]; exact lt_irrefl _)
  A_tri₂ i j h := absurd h (by rw [Subsingleton.elim i j]; exact lt_irrefl _)
  B_low i j := by simp
  B_tri₁ i j h := absurd h (by rw [Subsingleton.elim i j]; exact lt_irrefl _)
  B_tri₂ i j h := absurd h (by rw [Subsingleton.elim i j]; exact lt_irrefl _)
  sorted₁ i := by simp [eAA]; norm_num
  sorted₂ i := by simp [eAA]; norm_num

theorem ePi (r : Fin 1 ⊕ Fin 1) (l : Lead eC eTol) : (eQ * toC (setupPi eC eTol)) r l = eZ (.inr default) r := by
  have hl : l = default := Unique.eq_default l
  subst hl
  simp only [mul_apply, Fintype.sum_sum_type, Fintype.sum_unique, eQ, toC, setupPi, eqsAndLeads, map_apply, submatrix_apply, Sum.map_inl, Sum.map_inr,
    fromRows_apply_inl, fromRows_apply_inr, Matrix.zero_apply, one_apply_eq]
  simp

def one1 (a b : Type) : Matrix a b ℂ := fun _ _ => 1

theorem one1_unit {a : Type} [Unique a] [Fintype a] : (one1 a (Fin 1))ᴴ * one1 a (Fin 1) = 1 := by
  ext i j; rw [Subsingleton.elim i j]; simp [mul_apply, conjTranspose_apply, one1]

noncomputable def eSvd : EtaSVD eQZ (toC (setupPi eC eTol)) eTol where
  unstable :=
    { r := 1, u := one1 _ _, d := fun _ => 4 / 5, v := one1 _ _
      uu := one1_unit (a := Fin 1)
      vv := one1_unit (a := Lead eC eTol)
      big := fun _ => by norm_num [eTol]
      exact := by
        ext i j
        have h := ePi (.inr 0) j
        have hi : i = (0 : Fin 1) := Subsingleton.elim (α := Fin 1) _ _
        subst hi
        refine Eq.trans (b := eZ (.inr default) (.inr 0)) h ?_
        change (4 / 5 : ℂ) = ((one1 (Fin 1) (Fin 1) * diagonal (fun _ : Fin 1 => ((4 / 5 : ℝ) : ℂ)) : Matrix (Fin 1) (Fin 1) ℂ) * (one1 (Lead eC eTol) (Fin 1))ᴴ : Matrix (Fin 1) (Lead eC eTol) ℂ) 0 j
        simp [mul_apply, conjTranspose_apply, one1] }
  stable :=
    { r := 1, u := one1 _ _, d := fun _ => 3 / 5, v := one1 _ _
      uu := one1_unit (a := Fin 1)
      vv := one1_unit (a := Lead eC eTol)
      big := fun _ => by norm_num [eTol]
      exact := by
        ext i j
        have h := ePi (.inl 0) j
        have hi : i = (0 : Fin 1) := Subsingleton.elim (α := Fin 1) _ _
        subst hi
        refine Eq.trans (b := eZ (.inr default) (.inl 0)) h ?_
        change (3 / 5 : ℂ) = ((one1 (Fin 1) (Fin 1) * diagonal (fun _ : Fin 1 => ((3 / 5 : ℝ) : ℂ)) : Matrix (Fin 1) (Fin 1) ℂ) * (one1 (Lead eC eTol) (Fin 1))ᴴ : Matrix (Fin 1) (Lead eC eTol) ℂ) 0 j
        simp [mul_apply, conjTranspose_apply, one1] }

noncomputable def eO : GensysOracle eA eB eC eTol := ⟨eQZ, eSvd⟩

theorem eClean : CleanLeads eC eTol := by
  intro j h
  exact absurd h (by simp [eC, eTol]; norm_num)

theorem ePairs : eO.qz.pairs = [(4 / 3, 1), (1 / 2, 1)] := by
  change (List.finRange 1).map _ ++ (List.finRange 1).map _ = _
  rw [show List.finRange 1 = [0] from rfl]
  simp [eO, eQZ, eAA]

theorem eNoZ : NoCoincidentZeros eO := by
  intro p hp
  rw [ePairs] at hp
  simp only [List.mem_cons, List.not_mem_nil, or_false] at hp
  rcases hp with rfl | rfl <;> (rintro ⟨_, h⟩; simp [eTol] at h; norm_num at h)

theorem eEU : gensysEU eO.svd = (1, 1, 0) := by
  have hl : eO.svd.loose = 0 := by
    change one1 (Lead eC eTol) (Fin 1) - one1 (Lead eC eTol) (Fin 1) * (one1 (Lead eC eTol) (Fin 1))ᴴ * one1 (Lead eC eTol) (Fin 1) = 0
    rw [Matrix.mul_assoc, one1_unit, Matrix.mul_one, sub_self]
  have hr : eO.qz.nu ≤ eO.svd.unstable.r := le_refl 1
  rw [eu_regular eNoZ, if_pos hr, (Gen.rank_zero _).mpr hl]
  rfl

end GenEx

open GenEx in
/-- the hypotheses of C68 and C69 are met: gensys solves this model, and its policy is `x_t = 3/4 x_{t-1} + R ε_t` -/
theorem GenEx.solved : ∃ T R, modelSolveGensys eD eO true = .solved T R ∧ T 0 0 = 3 / 4 ∧ R 0 0 = 3 / 4 := by
  obtain ⟨T, R, h⟩ : ∃ T R, modelSolveGensys eD eO true = .solved T R := by
    rw [model_eq, eEU]; exact ⟨_, _, rfl⟩
  have h0 : 0 < eTol := by norm_num [eTol]
  obtain ⟨hq, hr, -, hv⟩ := C68_solution h0 eClean h
  have e1 := congrFun (congrFun hq 0) 0
  have e2 := congrFun (congrFun hr 0) 0
  simp [eA, eB, eC, eD, mul_apply] at e1 e2
  have hT : T 0 0 = 3 / 4 := by
    have : (T 0 0 - 3 / 4) * (T 0 0 - 2) = 0 := by linear_combination (3 / 2) * e1
    rcases mul_eq_zero.mp this with h' | h'
    · linarith
    · exfalso
      have hT2 : T 0 0 = 2 := by linarith
      have hp : ∀ t, ((T ^ t) *ᵥ fun _ => 1) 0 = 2 ^ t := by
        intro t
        induction t with
        | zero => simp
        | succ t ih =>
          rw [pow_succ', ← mulVec_mulVec]
          simp [mulVec, dotProduct, hT2] at ih ⊢
          rw [ih]; ring
      have h1 := (tendsto_pi_nhds.mp (hv fun _ => 1)) 0
      simp only [hp] at h1
      have h2 := tendsto_pow_atTop_atTop_of_one_lt (r := (2 : ℝ)) (by norm_num)
      exact not_tendsto_nhds_of_tendsto_atTop h2 _ h1
  refine ⟨T, R, h, hT, ?_⟩
  rw [hT] at e2
  linarith

/-! ## unstable roots in the right number, but no solution -/

namespace GenEx

/-- `x1_t = 2 x1_{t-1}`, `x2_{t+1} = 3/4 x2_t` -/
noncomputable def bA : Mat 2 2 := !![-2, 0; 0, 0]
noncomputable def bB : Mat 2 2 := !![1, 0; 0, -3 / 4]
noncomputable def bC : Mat 2 2 := !![0, 0; 0, 1]

noncomputable instance : Unique (Lead bC eTol) where
  default := ⟨1, by simp [bC, eTol]; norm_num⟩
  uniq a := by
    obtain ⟨j, hj⟩ := a
    apply Subtype.ext
    fin_cases j
    · simp [bC, eTol] at hj; norm_num at hj
    · rfl

theorem bLead (l : Lead bC eTol) : l.1 = 1 := by rw [Unique.eq_default l]; rfl

/-- the columns of `Z`: `x2`, the expectation, `x1` -/
noncomputable def bZ : Matrix (Fin 2 ⊕ Lead bC eTol) (Fin 2 ⊕ Fin 1) ℂ := fun i j =>
  Sum.elim (fun i => Sum.elim (![![0, 0], ![1, 0]] i) (fun _ => ![1, 0] i) j) (fun _ => Sum.elim ![0, 1] (fun _ => 0) j) i
noncomputable def bQ : Matrix (Fin 2 ⊕ Fin 1) (Fin 2 ⊕ Lead bC eTol) ℂ := fun i j =>
  Sum.elim (fun i => Sum.elim (![![0, -3 / 5], ![0, 4 / 5]] i) (fun _ => ![-4 / 5, -3 / 5] i) j) (fun _ => Sum.elim ![1, 0] (fun _ => 0) j) i
noncomputable def bAA : Matrix (Fin 2 ⊕ Fin 1) (Fin 2 ⊕ Fin 1) ℂ := fun i j =>
  Sum.elim (fun i => Sum.elim (![![5 / 4, -3 / 5], ![0, 4 / 5]] i) (fun _ => 0) j) (fun _ => Sum.elim (fun _ => 0) (fun _ => 1) j) i
noncomputable def bBB : Matrix (Fin 2 ⊕ Fin 1) (Fin 2 ⊕ Fin 1) ℂ := fun i j =>
  Sum.elim (fun i => Sum.elim (![![0, -4 / 5], ![0, -3 / 5]] i) (fun _ => 0) j) (fun _ => Sum.elim (fun _ => 0) (fun _ => -2) j) i

noncomputable def bM0 : Matrix (Fin 2 ⊕ Lead bC eTol) (Fin 2 ⊕ Lead bC eTol) ℂ := fun i j =>
    Sum.elim (fun i => Sum.elim (![![1, 0], ![0, -3 / 4]] i) (fun _ => ![0, 1] i) j) (fun _ => Sum.elim ![0, -1] (fun _ => 0) j) i

theorem bG0 : toC (-setupG0 bB bC eTol) = bM0 := by
  ext (i | i) (j | j)
  · change ((- -(bB i j) : ℝ) : ℂ) = ![![1, 0], ![0, -3 / 4]] i j
    fin_cases i <;> fin_cases j <;> simp [bB]
  · change ((- -(bC i j.1) : ℝ) : ℂ) = ![0, 1] i
    rw [bLead]; fin_cases i <;> simp [bC]
  · change ((- -(-(1 : Mat 2 2)) i.1 j : ℝ) : ℂ) = ![0, -1] j
    rw [bLead]; fin_cases j <;> simp
  · change ((- -(0 : Mat 2 2) i.1 j.1 : ℝ) : ℂ) = 0
    simp

noncomputable def bM1 : Matrix (Fin 2 ⊕ Lead bC eTol) (Fin 2 ⊕ Lead bC eTol) ℂ := fun i j =>
    Sum.elim (fun i => Sum.elim (![![-2, 0], ![0, 0]] i) (fun _ => 0) j) (fun _ => Sum.elim (fun _ => 0) (fun _ => 1) j) i

theorem bG1 : toC (setupG1 bA bC eTol) = bM1 := by
  ext (i | i) (j | j)
  · change ((bA i j : ℝ) : ℂ) = ![![-2, 0], ![0, 0]] i j
    fin_cases i <;> fin_cases j <;> simp [bA]
  · change (((0 : Mat 2 2) i j.1 : ℝ) : ℂ) = 0
    simp
  · change (((0 : Mat 2 2) i.1 j : ℝ) : ℂ) = 0
    simp
  · change (((1 : Mat 2 2) i.1 j.1 : ℝ) : ℂ) = 1
    rw [bLead, bLead]; simp

noncomputable def bQZ : SortedQZ (toC (-setupG0 bB bC eTol)) (toC (setupG1 bA bC eTol)) where
  ns := 2
  nu := 1
  Q := bQ
  Z := bZ
  A := bAA
  B := bBB
  Q_right := by
    ext (i | i) (j | j) <;> fin_cases i <;> fin_cases j <;>
      simp [mul_apply, Fintype.sum_sum_type, conjTranspose_apply, bQ, one_apply, Complex.conj_ofNat] <;> norm_num
  Q_left := by
    ext (i | i) (j | j)
    · fin_cases i <;> fin_cases j <;> simp [mul_apply, Fintype.sum_sum_type, conjTranspose_apply, bQ, one_apply, Complex.conj_ofNat] <;> norm_num
    · fin_cases i <;> simp [mul_apply, Fintype.sum_sum_type, conjTranspose_apply, bQ, one_apply, Complex.conj_ofNat] <;> norm_num
    · fin_cases j <;> simp [mul_apply, Fintype.sum_sum_type, conjTranspose_apply, bQ, one_apply, Complex.conj_ofNat] <;> norm_num
    · rw [Subsingleton.elim i j]; simp [mul_apply, Fintype.sum_sum_type, conjTranspose_apply, bQ, one_apply, Complex.conj_ofNat]; norm_num
  Z_right := by
    ext (i | i) (j | j)
    · fin_cases i <;> fin_cases j <;> simp [mul_apply, Fintype.sum_sum_type, conjTranspose_apply, bZ, one_apply]
    · fin_cases i <;> simp [mul_apply, Fintype.sum_sum_type, conjTranspose_apply, bZ, one_apply]
    · fin_cases j <;> simp [mul_apply, Fintype.sum_sum_type, conjTranspose_apply, bZ, one_apply]
    · rw [Subsingleton.elim i j]; simp [mul_apply, Fintype.sum_sum_type, conjTranspose_apply, bZ, one_apply]
  Z_left := by
    ext (i | i) (j | j) <;> fin_cases i <;> fin_cases j <;>
      simp [mul_apply, Fintype.sum_sum_type, conjTranspose_apply, bZ, one_apply]
  A_eq := by
    rw [bG0]
    ext (i | i) (j | j) <;> fin_cases i <;> fin_cases j <;>
      simp [mul_apply, Fintype.sum_sum_type, bQ, bZ, bAA, bM0] <;> norm_num
  B_eq := by
    rw [bG1]
    ext (i | i) (j | j) <;> fin_cases i <;> fin_cases j <;>
      simp [mul_apply, Fintype.sum_sum_type, bQ, bZ, bBB, bM1]
  A_low i j := rfl
  A_tri₁ i j h := by fin_cases i <;> fin_cases j <;> simp [bAA] at h ⊢
  A_tri₂ i j h := absurd h (by rw [Subsingleton.elim i j]; exact lt_irrefl _)
  B_low i j := rfl
  B_tri₁ i j h := by fin_cases i <;> fin_cases j <;> simp [bBB] at h ⊢
  B_tri₂ i j h := absurd h (by rw [Subsingleton.elim i j]; exact lt_irrefl _)
  sorted₁ i := by fin_cases i <;> simp [bAA, bBB]; norm_num
  sorted₂ i := by fin_cases i; simp [bAA, bBB]

theorem bPairs : bQZ.pairs = [(5 / 4, 0), (4 / 5, -3 / 5), (1, -2)] := by
  change (List.finRange 2).map _ ++ (List.finRange 1).map _ = _
  rw [show List.finRange 2 = [0, 1] from rfl, show List.finRange 1 = [0] from rfl]
  simp [bQZ, bAA, bBB]

theorem bSep : ∀ p ∈ bQZ.pairs, Separated eTol p := by
  intro p hp
  rw [bPairs] at hp
  simp only [List.mem_cons, List.not_mem_nil, or_false] at hp
  rcases hp with rfl | rfl | rfl
  · left; simp [eTol]; norm_num
  · left; simp [eTol]; norm_num
  · right
    refine ⟨by simp [eTol]; norm_num, ?_⟩
    intro h
    have := congrArg Complex.re h
    simp [eTol] at this
    norm_num at this

theorem bFwd : bkForward bC eTol = 1 := by
  classical
  rw [bkForward, ← Fintype.card_subtype]
  exact Fintype.card_unique

end GenEx

open GenEx in
/-- C40: the check only counts; it can report success for a model with no solution: here one root is unstable and one variable is
forward-looking, but the unstable root belongs to a predetermined variable -/
theorem C40_not_sufficient : ∃ (A B C : Mat 2 2) (tol : ℝ) (q : SortedQZ (toC (-setupG0 B C tol)) (toC (setupG1 A C tol))),
    0 < tol ∧ CleanLeads C tol ∧ (∀ p ∈ q.pairs, Separated tol p) ∧
    (∀ r, checkBK (bkEigenvalues q) (bkForward C tol) r .bool = .ok (.flag true) .satisfied 1 1) ∧
    ¬ ∃ x, VanishingPath A B C x ∧ x 0 = ![1, 0] := by
  have h0 : 0 < eTol := by norm_num [eTol]
  refine ⟨bA, bB, bC, eTol, bQZ, h0, ?_, bSep, fun r => ?_, ?_⟩
  · intro j hj i
    fin_cases j
    · fin_cases i <;> simp [bC]
    · exact absurd hj (by simp [bC, eTol]; norm_num)
  · have hu : bkUnstable (bkEigenvalues bQZ) = 1 := C40_unstable_count h0 bQZ bSep
    rw [checkBK, if_neg (by decide)]
    simp only [hu, bFwd]
    simp
  · rintro ⟨x, ⟨hx, hl⟩, hx0⟩
    have hstep : ∀ t, x (t + 1) 0 = 2 * x t 0 := by
      intro t
      have := congrFun (hx t) 0
      simp [bA, bB, bC, mulVec, dotProduct, Fin.sum_univ_two] at this
      linarith
    have hp : ∀ t, x t 0 = 2 ^ t := by
      intro t
      induction t with
      | zero => rw [hx0]; simp
      | succ t ih => rw [hstep, ih]; ring
    have h1 := (tendsto_pi_nhds.mp hl) 0
    simp only [hp] at h1
    exact not_tendsto_nhds_of_tendsto_atTop (tendsto_pow_atTop_atTop_of_one_lt (r := (2 : ℝ)) (by norm_num)) _ h1

end GE
