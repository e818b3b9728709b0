import Verif.Props.Gensys
/-! # C68, C69: the core of gensys characterised -/

open Matrix Filter Topology

namespace GE

namespace Gen

variable {ι η κ : Type} [Fintype ι] [DecidableEq ι] [Fintype η] [DecidableEq η] [Fintype κ] [DecidableEq κ]
variable {g0 g1 : Matrix ι ι ℂ} {pi : Matrix ι η ℂ} {psi : Matrix ι κ ℂ} {realsmall : ℝ} {q : SortedQZ g0 g1}

theorem rank_zero {a b : Type} [Fintype a] [Fintype b] [DecidableEq b] (M : Matrix a b ℂ) : M.rank = 0 ↔ M = 0 := by
  rw [Matrix.rank, Submodule.finrank_eq_zero, LinearMap.range_eq_bot]
  constructor
  · intro h; ext i j
    have := congrFun (LinearMap.congr_fun h (Pi.single j 1)) i
    simpa using this
  · rintro rfl; ext; simp

/-! ## thin singular value decompositions -/

section svd
variable {a b : Type} [Fintype a] [Fintype b] [DecidableEq a] [DecidableEq b] {M : Matrix a b ℂ} (w : ThinSVD M realsmall)

theorem svd_d (h0 : 0 < realsmall) : diagonal (fun i => ((w.d i : ℂ))⁻¹) * diagonal (fun i => (w.d i : ℂ)) = 1 := by
  rw [diagonal_mul_diagonal, ← diagonal_one]
  congr 1; funext i
  exact inv_mul_cancel₀ (Complex.ofReal_ne_zero.mpr (ne_of_gt (h0.trans (w.big i))))

theorem svd_d' (h0 : 0 < realsmall) : diagonal (fun i => (w.d i : ℂ)) * diagonal (fun i => ((w.d i : ℂ))⁻¹) = 1 := by
  rw [diagonal_mul_diagonal, ← diagonal_one]
  congr 1; funext i
  exact mul_inv_cancel₀ (Complex.ofReal_ne_zero.mpr (ne_of_gt (h0.trans (w.big i))))

theorem svd_r_le : w.r ≤ Fintype.card a := by
  have h1 : (w.uᴴ * w.u).rank = w.r := by rw [w.uu, rank_one, Fintype.card_fin]
  rw [← h1]
  exact (rank_mul_le_right _ _).trans (rank_le_card_height _)

/-- the decomposition in one line: `D⁻¹ U^H M = V^H` -/
theorem svd_vH (h0 : 0 < realsmall) : diagonal (fun i => ((w.d i : ℂ))⁻¹) * w.uᴴ * M = w.vᴴ := by
  calc diagonal (fun i => ((w.d i : ℂ))⁻¹) * w.uᴴ * M
      = diagonal (fun i => ((w.d i : ℂ))⁻¹) * w.uᴴ * (w.u * diagonal (fun i => (w.d i : ℂ)) * w.vᴴ) := congrArg _ w.exact
    _ = diagonal (fun i => ((w.d i : ℂ))⁻¹) * (w.uᴴ * w.u) * diagonal (fun i => (w.d i : ℂ)) * w.vᴴ := by simp only [Matrix.mul_assoc]
    _ = w.vᴴ := by rw [w.uu, Matrix.mul_one, svd_d w h0, Matrix.one_mul]

theorem svd_surj_iff (h0 : 0 < realsmall) : Fintype.card a ≤ w.r ↔ ∀ x : a → ℂ, ∃ e, M *ᵥ e = x := by
  constructor
  · intro h x
    have hr : w.r = Fintype.card a := le_antisymm (svd_r_le w) h
    have huu : w.u * w.uᴴ = 1 := (mul_eq_one_comm_of_card_eq _ _ _ (by simp [hr])).mp w.uu
    refine ⟨(w.v * diagonal (fun i => ((w.d i : ℂ))⁻¹) * w.uᴴ) *ᵥ x, ?_⟩
    refine (congrArg (· *ᵥ _) w.exact).trans ?_
    rw [mulVec_mulVec]
    have : w.u * diagonal (fun i => (w.d i : ℂ)) * w.vᴴ * (w.v * diagonal (fun i => ((w.d i : ℂ))⁻¹) * w.uᴴ) = 1 := by
      calc _ = w.u * (diagonal (fun i => (w.d i : ℂ)) * (w.vᴴ * w.v) * diagonal (fun i => ((w.d i : ℂ))⁻¹)) * w.uᴴ := by simp only [Matrix.mul_assoc]
        _ = 1 := by rw [w.vv, Matrix.mul_one, svd_d' w h0, Matrix.mul_one, huu]
    rw [this, one_mulVec]
  · intro h
    have h1 : M.rank = Fintype.card a := by
      rw [Matrix.rank, LinearMap.range_eq_top.mpr (fun x => by obtain ⟨e, he⟩ := h x; exact ⟨e, by simpa using he⟩), finrank_top, Module.finrank_fintype_fun_eq_card]
    rw [← h1]
    conv_lhs => rw [w.exact]
    exact (rank_mul_le_left _ _).trans ((rank_mul_le_left _ _).trans ((rank_le_card_width _).trans (by simp)))

theorem svd_ker (h0 : 0 < realsmall) (e : b → ℂ) : M *ᵥ e = 0 ↔ w.vᴴ *ᵥ e = 0 := by
  constructor
  · intro h
    rw [← svd_vH w h0, ← mulVec_mulVec, h, mulVec_zero]
  · intro h
    rw [w.exact, ← mulVec_mulVec, h, mulVec_zero]

end svd

variable (s : EtaSVD q pi realsmall)

theorem innerH_eq : s.innerH = s.stable.u * diagonal (fun i => (s.stable.d i : ℂ)) * s.stable.vᴴ * s.unstable.v *
    (diagonal (fun i => ((s.unstable.d i : ℂ))⁻¹) * s.unstable.uᴴ) := by
  unfold EtaSVD.innerH
  simp only [conjTranspose_mul, conjTranspose_conjTranspose, diagonal_conjTranspose, Matrix.mul_assoc]
  have e1 : (star fun i => (s.stable.d i : ℂ)) = fun i => (s.stable.d i : ℂ) := by funext i; simp
  have e2 : (star fun i => ((s.unstable.d i : ℂ))⁻¹) = fun i => ((s.unstable.d i : ℂ))⁻¹ := by funext i; simp
  rw [e1, e2]

theorem Q_rows : q.Q = fromRows q.Q1 q.Q2 := by ext (i | i) j <;> rfl

theorem tMat_Q : s.tMat * q.Q = q.Q1 - s.innerH * q.Q2 := by
  rw [Q_rows, EtaSVD.tMat, fromCols_mul_fromRows, Matrix.one_mul, Matrix.neg_mul, ← sub_eq_add_neg]

theorem Q_split (v : ι → ℂ) (h1 : q.Q1 *ᵥ v = 0) (h2 : q.Q2 *ᵥ v = 0) : v = 0 := by
  apply Q_inj q
  rw [Q_rows, fromRows_mulVec]
  funext i; rcases i with i | i
  · exact congrFun h1 i
  · exact congrFun h2 i

/-- under uniqueness the expectational errors drop out -/
theorem kills_pi (h0 : 0 < realsmall) (hl : s.loose = 0) : s.tMat * q.Q * pi = 0 := by
  rw [tMat_Q, Matrix.sub_mul, Matrix.mul_assoc, innerH_eq, sub_eq_zero]
  have h1 : s.unstable.v * s.unstable.vᴴ * s.stable.v = s.stable.v := (sub_eq_zero.mp hl).symm
  have h2 : s.stable.vᴴ * (s.unstable.v * s.unstable.vᴴ) = s.stable.vᴴ := by
    have := congrArg conjTranspose h1
    simpa [conjTranspose_mul, Matrix.mul_assoc] using this
  calc q.Q1 * pi = s.stable.u * diagonal (fun i => (s.stable.d i : ℂ)) * s.stable.vᴴ := s.stable.exact
    _ = s.stable.u * diagonal (fun i => (s.stable.d i : ℂ)) * (s.stable.vᴴ * (s.unstable.v * s.unstable.vᴴ)) := by rw [h2]
    _ = s.stable.u * diagonal (fun i => (s.stable.d i : ℂ)) * (s.stable.vᴴ * (s.unstable.v * (diagonal (fun i => ((s.unstable.d i : ℂ))⁻¹) * s.unstable.uᴴ * (q.Q2 * pi)))) := by
      rw [svd_vH s.unstable h0]
    _ = _ := by simp only [Matrix.mul_assoc]

/-- under existence and uniqueness what the transformed system does not see is an expectational error -/
theorem ker_tMat (h0 : 0 < realsmall) (hl : s.loose = 0) (hr : q.nu ≤ s.unstable.r) (v : ι → ℂ) :
    (s.tMat * q.Q) *ᵥ v = 0 ↔ ∃ e, v = pi *ᵥ e := by
  constructor
  · intro h
    obtain ⟨e, he⟩ := (svd_surj_iff s.unstable h0).mp (by simpa using hr) (q.Q2 *ᵥ v)
    refine ⟨e, sub_eq_zero.mp ?_⟩
    have h2 : q.Q2 *ᵥ (v - pi *ᵥ e) = 0 := by rw [mulVec_sub, mulVec_mulVec, he, sub_self]
    refine Q_split (q := q) _ ?_ h2
    have h3 : (s.tMat * q.Q) *ᵥ (v - pi *ᵥ e) = 0 := by
      rw [mulVec_sub, h, mulVec_mulVec, kills_pi s h0 hl, zero_mulVec, sub_zero]
    rw [tMat_Q, sub_mulVec, ← mulVec_mulVec, h2, mulVec_zero, sub_zero] at h3
    exact h3
  · rintro ⟨e, rfl⟩
    rw [mulVec_mulVec, kills_pi s h0 hl, zero_mulVec]

/-! ## the matrix `G_0` -/

theorem bigG0_mulVec (z : Fin q.ns ⊕ Fin q.nu → ℂ) :
    s.bigG0 *ᵥ z = Sum.elim ((s.tMat * q.A) *ᵥ z) (fun u => z (.inr u)) := by
  rw [EtaSVD.bigG0, fromRows_mulVec]
  congr 1
  funext u
  have : z = Sum.elim (fun i => z (.inl i)) (fun i => z (.inr i)) := by funext i; cases i <;> rfl
  conv_lhs => rw [this, fromCols_mulVec_sumElim, zero_mulVec, one_mulVec, zero_add]

theorem bigG0_unit : IsUnit s.bigG0 := by
  rw [← mulVec_injective_iff_isUnit]
  intro z z' h
  rw [← sub_eq_zero, ← mulVec_sub] at h
  rw [← sub_eq_zero]
  generalize z - z' = x at h
  rw [bigG0_mulVec] at h
  have hu : ∀ u, x (.inr u) = 0 := fun u => congrFun h (.inr u)
  have hA : q.A *ᵥ x = Sum.elim (A11 q *ᵥ fun i => x (.inl i)) 0 := by
    funext i; rcases i with i | i
    · rw [A_inl q _ hu]; rfl
    · rw [A_inr]; simp only [hu, Sum.elim_inr]; change (A22 q *ᵥ 0) i = _; rw [mulVec_zero]
  have h1 : A11 q *ᵥ (fun i => x (.inl i)) = 0 := by
    funext i
    have := congrFun h (.inl i)
    rw [Sum.elim_inl, ← mulVec_mulVec, hA, EtaSVD.tMat, fromCols_mulVec_sumElim, one_mulVec, mulVec_zero, add_zero] at this
    exact this
  have h2 := tri_inj (fun i j h => q.A_tri₁ i j h) (diagA q) h1
  funext i; rcases i with i | i
  · exact congrFun h2 i
  · exact hu i

/-- solving with `G_0` -/
theorem solve_iff {α : Type} [Fintype α] [DecidableEq α] (P : Matrix (Fin q.ns) α ℂ) (x : α → ℂ) (y' : ι → ℂ) :
    y' = (q.Z * (s.bigG0⁻¹ * fromRows P (0 : Matrix (Fin q.nu) α ℂ))) *ᵥ x ↔ unst q y' = 0 ∧ (s.tMat * q.Q) *ᵥ (g0 *ᵥ y') = P *ᵥ x := by
  have hdet : IsUnit s.bigG0.det := (isUnit_iff_isUnit_det _).mp (bigG0_unit s)
  have key : y' = (q.Z * (s.bigG0⁻¹ * fromRows P (0 : Matrix (Fin q.nu) α ℂ))) *ᵥ x ↔
      s.bigG0 *ᵥ (q.Zᴴ *ᵥ y') = fromRows P (0 : Matrix (Fin q.nu) α ℂ) *ᵥ x := by
    constructor
    · rintro rfl
      rw [← mulVec_mulVec, ofCoords_inr, mulVec_mulVec, ← Matrix.mul_assoc, mul_nonsing_inv _ hdet, Matrix.one_mul]
    · intro h
      rw [← mulVec_mulVec, ← mulVec_mulVec, ← h, mulVec_mulVec _ s.bigG0⁻¹, nonsing_inv_mul _ hdet, one_mulVec, mulVec_mulVec, q.Z_right, one_mulVec]
  rw [key, bigG0_mulVec, fromRows_mulVec, zero_mulVec]
  have hT : (s.tMat * q.A) *ᵥ (q.Zᴴ *ᵥ y') = (s.tMat * q.Q) *ᵥ (g0 *ᵥ y') := by
    rw [mulVec_mulVec, mulVec_mulVec, Matrix.mul_assoc, Matrix.mul_assoc, rot0]
  rw [hT]
  constructor
  · intro h
    exact ⟨funext fun u => congrFun h (.inr u), funext fun i => congrFun h (.inl i)⟩
  · rintro ⟨h1, h2⟩
    funext i; rcases i with i | i
    · exact congrFun h2 i
    · exact congrFun h1 i

/-- what the complex transition matrix does -/
theorem transition_iff (h0 : 0 < realsmall) (hl : s.loose = 0) (hr : q.nu ≤ s.unstable.r) (y y' : ι → ℂ) :
    y' = s.transitionC *ᵥ y ↔ unst q y' = 0 ∧ ∃ e, g0 *ᵥ y' = g1 *ᵥ y + pi *ᵥ e := by
  have h1 : s.transitionC *ᵥ y = (q.Z * (s.bigG0⁻¹ * fromRows (s.tMat * q.B) (0 : Matrix (Fin q.nu) (Fin q.ns ⊕ Fin q.nu) ℂ))) *ᵥ (q.Zᴴ *ᵥ y) := by
    rw [EtaSVD.transitionC, ← mulVec_mulVec]
  rw [h1, solve_iff]
  refine and_congr_right fun _ => ?_
  have hT : (s.tMat * q.B) *ᵥ (q.Zᴴ *ᵥ y) = (s.tMat * q.Q) *ᵥ (g1 *ᵥ y) := by
    rw [mulVec_mulVec, mulVec_mulVec, Matrix.mul_assoc, Matrix.mul_assoc, rot1]
  rw [hT, ← sub_eq_zero, ← mulVec_sub, ker_tMat s h0 hl hr]
  refine exists_congr fun e => ?_
  rw [sub_eq_iff_eq_add, add_comm]

/-- what the complex impact matrix does -/
theorem impact_iff (h0 : 0 < realsmall) (hl : s.loose = 0) (hr : q.nu ≤ s.unstable.r) (ε : κ → ℂ) (y' : ι → ℂ) :
    y' = s.impactC psi *ᵥ ε ↔ unst q y' = 0 ∧ ∃ e, g0 *ᵥ y' = psi *ᵥ ε + pi *ᵥ e := by
  rw [EtaSVD.impactC, solve_iff]
  refine and_congr_right fun _ => ?_
  rw [← mulVec_mulVec ε (s.tMat * q.Q) psi, ← sub_eq_zero, ← mulVec_sub, ker_tMat s h0 hl hr]
  refine exists_congr fun e => ?_
  rw [sub_eq_iff_eq_add, add_comm]

/-! ## counting -/

theorem count_spec (rs : ℝ) (l : List (ℂ × ℂ)) (k : ℕ) (z : Bool) :
    ((gensysCount rs l (k, z)).2 = true ↔ z = true ∨ ∃ p ∈ l, ‖p.1‖ < rs ∧ ‖p.2‖ < rs) ∧
    ((∀ p ∈ l, ¬ (‖p.1‖ < rs ∧ ‖p.2‖ < rs)) → (gensysCount rs l (k, z)).1 = k + (open Classical in l.countP fun p => ¬ ‖p.2‖ < ‖p.1‖)) := by
  induction l generalizing k z with
  | nil => simp [gensysCount]
  | cons p l ih =>
    obtain ⟨a, b⟩ := p
    rw [gensysCount]
    constructor
    · rw [(ih _ _).1]
      by_cases h : ‖a‖ < rs ∧ ‖b‖ < rs
      · simp [h]
      · rw [if_neg h]; simp only [List.mem_cons, exists_eq_or_imp, h, false_or]
    · intro hp
      rw [(ih _ _).2 (fun p hp' => hp p (List.mem_cons_of_mem _ hp'))]
      have h0 := hp (a, b) (List.mem_cons_self ..)
      simp only at h0
      have hiff : ((‖b‖ < rs ∧ rs ≤ ‖a‖) ∨ (rs ≤ ‖b‖ ∧ ‖b‖ < ‖a‖)) ↔ ‖b‖ < ‖a‖ := by
        constructor
        · rintro (⟨h1, h2⟩ | ⟨_, h2⟩)
          · linarith
          · exact h2
        · intro h
          by_cases h1 : rs ≤ ‖b‖
          · exact .inr ⟨h1, h⟩
          · refine .inl ⟨not_le.mp h1, ?_⟩
            by_contra h2
            exact h0 ⟨not_le.mp h2, not_le.mp h1⟩
      simp only [hiff]
      rw [List.countP_cons]
      by_cases h : ‖b‖ < ‖a‖
      · simp [h]
      · simp [h]; omega

theorem nondeg_of_count (h : (gensysCount realsmall q.pairs (0, false)).2 = false) (h0 : 0 < realsmall) : NonDeg q := by
  intro u hu
  have h1 := ((count_spec realsmall q.pairs 0 false).1).not
  rw [h] at h1
  apply h1.mp (by simp)
  right
  refine ⟨(q.A (.inr u) (.inr u), q.B (.inr u) (.inr u)), ?_, ?_, ?_⟩
  · exact List.mem_append_right _ (List.mem_map.mpr ⟨u, List.mem_finRange u, rfl⟩)
  · have := q.sorted₂ u
    simp only [not_lt] at this ⊢
    rw [hu, norm_zero] at this
    exact lt_of_le_of_lt this h0
  · simp only [hu, norm_zero]; exact h0

end Gen

end GE
