import Verif.Props.BKSymbolic
import Mathlib.Topology.MetricSpace.Sequences
import Mathlib.Analysis.SpecificLimits.Basic
/-! # C98: the regularisation of the symbolic Blanchard-Kahn check is harmless when small -/

open Matrix Polynomial Filter Topology

namespace GE

namespace REig

variable {n k : ℕ}

/-- the number of forms `a z - b w` with `|b| < |a|`, resp. `|a| = |b|`, is determined by their product -/
theorem same_count {ι κ : Type} [Fintype ι] [Fintype κ] (a b : ι → ℂ) (a' b' : κ → ℂ) (hab : ∀ i, a i ≠ 0 ∨ b i ≠ 0) (hab' : ∀ i, a' i ≠ 0 ∨ b' i ≠ 0) (c c' : ℂ) (hc : c ≠ 0)
    (hc' : c' ≠ 0) (h : ∀ z, c * ∏ i, (a i * z - b i) = c' * ∏ i, (a' i * z - b' i)) :
    open Classical in
    (Finset.univ.filter fun i => ‖b i‖ < ‖a i‖).card = (Finset.univ.filter fun i => ‖b' i‖ < ‖a' i‖).card ∧
    (Finset.univ.filter fun i => a i ≠ 0 ∧ ‖b i‖ = ‖a i‖).card = (Finset.univ.filter fun i => a' i ≠ 0 ∧ ‖b' i‖ = ‖a' i‖).card := by
  classical
  have hp : (C c * ∏ i, (C (a i) * X - C (b i)) : ℂ[X]) = C c' * ∏ i, (C (a' i) * X - C (b' i)) := by
    refine Polynomial.funext fun z => ?_
    have := h z
    simpa [eval_prod] using this
  have hr := congrArg roots hp
  rw [roots_C_mul _ hc, roots_C_mul _ hc'] at hr
  have aux : ∀ {ι : Type} [Fintype ι] (a b : ι → ℂ), (Finset.univ.filter fun i => a i ≠ 0 ∧ ‖b i / a i‖ < 1) = Finset.univ.filter fun i => ‖b i‖ < ‖a i‖ := by
    intro ι _ a b
    refine Finset.filter_congr fun i _ => ?_
    constructor
    · rintro ⟨h1, h2⟩
      rwa [norm_div, div_lt_one (norm_pos_iff.2 h1)] at h2
    · intro h1
      have h2 : 0 < ‖a i‖ := lt_of_le_of_lt (norm_nonneg _) h1
      exact ⟨norm_pos_iff.1 h2, by rwa [norm_div, div_lt_one h2]⟩
  have aux2 : ∀ {ι : Type} [Fintype ι] (a b : ι → ℂ), (Finset.univ.filter fun i => a i ≠ 0 ∧ ‖b i / a i‖ = 1) = Finset.univ.filter fun i => a i ≠ 0 ∧ ‖b i‖ = ‖a i‖ := by
    intro ι _ a b
    refine Finset.filter_congr fun i _ => and_congr_right fun h1 => ?_
    rw [norm_div, div_eq_one_iff_eq (norm_ne_zero_iff.2 h1)]
  constructor
  · have h1 := count_roots a b hab fun z => ‖z‖ < 1
    have h2 := count_roots a' b' hab' fun z => ‖z‖ < 1
    rw [hr, h2, aux, aux] at h1
    exact h1.symm
  · have h1 := count_roots a b hab fun z => ‖z‖ = 1
    have h2 := count_roots a' b' hab' fun z => ‖z‖ = 1
    rw [hr, h2, aux2, aux2] at h1
    exact h1.symm

/-- for all small positive `eps` the regularised matrix is invertible -/
theorem reg_det (G : Mat n n) : ∃ e₀ > 0, ∀ eps : ℝ, 0 < eps → eps < e₀ → (-G + eps • (1 : Mat n n)).det ≠ 0 := by
  have hp : G.charpoly ≠ 0 := (Matrix.charpoly_monic G).ne_zero
  have hcl : IsClosed {r : ℝ | r ∈ G.charpoly.roots ∧ r ≠ 0} := by
    refine Set.Finite.isClosed ((G.charpoly.roots.toFinset.finite_toSet).subset fun r hr => ?_)
    simpa using hr.1
  have hmem : {r : ℝ | r ∈ G.charpoly.roots ∧ r ≠ 0}ᶜ ∈ 𝓝 (0 : ℝ) := hcl.isOpen_compl.mem_nhds fun h => h.2 rfl
  obtain ⟨e, he, hsub⟩ := Metric.mem_nhds_iff.1 hmem
  refine ⟨e, he, fun eps h0 h1 hd => ?_⟩
  have h2 : eps ∈ Metric.ball (0 : ℝ) e := by
    rw [Metric.mem_ball, Real.dist_eq, sub_zero, abs_of_pos h0]
    exact h1
  refine hsub h2 ⟨?_, h0.ne'⟩
  rw [mem_roots hp, IsRoot.def, Matrix.eval_charpoly]
  have : scalar (Fin n) eps - G = -G + eps • (1 : Mat n n) := by
    rw [sub_eq_add_neg, add_comm]
    congr 1
    ext a b
    by_cases h : a = b
    · subst h; simp
    · simp [h]
  rw [this]
  exact hd

theorem prod_ne {ι : Type} [Fintype ι] (a b : ι → ℂ) (hab : ∀ i, a i ≠ 0 ∨ b i ≠ 0) : ∃ z, ∏ i, (a i * z - b i) ≠ 0 := by
  by_contra hn
  push Not at hn
  have hp : (∏ i, (C (a i) * X - C (b i)) : ℂ[X]) = 0 := by
    refine Polynomial.funext fun z => ?_
    have := hn z
    simpa [eval_prod] using this
  obtain ⟨i, _, hi⟩ := Finset.prod_eq_zero_iff.1 hp
  rcases hab i with h1 | h1
  · apply h1
    have := congrArg (fun p => coeff p 1) hi
    simpa using this
  · apply h1
    have := congrArg (fun p => coeff p 0) hi
    simpa using this

/-- the pencil of the symbolic check without regularisation factors like the QZ form -/
theorem base_pencil {A B C : Mat n n} {tol : ℝ} {lead : Fin k → Fin n} (hl : ListsLeads C tol lead)
    (q : SortedQZ (toC (-setupG0 B C tol)) (toC (setupG1 A C tol))) :
    ∃ c : ℂ, c ≠ 0 ∧ ∀ z : ℂ, c * (z • toC (-gamma0Sel B C lead) - toC (gamma1Sel A lead)).det = ∏ i, (q.A i i * z - -q.B i i) := by
  obtain ⟨c, hc, h⟩ := qz_pencil q
  refine ⟨c * (-1) ^ (n + k), mul_ne_zero hc (pow_ne_zero _ (by norm_num)), fun z => ?_⟩
  have e1 : z • toC (-gamma0Sel B C lead) - toC (gamma1Sel A lead) =
      -((z • toC (-setupG0 B C tol) + (1 : ℂ) • toC (setupG1 A C tol)).submatrix (leadEquiv hl) (leadEquiv hl)) := by
    rw [gamma0_setup B hl, gamma1_setup A hl]
    ext a b
    simp [toC]
    ring
  rw [e1, Matrix.det_neg, Matrix.det_submatrix_equiv_self, Fintype.card_fin]
  have h1 := h z 1
  have : (-1 : ℂ) ^ (n + k) * (-1) ^ (n + k) = 1 := by rw [← mul_pow]; simp
  calc _ = ((-1 : ℂ) ^ (n + k) * (-1) ^ (n + k)) * (c * (z • toC (-setupG0 B C tol) + (1 : ℂ) • toC (setupG1 A C tol)).det) := by ring
    _ = _ := by
      rw [this, one_mul, h1]
      exact Finset.prod_congr rfl fun i _ => by ring

end REig

/-- **C98 (regularisation).** Let no generalised eigenvalue of the system lie on the unit circle (`|α_i| ≠ |β_i|` for all pairs of its generalised Schur form, which also excludes
the coincident zeros). Then for every sufficiently small positive `eps` the symbolic check counts exactly the unstable pairs of the generalised Schur form — infinite eigenvalues
included — and its flag says whether their number is that of the forward-looking variables. -/
theorem C98_regularised {n k : ℕ} {A B C : Mat n n} {tol : ℝ} {lead : Fin k → Fin n} (hl : ListsLeads C tol lead)
    (q : SortedQZ (toC (-setupG0 B C tol)) (toC (setupG1 A C tol))) (hcirc : ∀ i, ‖q.A i i‖ ≠ ‖q.B i i‖) :
    ∃ e₀ > 0, ∀ eps : ℝ, 0 < eps → eps < e₀ → ∀ o : EigOracle (bkMatrixPt A B C lead eps), checkBkPt o = (decide (k = q.nu), k, q.nu) := by
  classical
  by_contra hcon
  push Not at hcon
  obtain ⟨e₁, he₁, hdet⟩ := REig.reg_det (gamma0Sel B C lead)
  have hseq : ∀ N : ℕ, ∃ (eps : ℝ) (lam : Fin (n + k) → ℂ), 0 < eps ∧ eps < 1 / ((N : ℝ) + 1) ∧
      (∃ d : ℂ, ∀ z w : ℂ, (z • toC (-gamma0Sel B C lead + eps • (1 : Mat (n + k) (n + k))) - w • toC (gamma1Sel A lead)).det = d * ∏ i, (z - w * lam i)) ∧
      (Finset.univ.filter fun i => 1 < ‖lam i‖).card ≠ q.nu := by
    intro N
    obtain ⟨eps, h0, h1, o, ho⟩ := hcon (min e₁ (1 / ((N : ℝ) + 1))) (lt_min he₁ (by positivity))
    have hd := hdet eps h0 (lt_of_lt_of_le h1 (min_le_left _ _))
    refine ⟨eps, o.reported, h0, lt_of_lt_of_le h1 (min_le_right _ _), ⟨_, REig.sym_pencil o hd⟩, fun hcard => ho ?_⟩
    have hnorm : ∀ i, Real.sqrt ((bkEigenvaluesPt o).1 i ^ 2 + (bkEigenvaluesPt o).2 i ^ 2) = ‖o.reported i‖ := by
      intro i
      rw [Complex.norm_def, Complex.normSq_apply, ← sq, ← sq]
      rfl
    unfold checkBkPt
    simp only [hnorm]
    rw [hcard]
  choose eps lam hpos hsmall hdd hcount using hseq
  choose d hd using hdd
  -- normalised pairs
  set a : ℕ → Fin (n + k) → ℂ := fun N i => ((1 + ‖lam N i‖ : ℝ) : ℂ)⁻¹ with ha
  set b : ℕ → Fin (n + k) → ℂ := fun N i => lam N i * ((1 + ‖lam N i‖ : ℝ) : ℂ)⁻¹ with hb
  have hp1 : ∀ N i, (0 : ℝ) < 1 + ‖lam N i‖ := fun N i => by positivity
  have hna : ∀ N i, ‖a N i‖ = (1 + ‖lam N i‖)⁻¹ := by
    intro N i
    simp only [ha]
    rw [norm_inv, Complex.norm_real, Real.norm_of_nonneg (hp1 N i).le]
  have hnb : ∀ N i, ‖b N i‖ = ‖lam N i‖ * (1 + ‖lam N i‖)⁻¹ := by
    intro N i
    simp only [hb]
    rw [norm_mul, norm_inv, Complex.norm_real, Real.norm_of_nonneg (hp1 N i).le]
  have hsum : ∀ N i, ‖a N i‖ + ‖b N i‖ = 1 := by
    intro N i
    rw [hna, hnb, ← one_add_mul, mul_inv_cancel₀ (hp1 N i).ne']
  have hlt : ∀ N i, ‖a N i‖ < ‖b N i‖ ↔ 1 < ‖lam N i‖ := by
    intro N i
    rw [hna, hnb, lt_mul_iff_one_lt_left (inv_pos.2 (hp1 N i))]
  obtain ⟨u, φ, hφ, hlim⟩ : ∃ (u : Fin (n + k) → ℂ × ℂ) (φ : ℕ → ℕ), StrictMono φ ∧ Tendsto (fun N i => (a (φ N) i, b (φ N) i)) atTop (𝓝 u) := by
    obtain ⟨u, _, φ, hφ, h⟩ := tendsto_subseq_of_bounded (x := fun N i => (a N i, b N i)) (s := Metric.closedBall (0 : Fin (n + k) → ℂ × ℂ) 1) Metric.isBounded_closedBall (by
      intro N
      rw [mem_closedBall_zero_iff, pi_norm_le_iff_of_nonneg zero_le_one]
      intro i
      rw [Prod.norm_def]
      have := hsum N i
      have h1 := norm_nonneg (a N i)
      have h2 := norm_nonneg (b N i)
      exact max_le (by linarith) (by linarith))
    exact ⟨u, φ, hφ, h⟩
  have hla : ∀ i, Tendsto (fun N => a (φ N) i) atTop (𝓝 (u i).1) := fun i => ((continuous_fst.tendsto _).comp ((tendsto_pi_nhds.1 hlim) i))
  have hlb : ∀ i, Tendsto (fun N => b (φ N) i) atTop (𝓝 (u i).2) := fun i => ((continuous_snd.tendsto _).comp ((tendsto_pi_nhds.1 hlim) i))
  have husum : ∀ i, ‖(u i).1‖ + ‖(u i).2‖ = 1 := by
    intro i
    have h1 := ((hla i).norm).add ((hlb i).norm)
    simp only [hsum] at h1
    exact tendsto_nhds_unique h1 tendsto_const_nhds
  have hune : ∀ i, (u i).1 ≠ 0 ∨ (u i).2 ≠ 0 := by
    intro i
    by_contra hn
    push Not at hn
    have := husum i
    rw [hn.1, hn.2] at this
    simp at this
  have heps : Tendsto (fun N => eps (φ N)) atTop (𝓝 0) := by
    have h1 : Tendsto eps atTop (𝓝 0) := squeeze_zero (fun N => (hpos N).le) (fun N => (hsmall N).le) tendsto_one_div_add_atTop_nhds_zero_nat
    exact h1.comp hφ.tendsto_atTop
  set F : ℂ → ℝ → ℂ := fun z e => (z • toC (-gamma0Sel B C lead + e • (1 : Mat (n + k) (n + k))) - toC (gamma1Sel A lead)).det with hF
  have hFc : ∀ z, Continuous (F z) := by
    intro z
    refine Continuous.matrix_det ?_
    refine continuous_matrix fun i j => ?_
    simp only [toC, Matrix.sub_apply, Matrix.smul_apply, Matrix.map_apply, Matrix.add_apply, Matrix.neg_apply, smul_eq_mul]
    fun_prop
  have hPl : ∀ z, Tendsto (fun N => F z (eps (φ N))) atTop (𝓝 (F z 0)) := fun z => ((hFc z).tendsto 0).comp heps
  set cc : ℕ → ℂ := fun N => d N * ∏ i, ((1 + ‖lam N i‖ : ℝ) : ℂ) with hcc
  have hFe : ∀ N z, F z (eps N) = cc N * ∏ i, (a N i * z - b N i) := by
    intro N z
    have h1 := hd N z 1
    rw [one_smul] at h1
    simp only [hF, h1, hcc]
    rw [mul_assoc, ← Finset.prod_mul_distrib]
    congr 1
    refine Finset.prod_congr rfl fun i _ => ?_
    have h2 : ((1 + ‖lam N i‖ : ℝ) : ℂ) ≠ 0 := by exact_mod_cast (hp1 N i).ne'
    simp only [ha, hb]
    field_simp
  have hLl : ∀ z, Tendsto (fun N => ∏ i, (a (φ N) i * z - b (φ N) i)) atTop (𝓝 (∏ i, ((u i).1 * z - (u i).2))) := fun z =>
    tendsto_finset_prod _ fun i _ => ((hla i).mul_const z).sub (hlb i)
  obtain ⟨z₀, hz₀⟩ := REig.prod_ne (fun i => (u i).1) (fun i => (u i).2) hune
  set c : ℂ := F z₀ 0 / ∏ i, ((u i).1 * z₀ - (u i).2) with hcdef
  have hcl : Tendsto (fun N => cc (φ N)) atTop (𝓝 c) := by
    have h1 := (hPl z₀).div (hLl z₀) hz₀
    refine h1.congr' ?_
    filter_upwards [(hLl z₀).eventually_ne hz₀] with N hN
    simp only [Pi.div_apply, hFe]
    rw [mul_div_cancel_right₀ _ hN]
  have hlimit : ∀ z, F z 0 = c * ∏ i, ((u i).1 * z - (u i).2) := by
    intro z
    refine tendsto_nhds_unique (hPl z) ?_
    refine (hcl.mul (hLl z)).congr fun N => ?_
    rw [hFe]
  obtain ⟨κ, hκ, hbase⟩ := REig.base_pencil hl q
  have hAB : ∀ i, q.A i i ≠ 0 ∨ -q.B i i ≠ 0 := by
    intro i
    by_contra hn
    push Not at hn
    refine hcirc i ?_
    rw [hn.1, neg_eq_zero.1 hn.2]
  have hF0 : ∀ z, F z 0 = (z • toC (-gamma0Sel B C lead) - toC (gamma1Sel A lead)).det := by
    intro z
    simp only [hF, zero_smul, add_zero]
  have hprod : ∀ z, (κ * c) * ∏ i, ((u i).1 * z - (u i).2) = 1 * ∏ i, (q.A i i * z - -q.B i i) := by
    intro z
    rw [one_mul, ← hbase z, ← hF0, hlimit z, mul_assoc]
  have hc0 : κ * c ≠ 0 := by
    intro h
    obtain ⟨z, hz⟩ := REig.prod_ne (fun i => q.A i i) (fun i => -q.B i i) hAB
    have := hprod z
    rw [h, zero_mul, one_mul] at this
    exact hz this.symm
  obtain ⟨c1, c2⟩ := REig.same_count (fun i => (u i).1) (fun i => (u i).2) (fun i => q.A i i) (fun i => -q.B i i) hune hAB _ 1 hc0 one_ne_zero hprod
  have hne : ∀ i, ‖(u i).1‖ ≠ ‖(u i).2‖ := by
    intro i hi
    have h0 : (Finset.univ.filter fun i => q.A i i ≠ 0 ∧ ‖-q.B i i‖ = ‖q.A i i‖).card = 0 := by
      rw [Finset.card_eq_zero, Finset.filter_eq_empty_iff]
      intro j _ hj
      rw [norm_neg] at hj
      exact hcirc j hj.2.symm
    rw [h0, Finset.card_eq_zero, Finset.filter_eq_empty_iff] at c2
    refine c2 (Finset.mem_univ i) ⟨fun h => ?_, hi.symm⟩
    have := husum i
    rw [← hi, h] at this
    simp at this
  have hns : (Finset.univ.filter fun i => ‖-q.B i i‖ < ‖q.A i i‖).card = q.ns := by
    have : (Finset.univ.filter fun i => ‖-q.B i i‖ < ‖q.A i i‖) = Finset.univ.image (Sum.inl : Fin q.ns → Fin q.ns ⊕ Fin q.nu) := by
      ext i
      simp only [Finset.mem_filter, Finset.mem_univ, true_and, Finset.mem_image, norm_neg]
      rcases i with i | i
      · simp [q.sorted₁ i]
      · simp only [reduceCtorEq, exists_false, iff_false]
        exact q.sorted₂ i
    rw [this, Finset.card_image_of_injective _ Sum.inl_injective, Finset.card_univ, Fintype.card_fin]
  have hm : q.ns + q.nu = n + k := by
    have h1 := REig.qz_card q
    rw [Fintype.card_sum, Fintype.card_fin, Fintype.card_fin, ← Fintype.card_congr (REig.leadEquiv hl), Fintype.card_fin] at h1
    exact h1
  have hnu : (Finset.univ.filter fun i => ‖(u i).1‖ < ‖(u i).2‖).card = q.nu := by
    have h1 := Finset.card_filter_add_card_filter_not (s := (Finset.univ : Finset (Fin (n + k)))) fun i => ‖(u i).2‖ < ‖(u i).1‖
    have h2 : (Finset.univ.filter fun i => ¬‖(u i).2‖ < ‖(u i).1‖) = Finset.univ.filter fun i => ‖(u i).1‖ < ‖(u i).2‖ := by
      refine Finset.filter_congr fun i _ => ?_
      rw [not_lt]
      exact ⟨fun h => lt_of_le_of_ne h (hne i), le_of_lt⟩
    rw [h2, c1, hns, Finset.card_univ, Fintype.card_fin] at h1
    omega
  have hev : ∀ᶠ N in atTop, ∀ i, (‖a (φ N) i‖ < ‖b (φ N) i‖ ↔ ‖(u i).1‖ < ‖(u i).2‖) := by
    rw [Filter.eventually_all]
    intro i
    rcases lt_or_gt_of_ne (hne i) with h | h
    · filter_upwards [((hla i).norm).eventually_lt ((hlb i).norm) h] with N hN
      exact ⟨fun _ => h, fun _ => hN⟩
    · filter_upwards [((hlb i).norm).eventually_lt ((hla i).norm) h] with N hN
      exact ⟨fun h' => absurd h' (not_lt.2 hN.le), fun h' => absurd h' (not_lt.2 h.le)⟩
  obtain ⟨N, hN⟩ := hev.exists
  refine hcount (φ N) ?_
  rw [← hnu]
  congr 1
  refine Finset.filter_congr fun i _ => ?_
  rw [← hlt, hN i]

end GE
