import Verif.Model.RealEig
import Mathlib.Analysis.Calculus.Deriv.Slope
import Mathlib.Analysis.Calculus.Deriv.Add
import Mathlib.Analysis.Calculus.Deriv.Comp
import Mathlib.Analysis.Calculus.Deriv.Mul
import Mathlib.Analysis.Complex.Basic
import Mathlib.Topology.Instances.Matrix
import Mathlib.LinearAlgebra.Matrix.Adjugate
import Mathlib.LinearAlgebra.Matrix.Charpoly.Eigs
import Mathlib.LinearAlgebra.Eigenspace.Matrix
import Mathlib.Analysis.Complex.Polynomial.Basic
/-! # C98: differentiable eigenvalues and the symbolic Blanchard-Kahn check -/

open Matrix Polynomial Filter Topology

namespace GE

/-- the eigenvalues that `real_eig` reports, put together from its two outputs -/
noncomputable def EigOracle.reported {m : ℕ} {M : Mat m m} (o : EigOracle M) (i : Fin m) : ℂ := ⟨o.perform.1 i, o.perform.2 i⟩

namespace REig

variable {m : ℕ} {M : Mat m m}

theorem reported_eq (o : EigOracle M) (i : Fin m) : o.reported i = o.vals (o.sortIdx i) := rfl

theorem root_det {N : Matrix (Fin m) (Fin m) ℂ} {l : Fin m → ℂ} (h : N.charpoly = ∏ i, (X - C (l i))) (i : Fin m) : (N - l i • (1 : Matrix (Fin m) (Fin m) ℂ)).det = 0 := by
  have h1 : N.charpoly.eval (l i) = 0 := by
    rw [h, eval_prod]
    exact Finset.prod_eq_zero (Finset.mem_univ i) (by simp)
  rw [Matrix.eval_charpoly] at h1
  have h2 : N - l i • (1 : Matrix (Fin m) (Fin m) ℂ) = -(scalar (Fin m) (l i) - N) := by
    rw [neg_sub]
    congr 1
    ext a b
    simp [Matrix.scalar_apply, diagonal_apply, one_apply]
  rw [h2, det_neg, h1, mul_zero]

/-- the eigenvectors of different eigenvalues are independent -/
theorem isUnit_V {N V : Matrix (Fin m) (Fin m) ℂ} {l : Fin m → ℂ} (hl : Function.Injective l) (he : N * V = V * diagonal l) (hne : ∀ i, ∃ r, V r i ≠ 0) : IsUnit V := by
  rw [← Matrix.linearIndependent_cols_iff_isUnit]
  refine Module.End.eigenvectors_linearIndependent' (Matrix.toLin' N) l hl V.col fun i => ?_
  rw [Module.End.hasEigenvector_iff, Module.End.mem_eigenspace_iff]
  constructor
  · rw [Matrix.toLin'_apply]
    ext r
    have := congrFun (congrFun he r) i
    rw [Matrix.mul_diagonal] at this
    rw [Matrix.mul_apply] at this
    simp only [Matrix.mulVec, dotProduct, Matrix.col_apply, Pi.smul_apply, smul_eq_mul]
    rw [this, mul_comm]
  · obtain ⟨r, hr⟩ := hne i
    intro h
    exact hr (congrFun h r)

theorem hasDerivAt_mul_zero {f g : ℝ → ℂ} {f' : ℂ} {t₀ : ℝ} (hf : HasDerivAt f f' t₀) (h0 : f t₀ = 0) (hg : ContinuousAt g t₀) :
    HasDerivAt (fun t => f t * g t) (f' * g t₀) t₀ := by
  rw [hasDerivAt_iff_tendsto_slope] at hf ⊢
  have h1 : Tendsto g (𝓝[≠] t₀) (𝓝 (g t₀)) := hg.tendsto.mono_left nhdsWithin_le_nhds
  refine (hf.mul h1).congr fun t => ?_
  simp only [slope, h0, vsub_eq_sub, sub_zero, zero_mul, smul_mul_assoc]

theorem adj_vec {N V : Matrix (Fin m) (Fin m) ℂ} {l : Fin m → ℂ} (hV : IsUnit V) (he : N * V = V * diagonal l) (i : Fin m) :
    (N - l i • (1 : Matrix (Fin m) (Fin m) ℂ)).adjugate *ᵥ V.col i = (∏ j ∈ Finset.univ.erase i, (l j - l i)) • V.col i := by
  have hd := (Matrix.isUnit_iff_isUnit_det V).1 hV
  have e1 : N - l i • (1 : Matrix (Fin m) (Fin m) ℂ) = V * diagonal (fun j => l j - l i) * V⁻¹ := by
    have : diagonal (fun j => l j - l i) = diagonal l - l i • (1 : Matrix (Fin m) (Fin m) ℂ) := by
      ext a b
      by_cases h : a = b
      · subst h; simp
      · simp [h]
    rw [this, Matrix.mul_sub, ← he, Matrix.sub_mul, Matrix.mul_assoc, Matrix.mul_nonsing_inv _ hd, Matrix.mul_one, Matrix.mul_smul, Matrix.mul_one, Matrix.smul_mul,
      Matrix.mul_nonsing_inv _ hd]
  have hVi : V⁻¹.adjugate = V⁻¹.det • V := by
    have h1 : V⁻¹ * V⁻¹.adjugate = V⁻¹.det • (1 : Matrix (Fin m) (Fin m) ℂ) := Matrix.mul_adjugate _
    have h2 := congrArg (V * ·) h1
    simp only [← Matrix.mul_assoc, Matrix.mul_nonsing_inv _ hd, Matrix.one_mul, Matrix.mul_smul, Matrix.mul_one] at h2
    exact h2
  have hVa : V.adjugate = V.det • V⁻¹ := by
    have h1 : V * V.adjugate = V.det • (1 : Matrix (Fin m) (Fin m) ℂ) := Matrix.mul_adjugate _
    have h2 := congrArg (V⁻¹ * ·) h1
    simp only [← Matrix.mul_assoc, Matrix.nonsing_inv_mul _ hd, Matrix.one_mul, Matrix.mul_smul, Matrix.mul_one] at h2
    exact h2
  have hdet : V⁻¹.det * V.det = 1 := by rw [← Matrix.det_mul, Matrix.nonsing_inv_mul _ hd, Matrix.det_one]
  have hcol : V⁻¹ *ᵥ V.col i = Pi.single i 1 := by
    ext a
    have := congrFun (congrFun (Matrix.nonsing_inv_mul V hd) a) i
    rw [Matrix.mul_apply, Matrix.one_apply] at this
    simp only [Matrix.mulVec, dotProduct, Matrix.col_apply]
    rw [this, Pi.single_apply]
  rw [e1, Matrix.adjugate_mul_distrib, Matrix.adjugate_mul_distrib, hVi, hVa, Matrix.adjugate_diagonal]
  simp only [Matrix.smul_mul, Matrix.mul_smul, Matrix.smul_mulVec, smul_smul, ← Matrix.mulVec_mulVec, hdet, one_smul]
  rw [hcol]
  ext a
  have hdet' : V.det * V.det⁻¹ = 1 := mul_inv_cancel₀ hd.ne_zero
  simp [Matrix.mulVec, dotProduct, Matrix.diagonal_apply, Pi.single_apply, mul_comm, hdet']

/-- first-order perturbation of one simple eigenvalue followed continuously -/
theorem simple_deriv {N : ℝ → Matrix (Fin m) (Fin m) ℂ} {N' V : Matrix (Fin m) (Fin m) ℂ} {l : Fin m → ℂ} {lam : ℝ → ℂ} {t₀ : ℝ} (i : Fin m)
    (hN : ∀ a b, HasDerivAt (fun t => N t a b) (N' a b) t₀) (hV : IsUnit V) (he : N t₀ * V = V * diagonal l) (hl : Function.Injective l)
    (hlam : ContinuousAt lam t₀) (h0 : lam t₀ = l i) (hroot : ∀ t, (N t - lam t • (1 : Matrix (Fin m) (Fin m) ℂ)).det = 0) :
    HasDerivAt lam ((V⁻¹ * N' * V) i i) t₀ := by
  have hd := (Matrix.isUnit_iff_isUnit_det V).1 hV
  set u : ℝ → Fin m → ℂ := fun t => (N t - lam t • (1 : Matrix (Fin m) (Fin m) ℂ)).adjugate *ᵥ V.col i with hu
  have hNc : ContinuousAt N t₀ := by
    refine tendsto_pi_nhds.2 fun a => tendsto_pi_nhds.2 fun b => (hN a b).continuousAt
  have huc : ∀ b, ContinuousAt (fun t => u t b) t₀ := by
    intro b
    have h1 : Continuous fun X : Matrix (Fin m) (Fin m) ℂ => (X.adjugate *ᵥ V.col i) b := by
      have : Continuous fun X : Matrix (Fin m) (Fin m) ℂ => X.adjugate *ᵥ V.col i := (Continuous.matrix_adjugate continuous_id).matrix_mulVec continuous_const
      exact (continuous_apply b).comp this
    have h2 : ContinuousAt (fun t => N t - lam t • (1 : Matrix (Fin m) (Fin m) ℂ)) t₀ := hNc.sub (hlam.smul continuousAt_const)
    exact ContinuousAt.comp (f := fun t => N t - lam t • (1 : Matrix (Fin m) (Fin m) ℂ)) h1.continuousAt h2
  have heig : ∀ t, N t *ᵥ u t = lam t • u t := by
    intro t
    have h1 : (N t - lam t • (1 : Matrix (Fin m) (Fin m) ℂ)) *ᵥ u t = 0 := by
      rw [hu]
      simp only
      rw [Matrix.mulVec_mulVec, Matrix.mul_adjugate, hroot, zero_smul, Matrix.zero_mulVec]
    rw [Matrix.sub_mulVec, Matrix.smul_mulVec, Matrix.one_mulVec, sub_eq_zero] at h1
    exact h1
  have hleft : V⁻¹ * N t₀ = diagonal l * V⁻¹ := by
    have h := congrArg (fun X => V⁻¹ * X * V⁻¹) he
    rw [← Matrix.mul_assoc, Matrix.mul_assoc (V⁻¹ * N t₀), Matrix.mul_nonsing_inv _ hd, Matrix.mul_one, ← Matrix.mul_assoc, Matrix.nonsing_inv_mul _ hd, Matrix.one_mul] at h
    exact h
  set s : ℝ → ℂ := fun t => (V⁻¹ *ᵥ u t) i with hs
  set c : ℂ := ∏ j ∈ Finset.univ.erase i, (l j - l i) with hc
  have hc0 : c ≠ 0 := by
    refine Finset.prod_ne_zero_iff.2 fun j hj h => ?_
    exact (Finset.mem_erase.1 hj).1 (hl (sub_eq_zero.1 h))
  have hu0 : u t₀ = c • V.col i := by
    rw [hu]
    simp only [h0]
    exact adj_vec hV he i
  have hs0 : s t₀ = c := by
    have hcol : (V⁻¹ *ᵥ V.col i) i = 1 := by
      have := congrFun (congrFun (Matrix.nonsing_inv_mul V hd) i) i
      rw [Matrix.mul_apply, Matrix.one_apply_eq] at this
      exact this
    rw [hs]
    simp only [hu0]
    rw [Matrix.mulVec_smul, Pi.smul_apply, hcol, smul_eq_mul, mul_one]
  have hsc : ContinuousAt s t₀ := by
    have : s = fun t => ∑ b, V⁻¹ i b * u t b := rfl
    rw [this]
    exact tendsto_finset_sum _ fun b _ => (continuousAt_const.mul (huc b))
  have hid : ∀ t, (∑ a, ∑ b, V⁻¹ i a * ((N t a b - N t₀ a b) * u t b)) = (lam t - l i) * s t := by
    intro t
    have h1 : (V⁻¹ *ᵥ ((N t - N t₀) *ᵥ u t)) i = (lam t - l i) * s t := by
      rw [Matrix.sub_mulVec, heig, Matrix.mulVec_sub, Matrix.mulVec_smul, Pi.sub_apply, Pi.smul_apply, Matrix.mulVec_mulVec (M := V⁻¹) (N := N t₀), hleft, ← Matrix.mulVec_mulVec,
        Matrix.mulVec_diagonal, smul_eq_mul, sub_mul]
    rw [← h1]
    simp only [Matrix.mulVec, dotProduct, Matrix.sub_apply, Finset.mul_sum]
  have hsum : HasDerivAt (fun t => ∑ a, ∑ b, V⁻¹ i a * ((N t a b - N t₀ a b) * u t b)) (∑ a, ∑ b, V⁻¹ i a * (N' a b * u t₀ b)) t₀ := by
    refine HasDerivAt.fun_sum fun a _ => HasDerivAt.fun_sum fun b _ => HasDerivAt.const_mul _ ?_
    exact hasDerivAt_mul_zero ((hN a b).sub_const _) (sub_self _) (huc b)
  have hinv : ContinuousAt (fun t => (s t)⁻¹) t₀ := hsc.inv₀ (by rw [hs0]; exact hc0)
  have hz : (∑ a, ∑ b, V⁻¹ i a * ((N t₀ a b - N t₀ a b) * u t₀ b)) = 0 := by simp
  have hfin := (hasDerivAt_mul_zero hsum hz hinv).add_const (l i)
  have hev : lam =ᶠ[𝓝 t₀] fun t => (∑ a, ∑ b, V⁻¹ i a * ((N t a b - N t₀ a b) * u t b)) * (s t)⁻¹ + l i := by
    have hne : ∀ᶠ t in 𝓝 t₀, s t ≠ 0 := hsc.eventually_ne (by rw [hs0]; exact hc0)
    filter_upwards [hne] with t ht
    rw [hid t, mul_assoc, mul_inv_cancel₀ ht, mul_one, sub_add_cancel]
  refine (hfin.congr_of_eventuallyEq hev).congr_deriv ?_
  rw [hs0, hu0]
  simp only [Pi.smul_apply, smul_eq_mul, Matrix.col_apply, Matrix.mul_apply, Finset.sum_mul]
  rw [Finset.sum_comm]
  refine Finset.sum_congr rfl fun b _ => Finset.sum_congr rfl fun a _ => ?_
  field_simp

end REig

/-- **C98 (values).** The two outputs of `real_eig` are the real and imaginary parts of the eigenvalues, each listed as often as its multiplicity, in order of ascending
modulus. -/
theorem C98_values {m : ℕ} {M : Mat m m} (o : EigOracle M) :
    (toC M).charpoly = ∏ i, (X - C (o.reported i)) ∧ ∀ i j, i ≤ j → ‖o.reported i‖ ≤ ‖o.reported j‖ := by
  constructor
  · rw [o.charpoly]
    exact (Equiv.prod_comp o.sortIdx fun i => (X - C (o.vals i))).symm
  · intro i j hij
    exact Tuple.monotone_sort (fun i => ‖o.vals i‖) hij

/-- **C98 (gradient).** Let a real matrix depend differentiably on a parameter, let its eigenvalues at `t₀` be pairwise different and let the outputs of `real_eig` be continuous
there (no two of them change places). Then the vector-Jacobian product that `real_eig` hands to automatic differentiation is exact: for all cotangents `g_re`, `g_im` (a
disconnected one counts as zero) the derivative of `∑ g_re · re + g_im · im` along the path is `∑ M̄ · M'`. -/
theorem C98_vjp {m : ℕ} (M : ℝ → Mat m m) (M' : Mat m m) (t₀ : ℝ) (hM : ∀ a b, HasDerivAt (fun t => M t a b) (M' a b) t₀) (o : ∀ t, EigOracle (M t))
    (hdist : Function.Injective (o t₀).vals) (hcont : ∀ i, ContinuousAt (fun t => (o t).perform.1 i) t₀ ∧ ContinuousAt (fun t => (o t).perform.2 i) t₀)
    (gReal gImag : Option (Fin m → ℝ)) :
    HasDerivAt (fun t => ∑ i, (gReal.getD 0 i * (o t).perform.1 i + gImag.getD 0 i * (o t).perform.2 i))
      (∑ a, ∑ b, (o t₀).pullback gReal gImag a b * M' a b) t₀ := by
  have hinj : Function.Injective (fun i => (o t₀).vals ((o t₀).sortIdx i)) := hdist.comp (Equiv.injective _)
  set V := (o t₀).V.submatrix id (o t₀).sortIdx with hVdef
  have he : toC (M t₀) * V = V * diagonal fun i => (o t₀).vals ((o t₀).sortIdx i) := by
    ext a b
    have := congrFun (congrFun (o t₀).eigen a) ((o t₀).sortIdx b)
    rw [Matrix.mul_diagonal] at this ⊢
    exact this
  have hV : IsUnit V := REig.isUnit_V hinj he fun i => (o t₀).ne _
  have key : ∀ i, HasDerivAt (fun t => (o t).reported i) ((V⁻¹ * toC M' * V) i i) t₀ := by
    intro i
    refine REig.simple_deriv (N := fun t => toC (M t)) i (fun a b => ?_) hV he hinj ?_ (REig.reported_eq _ _) fun t => ?_
    · exact (hM a b).ofReal_comp
    · have h1 : ContinuousAt (fun t => ((o t).perform.1 i : ℂ) + ((o t).perform.2 i : ℂ) * Complex.I) t₀ :=
        ((Complex.continuous_ofReal.continuousAt.comp (hcont i).1)).add ((Complex.continuous_ofReal.continuousAt.comp (hcont i).2).mul continuousAt_const)
      refine h1.congr (Eventually.of_forall fun t => ?_)
      exact (Complex.mk_eq_add_mul_I _ _).symm
    · exact REig.root_det (l := (o t).reported) (C98_values (o t)).1 i
  have hre : ∀ i, HasDerivAt (fun t => (o t).perform.1 i) ((V⁻¹ * toC M' * V) i i).re t₀ := fun i => (Complex.reCLM.hasFDerivAt.comp_hasDerivAt t₀ (key i))
  have him : ∀ i, HasDerivAt (fun t => (o t).perform.2 i) ((V⁻¹ * toC M' * V) i i).im t₀ := fun i => (Complex.imCLM.hasFDerivAt.comp_hasDerivAt t₀ (key i))
  have hall : HasDerivAt (fun t => ∑ i, (gReal.getD 0 i * (o t).perform.1 i + gImag.getD 0 i * (o t).perform.2 i))
      (∑ i, (gReal.getD 0 i * ((V⁻¹ * toC M' * V) i i).re + gImag.getD 0 i * ((V⁻¹ * toC M' * V) i i).im)) t₀ :=
    HasDerivAt.fun_sum fun i _ => ((hre i).const_mul _).add ((him i).const_mul _)
  refine hall.congr_deriv ?_
  have e1 : ∀ i, gReal.getD 0 i * ((V⁻¹ * toC M' * V) i i).re + gImag.getD 0 i * ((V⁻¹ * toC M' * V) i i).im =
      ∑ a, ∑ b, (V⁻¹ i a * ((gReal.getD 0 i : ℂ) - Complex.I * (gImag.getD 0 i : ℂ)) * V b i).re * M' a b := by
    intro i
    have e2 : gReal.getD 0 i * ((V⁻¹ * toC M' * V) i i).re + gImag.getD 0 i * ((V⁻¹ * toC M' * V) i i).im =
        (((gReal.getD 0 i : ℂ) - Complex.I * (gImag.getD 0 i : ℂ)) * (V⁻¹ * toC M' * V) i i).re := by
      simp [Complex.mul_re]
    rw [e2]
    simp only [Matrix.mul_apply, Finset.sum_mul, Finset.mul_sum, Complex.re_sum]
    rw [Finset.sum_comm]
    refine Finset.sum_congr rfl fun a _ => Finset.sum_congr rfl fun b _ => ?_
    have : (V⁻¹ i a * ((gReal.getD 0 i : ℂ) - Complex.I * (gImag.getD 0 i : ℂ)) * V b i).re * M' a b =
        (V⁻¹ i a * ((gReal.getD 0 i : ℂ) - Complex.I * (gImag.getD 0 i : ℂ)) * V b i * (M' a b : ℂ)).re := by
      rw [Complex.re_mul_ofReal]
    rw [this]
    congr 1
    simp only [toC, Matrix.map_apply, Complex.ofRealHom_eq_coe]
    ring
  rw [Finset.sum_congr rfl fun i _ => e1 i, Finset.sum_comm]
  refine Finset.sum_congr rfl fun a _ => ?_
  rw [Finset.sum_comm]
  refine Finset.sum_congr rfl fun b _ => ?_
  rw [← Finset.sum_mul]
  congr 1
  have e3 : (o t₀).pullback gReal gImag a b = (∑ i, V⁻¹ i a * ((gReal.getD 0 i : ℂ) - Complex.I * (gImag.getD 0 i : ℂ)) * V b i).re := by
    unfold EigOracle.pullback
    simp only [Matrix.map_apply]
    rw [Matrix.mul_apply]
    congr 1
    refine Finset.sum_congr rfl fun i _ => ?_
    rw [Matrix.mul_diagonal, Matrix.transpose_apply, Matrix.transpose_apply]
  rw [e3, Complex.re_sum]

end GE
