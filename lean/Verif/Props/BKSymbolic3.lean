import Verif.Props.BKSymbolic2
import Verif.Props.GensysExample
import Mathlib.Analysis.Calculus.Deriv.Pow
import Mathlib.Analysis.Calculus.Deriv.Inv
/-! # C98: concrete cases and limits -/

open Matrix Polynomial Filter Topology

namespace GE

namespace REig

variable {m : ℕ}

/-- every real matrix has the decomposition that `eig` promises -/
theorem oracle_exists (M : Mat m m) : Nonempty (EigOracle M) := by
  classical
  have hcard : (toC M).charpoly.roots.card = m := by
    rw [(splits_iff_card_roots).1 (IsAlgClosed.splits _), Matrix.charpoly_natDegree_eq_dim, Fintype.card_fin]
  obtain ⟨l, hl⟩ := Quot.exists_rep (toC M).charpoly.roots
  have hlen : l.length = m := by rw [← hcard, ← hl]; rfl
  set vals : Fin m → ℂ := fun i => l.get (i.cast hlen.symm) with hvals
  have hmem : ∀ i, vals i ∈ (toC M).charpoly.roots := by
    intro i
    rw [← hl]
    exact Multiset.mem_coe.2 (List.get_mem _ _)
  have hchar : (toC M).charpoly = ∏ i, (X - C (vals i)) := by
    have h1 := (IsAlgClosed.splits (toC M).charpoly).eq_prod_roots_of_monic (Matrix.charpoly_monic _)
    rw [h1, ← hl]
    change (Multiset.map (fun a => X - C a) (l : Multiset ℂ)).prod = _
    rw [Multiset.map_coe, Multiset.prod_coe]
    have h2 : l = List.ofFn vals := by
      apply List.ext_get
      · rw [List.length_ofFn, hlen]
      · intro i h1 h2
        simp [hvals]
    rw [h2, List.map_ofFn, List.prod_ofFn]
    rfl
  have hvec : ∀ i, ∃ v : Fin m → ℂ, v ≠ 0 ∧ toC M *ᵥ v = vals i • v := by
    intro i
    have hdet := root_det hchar i
    obtain ⟨v, hv, h0⟩ := Matrix.exists_mulVec_eq_zero_iff.2 hdet
    refine ⟨v, hv, ?_⟩
    rw [Matrix.sub_mulVec, Matrix.smul_mulVec, Matrix.one_mulVec, sub_eq_zero] at h0
    exact h0
  choose v hv0 hv using hvec
  refine ⟨⟨vals, Matrix.of fun r i => v i r, hchar, ?_, fun i => ?_⟩⟩
  · ext r i
    rw [Matrix.mul_diagonal]
    have := congrFun (hv i) r
    simp only [Matrix.mulVec, dotProduct, Pi.smul_apply, smul_eq_mul] at this
    rw [Matrix.mul_apply, Matrix.of_apply, mul_comm (v i r), ← this]
    rfl
  · by_contra hn
    push Not at hn
    exact hv0 i (funext hn)

/-- a diagonal matrix, with the decomposition `eig` gives -/
noncomputable def diagOracle (l : Fin m → ℝ) : EigOracle (diagonal l) where
  vals := fun i => (l i : ℂ)
  V := 1
  charpoly := by
    have : toC (diagonal l) = diagonal fun i => (l i : ℂ) := by
      ext a b
      by_cases h : a = b
      · subst h; simp [toC]
      · simp [toC, h]
    rw [this, Matrix.charpoly_diagonal]
  eigen := by
    have : toC (diagonal l) = diagonal fun i => (l i : ℂ) := by
      ext a b
      by_cases h : a = b
      · subst h; simp [toC]
      · simp [toC, h]
    rw [this, Matrix.mul_one, Matrix.one_mul]
  ne := fun i => ⟨i, by simp⟩

end REig

/-- `C98_vjp` on the path `diag(1 + t, 3)` at `t = 0`, with cotangents `(2, 5)` for the real parts and none for the imaginary parts -/
example : ∃ d, HasDerivAt (fun t : ℝ => ∑ i, ((some ![2, 5] : Option (Fin 2 → ℝ)).getD 0 i * (REig.diagOracle ![1 + t, 3]).perform.1 i +
    (none : Option (Fin 2 → ℝ)).getD 0 i * (REig.diagOracle ![1 + t, 3]).perform.2 i)) d 0 := by
  refine ⟨_, C98_vjp (fun t => diagonal ![1 + t, 3]) (diagonal ![1, 0]) 0 ?_ (fun t => REig.diagOracle ![1 + t, 3]) ?_ ?_ _ _⟩
  · intro a b
    fin_cases a <;> fin_cases b
    · simpa using (hasDerivAt_id (0 : ℝ)).const_add 1
    · simpa using hasDerivAt_const (0 : ℝ) (0 : ℝ)
    · simpa using hasDerivAt_const (0 : ℝ) (0 : ℝ)
    · simpa using hasDerivAt_const (0 : ℝ) (3 : ℝ)
  · intro i j h
    fin_cases i <;> fin_cases j <;> simp [REig.diagOracle] at h ⊢
  · have hs : ∀ᶠ t in 𝓝 (0 : ℝ), (REig.diagOracle ![1 + t, 3]).sortIdx = Equiv.refl _ := by
      have h1 : ∀ᶠ t in 𝓝 (0 : ℝ), t ∈ Set.Ioo (-1 : ℝ) 1 := isOpen_Ioo.mem_nhds (by norm_num)
      filter_upwards [h1] with t ht
      unfold EigOracle.sortIdx
      rw [Tuple.sort_eq_refl_iff_monotone]
      intro i j hij
      have e : ‖((1 : ℂ) + (t : ℂ))‖ = 1 + t := by
        rw [← Complex.ofReal_one, ← Complex.ofReal_add, Complex.norm_real, Real.norm_of_nonneg (by linarith [ht.1])]
      fin_cases i <;> fin_cases j <;> simp [REig.diagOracle, e] at hij ⊢
      linarith [ht.2]
    intro i
    have hv : ∀ᶠ t in 𝓝 (0 : ℝ), (REig.diagOracle ![1 + t, 3]).reported i = ((![1 + t, 3] i : ℝ) : ℂ) := by
      filter_upwards [hs] with t ht
      rw [REig.reported_eq, ht]
      rfl
    constructor
    · have hc : ContinuousAt (fun t : ℝ => (![1 + t, 3] : Fin 2 → ℝ) i) 0 := by
        fin_cases i
        · exact (continuous_const.add continuous_id).continuousAt
        · exact continuousAt_const
      refine hc.congr ?_
      filter_upwards [hv] with t ht
      have := congrArg Complex.re ht
      exact this.symm
    · refine (continuousAt_const (y := (0 : ℝ))).congr ?_
      filter_upwards [hv] with t ht
      have := congrArg Complex.im ht
      exact this.symm

namespace REig

theorem bk_scalar (a e : ℝ) (he : 1 + e ≠ 0) (lead : Fin 0 → Fin 1) : bkMatrixPt (a • 1) (-1) (0 : Mat 1 1) lead e = (a / (1 + e)) • (1 : Mat (1 + 0) (1 + 0)) := by
  have hg : gamma0Sel (-1) (0 : Mat 1 1) lead = -1 := by
    ext r c
    have hr : r = Fin.castAdd 0 0 := Subsingleton.elim (α := Fin 1) _ _
    have hc : c = Fin.castAdd 0 0 := Subsingleton.elim (α := Fin 1) _ _
    rw [hr, hc, g0_ll]
    simp
  have hg1 : gamma1Sel (a • 1 : Mat 1 1) lead = a • 1 := by
    ext r c
    have hr : r = Fin.castAdd 0 0 := Subsingleton.elim (α := Fin 1) _ _
    have hc : c = Fin.castAdd 0 0 := Subsingleton.elim (α := Fin 1) _ _
    rw [hr, hc, g1_ll]
    simp
  unfold bkMatrixPt
  rw [hg, hg1]
  have hG : (-(-1) + e • 1 : Mat (1 + 0) (1 + 0)) = (1 + e) • 1 := by
    rw [neg_neg, add_smul, one_smul]
  have hinv : ((1 + e) • 1 : Mat (1 + 0) (1 + 0))⁻¹ = (1 + e)⁻¹ • 1 := by
    apply Matrix.inv_eq_right_inv
    rw [Matrix.smul_mul, Matrix.one_mul, smul_smul, mul_inv_cancel₀ he, one_smul]
  rw [hG, hinv, Matrix.smul_mul, Matrix.one_mul, smul_smul, div_eq_inv_mul]

theorem reported_scalar {M : Mat (1 + 0) (1 + 0)} {x : ℝ} (hM : M = x • 1) (o : EigOracle M) (i : Fin (1 + 0)) : o.reported i = x := by
  have h := (C98_values o).1
  have hdiag : toC M = diagonal fun _ => (x : ℂ) := by
    ext r c
    have hrc : r = c := Subsingleton.elim (α := Fin 1) _ _
    subst hrc
    rw [hM]
    simp [toC]
  rw [hdiag, Matrix.charpoly_diagonal] at h
  have h1 := congrArg (eval (o.reported i)) h
  have h0 : (∏ j, (X - C (o.reported j))).eval (o.reported i) = 0 := by
    rw [eval_prod]
    exact Finset.prod_eq_zero (Finset.mem_univ i) (by simp)
  rw [h0, eval_prod] at h1
  obtain ⟨_, _, h2⟩ := Finset.prod_eq_zero_iff.1 h1
  rw [eval_sub, eval_X, eval_C, sub_eq_zero] at h2
  exact h2

end REig

/-- **C98, limit of the regularisation.** With the fixed constant `1e-8` of the code the count can be wrong: `x_t = (1 + 5e-9) x_{t-1}` is explosive, has no forward-looking variable, and
the check reports no unstable eigenvalue and a satisfied condition. -/
theorem C98_fixed_eps_violated :
    ∃ (A B C : Mat 1 1) (z : ℝ), 1 < z ∧ (∀ x : ℝ, A 0 0 * x + B 0 0 * (z * x) + C 0 0 * (z * (z * x)) = 0) ∧ C = 0 ∧
      ∀ (lead : Fin 0 → Fin 1) (o : EigOracle (bkMatrixPt A B C lead 1e-8)), checkBkPt o = (true, 0, 0) := by
  refine ⟨(1 + 5e-9 : ℝ) • 1, -1, 0, 1 + 5e-9, by norm_num, fun x => by simp, rfl, fun lead o => ?_⟩
  have h := REig.reported_scalar (REig.bk_scalar (1 + 5e-9) 1e-8 (by norm_num) lead) o
  have h0 : ∀ i, ¬1 < Real.sqrt ((bkEigenvaluesPt o).1 i ^ 2 + (bkEigenvaluesPt o).2 i ^ 2) := by
    intro i
    have hre : (bkEigenvaluesPt o).1 i = (1 + 5e-9) / (1 + 1e-8) := congrArg Complex.re (h i)
    have him : (bkEigenvaluesPt o).2 i = 0 := congrArg Complex.im (h i)
    rw [hre, him, not_lt, Real.sqrt_le_iff]
    norm_num
  classical
  unfold checkBkPt
  simp only [h0, Finset.filter_false, Finset.card_empty, decide_true]

/-- **C98, `eigenvalue_sensitivity` (perturbation_diagnostics.py:310-341).** The steady state enters the compiled function as inputs of its own, so the reported "gradients" are
derivatives at a fixed steady state. In the model `x_t = θ + (x_{t-1}² - θ²) / 2`, whose steady state is `θ` and whose eigenvalue there is `θ` (up to the regularisation), the
reported gradient is 0, although the eigenvalue moves with `θ`. -/
theorem C98_sensitivity_violated :
    ∃ (resid : ℝ → ℝ → ℝ → ℝ) (ss : ℝ → ℝ) (a : ℝ → ℝ → ℝ),
      (∀ θ, resid (ss θ) (ss θ) θ = 0) ∧
      (∀ s θ, HasDerivAt (fun x => resid x s θ) (a s θ) s ∧ HasDerivAt (fun x => resid s x θ) (-1) s) ∧
      ∀ (lead : Fin 0 → Fin 1) (o : ∀ s θ, EigOracle (bkMatrixPt (a s θ • 1) (-1) (0 : Mat 1 1) lead 1e-8)) (θ : ℝ) (i : Fin (1 + 0)),
        deriv (fun p => (bkEigenvaluesPt (o (ss θ) p)).1 i) θ = 0 ∧
        deriv (fun p => (bkEigenvaluesPt (o (ss p) p)).1 i) θ = 1 / (1 + 1e-8) := by
  refine ⟨fun x' x θ => θ + (x' ^ 2 - θ ^ 2) / 2 - x, fun θ => θ, fun s _ => s, fun θ => by ring, fun s θ => ⟨?_, ?_⟩, fun lead o θ i => ?_⟩
  · have h := ((((hasDerivAt_pow 2 s).sub_const (θ ^ 2)).div_const 2).const_add θ).sub_const s
    refine h.congr_deriv ?_
    norm_num
  · have h := ((hasDerivAt_id s).const_sub (θ + (s ^ 2 - θ ^ 2) / 2))
    exact h
  · have hval : ∀ s p, (bkEigenvaluesPt (o s p)).1 i = s / (1 + 1e-8) := by
      intro s p
      exact congrArg Complex.re (REig.reported_scalar (REig.bk_scalar s 1e-8 (by norm_num) lead) (o s p) i)
    simp only [hval]
    exact ⟨deriv_const _ _, by rw [deriv_div_const, deriv_id'']⟩

open GenEx in
/-- the hypotheses of `C98_regularised` for a system with one unstable root, one forward-looking variable and three eigenvalues -/
example : ∃ e₀ > 0, ∀ eps : ℝ, 0 < eps → eps < e₀ → ∀ o : EigOracle (bkMatrixPt bA bB bC (fun _ : Fin 1 => 1) eps), checkBkPt o = (true, 1, 1) := by
  have h := C98_regularised (k := 1) (lead := fun _ => 1) (C := bC) (tol := eTol) ⟨fun _ _ _ => Subsingleton.elim _ _, fun j => ?_⟩ bQZ ?_
  · exact h
  · fin_cases j
    · simp [bC, eTol]
    · simp [bC, eTol]; norm_num
  · rintro (i | i)
    · exact (bQZ.sorted₁ i).ne'
    · have hi : i = (0 : Fin 1) := Subsingleton.elim (α := Fin 1) _ _
      subst hi
      change ‖bAA (.inr 0) (.inr 0)‖ ≠ ‖bBB (.inr 0) (.inr 0)‖
      simp [bAA, bBB]

end GE
