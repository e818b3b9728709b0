import Verif.Props.GensysSolution
import Mathlib.LinearAlgebra.Matrix.Block
import Mathlib.LinearAlgebra.Matrix.ToLinearEquiv
import Mathlib.Algebra.Polynomial.Roots
/-! # C40: the Blanchard-Kahn check -/

open Matrix Filter Topology

namespace GE

namespace Gen

section intrinsic
variable {ι : Type} [Fintype ι] [DecidableEq ι] {g0 g1 g0' : Matrix ι ι ℂ}

/-- `unst` as a linear map -/
def unstL (q : SortedQZ g0 g1) : (ι → ℂ) →ₗ[ℂ] (Fin q.nu → ℂ) where
  toFun := unst q
  map_add' := unst_add
  map_smul' c y := by funext u; simp [unst, mulVec_smul]

theorem card_eq (q : SortedQZ g0 g1) : Module.finrank ℂ (LinearMap.ker (unstL q)) + q.nu = Fintype.card ι := by
  have hs : LinearMap.range (unstL q) = ⊤ := LinearMap.range_eq_top.mpr fun c =>
    ⟨q.Z *ᵥ Sum.elim 0 c, by funext u; change unst q _ u = _; simp only [unst]; rw [ofCoords_inr]; rfl⟩
  have := LinearMap.finrank_range_add_finrank_ker (unstL q)
  rw [hs, finrank_top, Module.finrank_fintype_fun_eq_card, Module.finrank_fintype_fun_eq_card, Fintype.card_fin] at this
  omega

/-- vanishing solutions are the same up to the sign of `g0` -/
theorem flip_paths (c : ℂ) (hc : ‖c‖ = 1) (hg : g0' = c • g0) (y : ι → ℂ)
    (h : ∃ p : ℕ → ι → ℂ, p 0 = y ∧ (∀ t, g0 *ᵥ p (t + 1) = g1 *ᵥ p t) ∧ Tendsto p atTop (𝓝 0)) :
    ∃ p : ℕ → ι → ℂ, p 0 = y ∧ (∀ t, g0' *ᵥ p (t + 1) = g1 *ᵥ p t) ∧ Tendsto p atTop (𝓝 0) := by
  obtain ⟨p, h0, hp, hl⟩ := h
  have hc0 : c ≠ 0 := by rintro rfl; simp at hc
  refine ⟨fun t => (c⁻¹ ^ t) • p t, by simp [h0], fun t => ?_, ?_⟩
  · rw [hg, smul_mulVec, mulVec_smul, mulVec_smul, hp t, smul_smul, pow_succ, mul_comm (c⁻¹ ^ t), ← mul_assoc, mul_inv_cancel₀ hc0, one_mul]
  · rw [tendsto_pi_nhds] at hl ⊢
    intro i
    have h1 := hl i
    rw [Pi.zero_apply] at h1 ⊢
    rw [tendsto_zero_iff_norm_tendsto_zero] at h1 ⊢
    refine h1.congr fun t => ?_
    rw [Pi.smul_apply, smul_eq_mul, norm_mul, norm_pow, norm_inv, hc, inv_one, one_pow, one_mul]

/-- the number of unstable pairs does not depend on the decomposition -/
theorem nu_eq (c : ℂ) (hc : ‖c‖ = 1) (hg : g0' = c • g0) (q : SortedQZ g0 g1) (q' : SortedQZ g0' g1) (hq : NonDeg q) (hq' : NonDeg q') : q'.nu = q.nu := by
  have hc0 : c ≠ 0 := by rintro rfl; simp at hc
  have hk : LinearMap.ker (unstL q) = LinearMap.ker (unstL q') := by
    ext y
    change unst q y = 0 ↔ unst q' y = 0
    rw [unst_iff hq, unst_iff hq']
    refine ⟨flip_paths c hc hg y, flip_paths c⁻¹ (by rw [norm_inv, hc, inv_one]) ?_ y⟩
    rw [hg, smul_smul, inv_mul_cancel₀ hc0, one_smul]
  have h1 := card_eq q
  have h2 := card_eq q'
  rw [hk] at h1
  omega

end intrinsic

/-- no pair is exactly (0, 0): the matrix pencil is regular -/
theorem pencil_inj {ι : Type} [Fintype ι] [DecidableEq ι] {g0 g1 : Matrix ι ι ℂ} (q : SortedQZ g0 g1) (z w : ℂ) :
    (∀ y, (z • g0 + w • g1) *ᵥ y = 0 → y = 0) ↔ (∀ i, z * q.A i i + w * q.B i i ≠ 0) := by
  have hQ : q.Q * (z • g0 + w • g1) = (z • q.A + w • q.B) * q.Zᴴ := by
    rw [Matrix.mul_add, Matrix.mul_smul, Matrix.mul_smul, rot0, rot1, Matrix.add_mul, Matrix.smul_mul, Matrix.smul_mul]
  have h1 : (∀ y, (z • g0 + w • g1) *ᵥ y = 0 → y = 0) ↔ (∀ c, (z • q.A + w • q.B) *ᵥ c = 0 → c = 0) := by
    constructor
    · intro h c hc
      have h2 : (z • g0 + w • g1) *ᵥ (q.Z *ᵥ c) = 0 := by
        apply Q_inj q
        rw [mulVec_mulVec, hQ, ← mulVec_mulVec, ofCoords_inr, hc]
      have h3 := h _ h2
      have := congrArg (q.Zᴴ *ᵥ ·) h3
      simpa [mulVec_mulVec, q.Z_left] using this
    · intro h y hy
      apply coords_zero q
      apply h
      rw [mulVec_mulVec, ← hQ, ← mulVec_mulVec, hy, mulVec_zero]
  rw [h1]
  have hdet : (z • q.A + w • q.B).det = ∏ i, (z * q.A i i + w * q.B i i) := by
    rw [Fintype.prod_sum_type]
    have hb : z • q.A + w • q.B = fromBlocks (z • A11 q + w • B11 q) (z • q.A.toBlocks₁₂ + w • q.B.toBlocks₁₂) 0 (z • A22 q + w • B22 q) := by
      ext (i | i) (j | j) <;> simp [A11, B11, A22, B22, toBlocks₁₁, toBlocks₁₂, toBlocks₂₂, q.A_low, q.B_low]
    rw [hb, det_fromBlocks_zero₂₁, det_of_isUpperTriangular (M := z • A11 q + w • B11 q), det_of_isUpperTriangular (M := z • A22 q + w • B22 q)]
    · rfl
    · intro i j hij
      have e1 := q.A_tri₂ i j hij
      have e2 := q.B_tri₂ i j hij
      simp [A22, B22, toBlocks₂₂, e1, e2]
    · intro i j hij
      have e1 := q.A_tri₁ i j hij
      have e2 := q.B_tri₁ i j hij
      simp [A11, B11, toBlocks₁₁, e1, e2]
  have hall : (∀ i, z * q.A i i + w * q.B i i ≠ 0) ↔ (z • q.A + w • q.B).det ≠ 0 := by
    rw [hdet, Finset.prod_ne_zero_iff]; simp
  rw [hall]
  constructor
  · intro h hd
    obtain ⟨v, hv, hv0⟩ := exists_mulVec_eq_zero_iff.mpr hd
    exact hv (h v hv0)
  · intro h v hv
    by_contra hn
    exact h (exists_mulVec_eq_zero_iff.mp ⟨v, hn, hv⟩)

theorem regular_iff {ι : Type} [Fintype ι] [DecidableEq ι] {g0 g1 : Matrix ι ι ℂ} (q : SortedQZ g0 g1) :
    NonDeg q ↔ ∃ z w : ℂ, ∀ y, (z • g0 + w • g1) *ᵥ y = 0 → y = 0 := by
  simp only [pencil_inj q]
  constructor
  · intro h
    let p : Polynomial ℂ := ∏ i, (Polynomial.C (q.A i i) * Polynomial.X + Polynomial.C (q.B i i))
    have hp : p ≠ 0 := by
      refine Finset.prod_ne_zero_iff.mpr fun i _ hi => ?_
      have h1 : q.A i i = 0 := by have := congrArg (Polynomial.coeff · 1) hi; simpa using this
      have h2 : q.B i i = 0 := by have := congrArg (Polynomial.coeff · 0) hi; simpa using this
      rcases i with i | i
      · exact diagA q i h1
      · exact h i h2
    have : ∃ z, p.eval z ≠ 0 := by
      by_contra hn
      push Not at hn
      exact hp (Polynomial.funext (by simpa using hn))
    obtain ⟨z, hz⟩ := this
    refine ⟨z, 1, fun i hi => hz ?_⟩
    rw [Polynomial.eval_prod]
    refine Finset.prod_eq_zero (Finset.mem_univ i) ?_
    simp only [Polynomial.eval_add, Polynomial.eval_mul, Polynomial.eval_C, Polynomial.eval_X]
    rw [← hi]; ring
  · rintro ⟨z, w, h⟩ u hu
    have h1 := h (.inr u)
    have h2 := q.sorted₂ u
    rw [hu, norm_zero, not_lt, norm_le_zero_iff] at h2
    rw [hu, h2] at h1
    simp at h1

theorem nondeg_flip {ι : Type} [Fintype ι] [DecidableEq ι] {g0 g0' g1 : Matrix ι ι ℂ} (hg : g0' = -g0) (q : SortedQZ g0 g1) (q' : SortedQZ g0' g1)
    (h : NonDeg q) : NonDeg q' := by
  rw [regular_iff] at h ⊢
  obtain ⟨z, w, h⟩ := h
  refine ⟨-z, w, ?_⟩
  rw [hg, smul_neg, neg_smul, neg_neg]
  exact h

end Gen

open Gen

/-! ## the report -/

/-- number of values outside the unit circle -/
noncomputable def outsideUnitCircle (vals : List ℂ) : ℕ := open Classical in (vals.filter fun z => 1 < ‖z‖).length

/-- C40: what the check reports, raises and returns -/
theorem C40_report (vals : List ℂ) (nForward : ℕ) (r : Bool) (what : BKWhat) :
    (checkBK vals nForward r what = .badReturnValue ↔ what = .other) ∧
    (what ≠ .other →
      let nU := outsideUnitCircle vals
      let msg : BKMsg := if nForward < nU then .noStable else if nU < nForward then .noUnique else .satisfied
      (nU ≠ nForward ∧ r = true → checkBK vals nForward r what = .raised msg nU nForward) ∧
      (nU = nForward ∨ r = false →
        (what = .bool → checkBK vals nForward r what = .ok (.flag (decide (nU = nForward))) msg nU nForward) ∧
        (what = .none → checkBK vals nForward r what = .ok .nothing msg nU nForward) ∧
        (what = .dataframe → checkBK vals nForward r what = .ok (.table (vals.map fun z => (‖z‖, z.re, z.im))) msg nU nForward))) := by
  have hn : ∀ z : ℂ, Real.sqrt (z.re ^ 2 + z.im ^ 2) = ‖z‖ := fun z => by
    rw [Complex.norm_def, Complex.normSq_apply]; congr 1; ring
  have hu : bkUnstable vals = outsideUnitCircle vals := by
    classical
    rw [bkUnstable, outsideUnitCircle, List.countP_eq_length_filter]
    simp only [hn]
  have key : what ≠ .other → checkBK vals nForward r what = (if nForward ≠ outsideUnitCircle vals ∧ r = true
      then .raised (if nForward = outsideUnitCircle vals then .satisfied else if nForward < outsideUnitCircle vals then .noStable else .noUnique) (outsideUnitCircle vals) nForward
      else .ok (match what with
        | .dataframe => .table (vals.map fun z => (‖z‖, z.re, z.im))
        | .bool => .flag (decide (nForward = outsideUnitCircle vals))
        | _ => .nothing) (if nForward = outsideUnitCircle vals then .satisfied else if nForward < outsideUnitCircle vals then .noStable else .noUnique) (outsideUnitCircle vals) nForward) := by
    intro h
    rw [checkBK, if_neg h]
    simp only [hu, hn]
    cases what <;> rfl
  generalize outsideUnitCircle vals = nU at key ⊢
  constructor
  · constructor
    · intro h
      by_contra hw
      rw [key hw] at h
      split at h <;> cases h
    · rintro rfl; rw [checkBK, if_pos rfl]
  intro hw
  rw [key hw]
  have hmsg : (if nForward = nU then BKMsg.satisfied else if nForward < nU then .noStable else .noUnique) =
      (if nForward < nU then .noStable else if nU < nForward then .noUnique else .satisfied) := by
    rcases lt_trichotomy nForward nU with h | h | h
    · simp [h, ne_of_lt h]
    · simp [h]
    · simp [ne_of_gt h, not_lt.mpr h.le, h]
  rw [hmsg]
  refine ⟨fun h => ?_, fun h => ?_⟩
  · rw [if_pos ⟨fun h' => h.1 h'.symm, h.2⟩]
  · rw [if_neg (by rintro ⟨h1, h2⟩; rcases h with h | h; exacts [h1 h.symm, by simp [h] at h2])]
    refine ⟨?_, ?_, ?_⟩ <;> rintro rfl
    · simp [eq_comm]
    · rfl
    · rfl

variable {n k : ℕ} {A B C : Mat n n} {D : Mat n k} {tol : ℝ}

/-- a root is well separated from the unit circle relative to the tolerance added to the denominator -/
def Separated (tol : ℝ) (p : ℂ × ℂ) : Prop := ‖p.2‖ + tol ≤ ‖p.1‖ ∨ (‖p.1‖ + tol < ‖p.2‖ ∧ p.1 + (tol : ℂ) ≠ 0)

/-- C40: when no root is within the tolerance of the unit circle, the number of unstable roots the check counts is the number of pairs with
`|beta| ≥ |alpha|` of the decomposition -/
theorem C40_unstable_count (h0 : 0 < tol) (q : SortedQZ (toC (-setupG0 B C tol)) (toC (setupG1 A C tol))) (hs : ∀ p ∈ q.pairs, Separated tol p) :
    bkUnstable (bkEigenvalues q) = q.nu := by
  classical
  have hn : ∀ z : ℂ, Real.sqrt (z.re ^ 2 + z.im ^ 2) = ‖z‖ := fun z => by
    rw [Complex.norm_def, Complex.normSq_apply]; congr 1; ring
  have hcls : ∀ p ∈ q.pairs, (1 < ‖p.2 / (p.1 + (tol : ℂ))‖ ↔ ¬ ‖p.2‖ < ‖p.1‖) := by
    intro p hp
    have htol : ‖(tol : ℂ)‖ = tol := by simp [abs_of_pos h0]
    rcases hs p hp with h | ⟨h, hne⟩
    · have h1 : ‖p.1‖ ≤ ‖p.1 + (tol : ℂ)‖ + tol := by
        have := norm_sub_le (p.1 + (tol : ℂ)) (tol : ℂ)
        rwa [add_sub_cancel_right, htol] at this
      have h2 : ¬ 1 < ‖p.2 / (p.1 + (tol : ℂ))‖ := by
        rw [norm_div, not_lt]
        apply div_le_one_of_le₀ _ (norm_nonneg _)
        linarith
      simp only [h2, false_iff, not_not]; linarith
    · have h1 : ‖p.1 + (tol : ℂ)‖ ≤ ‖p.1‖ + tol := by
        have := norm_add_le p.1 (tol : ℂ)
        rwa [htol] at this
      have h2 : 1 < ‖p.2 / (p.1 + (tol : ℂ))‖ := by
        rw [norm_div, one_lt_div (norm_pos_iff.mpr hne)]
        linarith
      simp only [h2, true_iff]; linarith
  rw [bkUnstable, bkEigenvalues, List.countP_map]
  have hc : List.countP ((fun z : ℂ => decide (1 < Real.sqrt (z.re ^ 2 + z.im ^ 2))) ∘ fun p : ℂ × ℂ => p.2 / (p.1 + (tol : ℂ))) q.pairs =
      List.countP (fun p => decide (¬ ‖p.2‖ < ‖p.1‖)) q.pairs := by
    apply List.countP_congr
    intro p hp
    have := hcls p hp
    simp only [Function.comp, hn, decide_eq_true_eq]
    exact this
  rw [hc, SortedQZ.pairs, List.countP_append, List.countP_map, List.countP_map]
  rw [List.countP_eq_zero.mpr (by intro i _; simpa using q.sorted₁ i), zero_add, List.countP_eq_length.mpr (by intro i _; simpa using q.sorted₂ i),
    List.length_finRange]

namespace Gen
/-- when gensys returns a solution, there are as many trailing pairs as forward-looking variables -/
theorem nu_card (h0 : 0 < tol) (o : GensysOracle A B C tol) {T : Mat n n} {R : Mat n k} {f : Bool}
    (h : modelSolveGensys D o f = .solved T R) : o.qz.nu = Fintype.card (Lead C tol) := by
  classical
  obtain ⟨hz, hr, hl, -, -⟩ := solved_data h
  have hnd := nd hz h0
  have hs1 := (svd_surj_iff o.svd.unstable h0).mp (by simpa using hr)
  let Lm : (Lead C tol → ℂ) →ₗ[ℂ] (Fin o.qz.nu → ℂ) := (o.qz.Q2 * toC (setupPi C tol)).mulVecLin
  have hinj : Function.Injective Lm := by
    rw [injective_iff_map_eq_zero]
    intro w hw
    have hw' : (o.qz.Q2 * toC (setupPi C tol)) *ᵥ w = 0 := hw
    rw [Q2Pi] at hw'
    exact (loose_iff hz h0).mp hl w (B22_inj hnd hw')
  have := LinearEquiv.finrank_eq (LinearEquiv.ofBijective Lm ⟨hinj, fun c => hs1 c⟩)
  rw [Module.finrank_fintype_fun_eq_card, Module.finrank_fintype_fun_eq_card, Fintype.card_fin] at this
  exact this.symm

end Gen

/-- C40: whenever gensys returns a solution, the check finds as many unstable roots as forward-looking variables (roots being separated from the
unit circle by the tolerance) -/
theorem C40_necessary (h0 : 0 < tol) (o : GensysOracle A B C tol) {T : Mat n n} {R : Mat n k} {f : Bool}
    (h : modelSolveGensys D o f = .solved T R) (q : SortedQZ (toC (-setupG0 B C tol)) (toC (setupG1 A C tol))) (hs : ∀ p ∈ q.pairs, Separated tol p) :
    bkUnstable (bkEigenvalues q) = bkForward C tol ∧ ∀ r, checkBK (bkEigenvalues q) (bkForward C tol) r .bool =
      .ok (.flag true) .satisfied (bkForward C tol) (bkForward C tol) := by
  classical
  obtain ⟨hz, -, -, -, -⟩ := solved_data h
  have hg : toC (-setupG0 B C tol) = -toC (setupG0 B C tol) := by ext i j; simp [toC]
  have hnd := nd hz h0
  have hnu : q.nu = o.qz.nu := nu_eq (-1) (by simp) (by rw [hg]; simp) o.qz q hnd (nondeg_flip hg o.qz q hnd)
  have hcard : o.qz.nu = Fintype.card (Lead C tol) := Gen.nu_card h0 o h
  have hf : bkForward C tol = Fintype.card (Lead C tol) := by
    rw [bkForward, ← Fintype.card_subtype]
  have hmain : bkUnstable (bkEigenvalues q) = bkForward C tol := by rw [C40_unstable_count h0 q hs, hnu, hcard, hf]
  refine ⟨hmain, fun r => ?_⟩
  rw [checkBK, if_neg (by decide)]
  simp only [hmain]
  simp

end GE
