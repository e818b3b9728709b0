import Verif.Props.SparseRoot
import Mathlib.Tactic.Positivity
import Mathlib.Analysis.Calculus.Deriv.Pow
/-! # C32–C35, C60: the sparse root finders, continued -/

namespace GE
open Matrix

namespace SRoot
variable {m n : Nat}

theorem dot_self_nonneg (v : Fin n → ℝ) : 0 ≤ v ⬝ᵥ v := Finset.sum_nonneg fun i _ => mul_self_nonneg (v i)

theorem dot_self_eq_zero (v : Fin n → ℝ) : v ⬝ᵥ v = 0 ↔ v = 0 := dotProduct_self_eq_zero

theorem norm2_sq (v : Fin n → ℝ) : norm2 v * norm2 v = v ⬝ᵥ v := Real.mul_self_sqrt (dot_self_nonneg v)

theorem norm2_nonneg (v : Fin n → ℝ) : 0 ≤ norm2 v := Real.sqrt_nonneg _

theorem norm2_le (v : Fin n → ℝ) (d : ℝ) (hd : 0 ≤ d) : norm2 v ≤ d ↔ v ⬝ᵥ v ≤ d * d := by
  rw [norm2, Real.sqrt_le_left hd, sq]

theorem norm2_lt (v : Fin n → ℝ) (d : ℝ) (hd : 0 < d) : norm2 v < d ↔ v ⬝ᵥ v < d * d := by
  rw [norm2, Real.sqrt_lt' hd, sq]

theorem norm2_scale (c : ℝ) (v : Fin n → ℝ) (d : ℝ) (hv : 0 < norm2 v) (hd : 0 ≤ d) (hc : c = d / norm2 v) : norm2 (c • v) = d := by
  have h := norm2_sq v
  rw [norm2, smul_dotProduct, dotProduct_smul, smul_eq_mul, smul_eq_mul, ← h, hc]
  have : d / norm2 v * (d / norm2 v * (norm2 v * norm2 v)) = d * d := by field_simp
  rw [this, Real.sqrt_mul_self hd]

theorem norm2_neg (v : Fin n → ℝ) : norm2 (-v) = norm2 v := by simp [norm2]

/-- the larger root of `‖p + τ d‖² = δ²` -/
theorem boundary_root (p d : Fin n → ℝ) (delta : ℝ) (hp : p ⬝ᵥ p ≤ delta * delta) (hd : 0 < d ⬝ᵥ d) :
    let disc := (p ⬝ᵥ d) * (p ⬝ᵥ d) - (d ⬝ᵥ d) * (p ⬝ᵥ p - delta * delta)
    let tau := (-(p ⬝ᵥ d) + √(max disc 0)) / (d ⬝ᵥ d)
    0 ≤ tau ∧ (p ⬝ᵥ p < delta * delta → 0 < tau) ∧ p ⬝ᵥ p + 2 * tau * (p ⬝ᵥ d) + tau * tau * (d ⬝ᵥ d) = delta * delta := by
  intro disc tau
  have hdisc : (p ⬝ᵥ d) * (p ⬝ᵥ d) ≤ disc := by simp only [disc]; nlinarith
  have h0 : 0 ≤ disc := le_trans (mul_self_nonneg _) hdisc
  have hs : √(max disc 0) * √(max disc 0) = disc := by rw [max_eq_left h0]; exact Real.mul_self_sqrt h0
  have hsn : 0 ≤ √(max disc 0) := Real.sqrt_nonneg _
  have hge : p ⬝ᵥ d ≤ √(max disc 0) := by
    by_contra hlt
    push Not at hlt
    nlinarith
  have htd : tau * (d ⬝ᵥ d) = -(p ⬝ᵥ d) + √(max disc 0) := by simp only [tau]; field_simp
  refine ⟨div_nonneg (by linarith) hd.le, ?_, ?_⟩
  · intro hlt
    refine div_pos ?_ hd
    have hdisc' : (p ⬝ᵥ d) * (p ⬝ᵥ d) < disc := by simp only [disc]; nlinarith
    by_contra hle
    push Not at hle
    have : √(max disc 0) = p ⬝ᵥ d := le_antisymm (by linarith) hge
    rw [this] at hs; linarith
  · have : (tau * (d ⬝ᵥ d) + p ⬝ᵥ d) * (tau * (d ⬝ᵥ d) + p ⬝ᵥ d) = disc := by
      rw [htd]; calc _ = √(max disc 0) * √(max disc 0) := by ring
        _ = disc := hs
    have h2 : (d ⬝ᵥ d) * (p ⬝ᵥ p + 2 * tau * (p ⬝ᵥ d) + tau * tau * (d ⬝ᵥ d)) = (d ⬝ᵥ d) * (delta * delta) := by
      simp only [disc] at this; nlinarith
    exact mul_left_cancel₀ hd.ne' h2

theorem dot_add_smul (p d : Fin n → ℝ) (t : ℝ) :
    (p + t • d) ⬝ᵥ (p + t • d) = p ⬝ᵥ p + 2 * t * (p ⬝ᵥ d) + t * t * (d ⬝ᵥ d) := by
  simp only [add_dotProduct, dotProduct_add, smul_dotProduct, dotProduct_smul, smul_eq_mul]
  rw [dotProduct_comm d p]; ring

theorem boundary_norm (p d : Fin n → ℝ) (delta : ℝ) (hdelta : 0 ≤ delta) (hp : p ⬝ᵥ p ≤ delta * delta) (hd : 0 < d ⬝ᵥ d) :
    norm2 (boundaryStep p d delta) = delta := by
  simp only [boundaryStep]
  rw [norm2, dot_add_smul, (boundary_root p d delta hp hd).2.2, Real.sqrt_mul_self hdelta]

end SRoot

/-- **C34** the dogleg step lies in the trust region, whatever the Jacobian, the residuals and the result of the linear solver -/
theorem C34_dogleg_inside {m n : Nat} (lin : Matrix (Fin m) (Fin n) ℝ → (Fin m → ℝ) → Option (Fin n → ℝ)) (J : Matrix (Fin m) (Fin n) ℝ)
    (r : Fin m → ℝ) (g : Fin n → ℝ) (delta : ℝ) (hd : 0 < delta) : norm2 (doglegStep lin J r g delta) ≤ delta := by
  simp only [doglegStep]
  split
  · split
    · simp [norm2, hd.le]
    · rename_i h
      rw [SRoot.norm2_neg, SRoot.norm2_scale _ g delta (lt_of_lt_of_le (by norm_num) (not_lt.mp h)) hd.le rfl]
  · split
    · split
      · assumption
      · rename_i h
        exact (SRoot.norm2_scale _ _ delta (hd.trans (not_le.mp h)) hd.le rfl).le
    · rename_i pn _
      split
      · assumption
      · rename_i hn
        split
        · rename_i h
          exact (SRoot.norm2_scale _ _ delta (lt_of_lt_of_le hd h) hd.le rfl).le
        · rename_i h
          set pc := -((g ⬝ᵥ g / ((J *ᵥ g) ⬝ᵥ (J *ᵥ g))) • g) with hpc
          have h1 : pc ⬝ᵥ pc < delta * delta := (SRoot.norm2_lt _ _ hd).mp (not_le.mp h)
          have hne : 0 < (pn - pc) ⬝ᵥ (pn - pc) := by
            refine lt_of_le_of_ne (SRoot.dot_self_nonneg _) (fun h0 => ?_)
            have : pn - pc = 0 := (SRoot.dot_self_eq_zero _).mp h0.symm
            rw [sub_eq_zero.mp this] at hn
            exact hn (not_le.mp h).le
          exact (SRoot.boundary_norm pc (pn - pc) delta hd.le h1.le hne).le

namespace SRoot
variable {m n : Nat}

/-- invariant of conjugate gradients: the residual is not zero, the direction is a descent direction, the iterate is inside -/
structure CG (H : Matrix (Fin n) (Fin n) ℝ) (g : Fin n → ℝ) (delta : ℝ) (p r d : Fin n → ℝ) : Prop where
  res : r = H *ᵥ p + g
  pos : 0 < r ⬝ᵥ r
  slope : r ⬝ᵥ d = -(r ⬝ᵥ r)
  inside : p ⬝ᵥ p < delta * delta

theorem CG.dir_pos {H : Matrix (Fin n) (Fin n) ℝ} {g : Fin n → ℝ} {delta : ℝ} {p r d : Fin n → ℝ} (h : CG H g delta p r d) : 0 < d ⬝ᵥ d := by
  refine lt_of_le_of_ne (dot_self_nonneg _) (fun h0 => ?_)
  have : d = 0 := (dot_self_eq_zero _).mp h0.symm
  have hs := h.slope
  rw [this, dotProduct_zero] at hs
  linarith [h.pos]

/-- one CG step keeps the invariant -/
theorem CG.next {H : Matrix (Fin n) (Fin n) ℝ} {g : Fin n → ℝ} {delta : ℝ} {p r d : Fin n → ℝ} (h : CG H g delta p r d)
    (hg : 0 < norm2 g) (hd : 0 < delta) (hdHd : 0 < d ⬝ᵥ (H *ᵥ d))
    (hin : ¬ norm2 (p + ((r ⬝ᵥ r) / (d ⬝ᵥ (H *ᵥ d))) • d) ≥ delta)
    (hres : ¬ √((r + ((r ⬝ᵥ r) / (d ⬝ᵥ (H *ᵥ d))) • (H *ᵥ d)) ⬝ᵥ (r + ((r ⬝ᵥ r) / (d ⬝ᵥ (H *ᵥ d))) • (H *ᵥ d))) < 1e-10 * norm2 g) :
    CG H g delta (p + ((r ⬝ᵥ r) / (d ⬝ᵥ (H *ᵥ d))) • d) (r + ((r ⬝ᵥ r) / (d ⬝ᵥ (H *ᵥ d))) • (H *ᵥ d))
      ((((r + ((r ⬝ᵥ r) / (d ⬝ᵥ (H *ᵥ d))) • (H *ᵥ d)) ⬝ᵥ (r + ((r ⬝ᵥ r) / (d ⬝ᵥ (H *ᵥ d))) • (H *ᵥ d))) / (r ⬝ᵥ r)) • d -
        (r + ((r ⬝ᵥ r) / (d ⬝ᵥ (H *ᵥ d))) • (H *ᵥ d))) := by
  set a := (r ⬝ᵥ r) / (d ⬝ᵥ (H *ᵥ d)) with ha
  set r' := r + a • (H *ᵥ d) with hr'
  have hpos : 0 < r' ⬝ᵥ r' := by
    have : 0 < √(r' ⬝ᵥ r') := lt_of_lt_of_le (by positivity) (not_lt.mp hres)
    exact Real.sqrt_pos.mp this
  refine ⟨?_, hpos, ?_, (norm2_lt _ _ hd).mp (not_le.mp hin)⟩
  · rw [hr', h.res, Matrix.mulVec_add, Matrix.mulVec_smul]; abel
  · have horth : r' ⬝ᵥ d = 0 := by
      rw [hr', add_dotProduct, smul_dotProduct, h.slope, dotProduct_comm (H *ᵥ d) d, smul_eq_mul, ha]
      field_simp; ring
    rw [dotProduct_sub, dotProduct_smul, horth, smul_zero, zero_sub]

theorem steihaugLoop_eq (b : (Fin n → ℝ) → (Fin n → ℝ) → ℝ → Fin n → ℝ) (H : Matrix (Fin n) (Fin n) ℝ) (g : Fin n → ℝ) (delta : ℝ)
    (hb : ∀ p d, d ≠ 0 → b p d delta = boundaryStep p d delta) (hg : 0 < norm2 g) (hd : 0 < delta) (k : Nat) (p r d : Fin n → ℝ)
    (h : CG H g delta p r d) : steihaugLoop b H g delta k p r d = steihaugLoop boundaryStep H g delta k p r d := by
  induction k generalizing p r d with
  | zero => rfl
  | succ k ih =>
    have hdne : d ≠ 0 := fun h0 => by have := h.dir_pos; rw [h0, dotProduct_zero] at this; exact lt_irrefl _ this
    simp only [steihaugLoop, hb p d hdne]
    split
    · rfl
    · rename_i h1
      split
      · rfl
      · rename_i h2
        split
        · rfl
        · rename_i h3
          exact ih _ _ _ (h.next hg hd (not_le.mp h1) h2 h3)

theorem steihaugLoop_norm (H : Matrix (Fin n) (Fin n) ℝ) (g : Fin n → ℝ) (delta : ℝ)
    (hg : 0 < norm2 g) (hd : 0 < delta) (k : Nat) (p r d : Fin n → ℝ)
    (h : CG H g delta p r d) : norm2 (steihaugLoop boundaryStep H g delta k p r d) ≤ delta := by
  induction k generalizing p r d with
  | zero => exact (norm2_le _ _ hd.le).mpr h.inside.le
  | succ k ih =>
    simp only [steihaugLoop]
    split
    · exact (boundary_norm p d delta hd.le h.inside.le h.dir_pos).le
    · rename_i h1
      split
      · exact (boundary_norm p d delta hd.le h.inside.le h.dir_pos).le
      · rename_i h2
        split
        · exact (not_le.mp h2).le
        · rename_i h3
          exact ih _ _ _ (h.next hg hd (not_le.mp h1) h2 h3)

/-- the quadratic model -/
noncomputable def quad (H : Matrix (Fin n) (Fin n) ℝ) (g p : Fin n → ℝ) : ℝ := g ⬝ᵥ p + 0.5 * (p ⬝ᵥ (H *ᵥ p))

theorem quad_step (H : Matrix (Fin n) (Fin n) ℝ) (hH : Hᵀ = H) (g p r d : Fin n → ℝ) (hr : r = H *ᵥ p + g) (t : ℝ) :
    quad H g (p + t • d) = quad H g p + t * (r ⬝ᵥ d) + 0.5 * t * t * (d ⬝ᵥ (H *ᵥ d)) := by
  have hsym : d ⬝ᵥ (H *ᵥ p) = (H *ᵥ p) ⬝ᵥ d := dotProduct_comm _ _
  have hsym2 : p ⬝ᵥ (H *ᵥ d) = (H *ᵥ p) ⬝ᵥ d := by
    rw [Matrix.dotProduct_mulVec, ← Matrix.mulVec_transpose, hH]
  simp only [quad, hr, Matrix.mulVec_add, Matrix.mulVec_smul, dotProduct_add, add_dotProduct, dotProduct_smul, smul_dotProduct, smul_eq_mul]
  rw [hsym, hsym2]; ring

theorem boundary_decrease (H : Matrix (Fin n) (Fin n) ℝ) (hH : Hᵀ = H) (g : Fin n → ℝ) (delta : ℝ) (p r d : Fin n → ℝ)
    (h : CG H g delta p r d)
    (hcase : d ⬝ᵥ (H *ᵥ d) ≤ 0 ∨ (0 < d ⬝ᵥ (H *ᵥ d) ∧
      delta * delta ≤ (p + ((r ⬝ᵥ r) / (d ⬝ᵥ (H *ᵥ d))) • d) ⬝ᵥ (p + ((r ⬝ᵥ r) / (d ⬝ᵥ (H *ᵥ d))) • d))) :
    quad H g (boundaryStep p d delta) < quad H g p := by
  obtain ⟨_, ht, hroot⟩ := boundary_root p d delta h.inside.le h.dir_pos
  have htp := ht h.inside
  simp only [boundaryStep]
  set tau := (-(p ⬝ᵥ d) + √(max ((p ⬝ᵥ d) * (p ⬝ᵥ d) - (d ⬝ᵥ d) * (p ⬝ᵥ p - delta * delta)) 0)) / (d ⬝ᵥ d) with htau
  rw [quad_step H hH g p r d h.res, h.slope]
  have hpos := h.pos
  rcases hcase with hc | ⟨hc, hout⟩
  · have : 0.5 * tau * tau * (d ⬝ᵥ (H *ᵥ d)) ≤ 0 := mul_nonpos_of_nonneg_of_nonpos (by positivity) hc
    nlinarith
  · rw [dot_add_smul] at hout
    set a := (r ⬝ᵥ r) / (d ⬝ᵥ (H *ᵥ d)) with ha
    have hapos : 0 < a := div_pos hpos hc
    have haH : a * (d ⬝ᵥ (H *ᵥ d)) = r ⬝ᵥ r := by rw [ha]; field_simp
    have hle : tau ≤ a := by
      by_contra hlt
      push Not at hlt
      have hin := h.inside
      have hdd := h.dir_pos
      -- convexity of t ↦ ‖p + t d‖²
      have h1 : tau * (delta * delta) ≤ tau * (p ⬝ᵥ p + 2 * a * (p ⬝ᵥ d) + a * a * (d ⬝ᵥ d)) := mul_le_mul_of_nonneg_left hout htp.le
      have h2 : a * (p ⬝ᵥ p + 2 * tau * (p ⬝ᵥ d) + tau * tau * (d ⬝ᵥ d)) = a * (delta * delta) := by rw [hroot]
      have h3 : 0 < a * tau * (tau - a) * (d ⬝ᵥ d) := by
        have : 0 < tau - a := by linarith
        positivity
      have h4 : (tau - a) * (p ⬝ᵥ p) < (tau - a) * (delta * delta) := mul_lt_mul_of_pos_left hin (by linarith)
      nlinarith
    have h5 : tau * (d ⬝ᵥ (H *ᵥ d)) ≤ r ⬝ᵥ r := by rw [← haH]; exact mul_le_mul_of_nonneg_right hle hc.le
    have h6 : tau * (tau * (d ⬝ᵥ (H *ᵥ d))) ≤ tau * (r ⬝ᵥ r) := mul_le_mul_of_nonneg_left h5 htp.le
    have h7 : 0 < tau * (r ⬝ᵥ r) := mul_pos htp hpos
    nlinarith

theorem inner_decrease (H : Matrix (Fin n) (Fin n) ℝ) (hH : Hᵀ = H) (g : Fin n → ℝ) (delta : ℝ) (p r d : Fin n → ℝ)
    (h : CG H g delta p r d) (hc : 0 < d ⬝ᵥ (H *ᵥ d)) :
    quad H g (p + ((r ⬝ᵥ r) / (d ⬝ᵥ (H *ᵥ d))) • d) < quad H g p := by
  rw [quad_step H hH g p r d h.res, h.slope]
  set a := (r ⬝ᵥ r) / (d ⬝ᵥ (H *ᵥ d)) with ha
  have hapos : 0 < a := div_pos h.pos hc
  have haH : a * (d ⬝ᵥ (H *ᵥ d)) = r ⬝ᵥ r := by rw [ha]; field_simp
  have h7 : 0 < a * (r ⬝ᵥ r) := mul_pos hapos h.pos
  have : 0.5 * a * a * (d ⬝ᵥ (H *ᵥ d)) = 0.5 * (a * (r ⬝ᵥ r)) := by rw [← haH]; ring
  rw [this]; linarith

theorem steihaugLoop_decrease (H : Matrix (Fin n) (Fin n) ℝ) (hH : Hᵀ = H) (g : Fin n → ℝ) (delta : ℝ)
    (hg : 0 < norm2 g) (hd : 0 < delta) (k : Nat) (p r d : Fin n → ℝ)
    (h : CG H g delta p r d) : quad H g (steihaugLoop boundaryStep H g delta k p r d) ≤ quad H g p ∧
      (0 < k → quad H g (steihaugLoop boundaryStep H g delta k p r d) < quad H g p) := by
  induction k generalizing p r d with
  | zero => exact ⟨le_refl _, by simp⟩
  | succ k ih =>
    suffices hs : quad H g (steihaugLoop boundaryStep H g delta (k + 1) p r d) < quad H g p from ⟨hs.le, fun _ => hs⟩
    simp only [steihaugLoop]
    split
    · rename_i h1
      exact boundary_decrease H hH g delta p r d h (Or.inl h1)
    · rename_i h1
      split
      · rename_i h2
        refine boundary_decrease H hH g delta p r d h (Or.inr ⟨not_le.mp h1, ?_⟩)
        by_contra hlt
        exact absurd ((norm2_lt _ _ hd).mpr (not_le.mp hlt)) (not_lt.mpr h2)
      · rename_i h2
        split
        · exact inner_decrease H hH g delta p r d h (not_le.mp h1)
        · rename_i h3
          exact lt_of_le_of_lt (ih _ _ _ (h.next hg hd (not_le.mp h1) h2 h3)).1 (inner_decrease H hH g delta p r d h (not_le.mp h1))

theorem cg_start (H : Matrix (Fin n) (Fin n) ℝ) (g : Fin n → ℝ) (delta : ℝ) (hd : 0 < delta) (hg : ¬ √(g ⬝ᵥ g) < 1e-15) :
    CG H g delta 0 g (-g) ∧ 0 < norm2 g := by
  have h0 : 0 < √(g ⬝ᵥ g) := lt_of_lt_of_le (by norm_num) (not_lt.mp hg)
  exact ⟨⟨by simp, Real.sqrt_pos.mp h0, by simp, by simp [hd]⟩, h0⟩

end SRoot

/-- **C34** the Steihaug step lies in the trust region for every matrix and gradient -/
theorem C34_steihaug_inside {n : Nat} (H : Matrix (Fin n) (Fin n) ℝ) (g : Fin n → ℝ) (delta : ℝ) (hd : 0 < delta) :
    norm2 (steihaug H g delta) ≤ delta := by
  simp only [steihaug, steihaugWith]
  split
  · simp [norm2, hd.le]
  · rename_i h
    obtain ⟨h1, h2⟩ := SRoot.cg_start H g delta hd h
    exact SRoot.steihaugLoop_norm H g delta h2 hd _ _ _ _ h1

/-- **C34** the boundary step of the conjugate-gradient loop is never asked for a zero direction: whatever it would return there (a division
by zero) does not matter -/
theorem C34_steihaug_no_zero_division {n : Nat} (b : (Fin n → ℝ) → (Fin n → ℝ) → ℝ → Fin n → ℝ) (H : Matrix (Fin n) (Fin n) ℝ)
    (g : Fin n → ℝ) (delta : ℝ) (hd : 0 < delta) (hb : ∀ p d, d ≠ 0 → b p d delta = boundaryStep p d delta) :
    steihaugWith b H g delta = steihaug H g delta := by
  simp only [steihaug, steihaugWith]
  split
  · rfl
  · rename_i h
    obtain ⟨h1, h2⟩ := SRoot.cg_start H g delta hd h
    exact SRoot.steihaugLoop_eq b H g delta hb h2 hd _ _ _ _ h1

/-- **C34** unless the gradient is numerically zero the Steihaug step strictly decreases the Gauss-Newton model, so a step is never refused for
a non-positive predicted reduction -/
theorem C34_steihaug_predicted_positive {m n : Nat} (J : Matrix (Fin m) (Fin n) ℝ) (g : Fin n → ℝ) (delta : ℝ) (hd : 0 < delta)
    (hg : 1e-15 ≤ norm2 g) : 0 < predicted J g (steihaug (Jᵀ * J) g delta) := by
  have hH : (Jᵀ * J)ᵀ = Jᵀ * J := by rw [Matrix.transpose_mul, Matrix.transpose_transpose]
  have hng : ¬ √(g ⬝ᵥ g) < 1e-15 := not_lt.mpr hg
  obtain ⟨h1, h2⟩ := SRoot.cg_start (Jᵀ * J) g delta hd hng
  have hn : 0 < n := by
    rcases Nat.eq_zero_or_pos n with rfl | h
    · simp [norm2, dotProduct] at h2
    · exact h
  have := (SRoot.steihaugLoop_decrease (Jᵀ * J) hH g delta h2 hd (2 * n) 0 g (-g) h1).2 (by omega)
  have hq : ∀ p, predicted J g p = - SRoot.quad (Jᵀ * J) g p := by
    intro p
    simp only [predicted, SRoot.quad]
    rw [← Matrix.mulVec_mulVec, Matrix.dotProduct_mulVec p Jᵀ, ← Matrix.mulVec_transpose, Matrix.transpose_transpose]
  rw [hq]
  simp only [steihaug, steihaugWith, if_neg hng]
  have h0 : SRoot.quad (Jᵀ * J) g 0 = 0 := by simp [SRoot.quad]
  linarith

namespace SRoot
variable {m n : Nat}

theorem trLoop_range (cfg : TRCfg) (sub : ℝ → Fin n → ℝ) (f : RootFun m n) (s : SState m n) (g : Fin n → ℝ) (k : Nat) (delta : ℝ)
    (hs : 0 < cfg.shrink ∧ cfg.shrink ≤ 1) (hgrow : 0 < cfg.grow) (hd : 0 < delta ∧ delta ≤ cfg.deltaMax) :
    0 < (trLoop cfg sub f s g k delta).1 ∧ (trLoop cfg sub f s g k delta).1 ≤ cfg.deltaMax := by
  have shr : ∀ delta, 0 < delta ∧ delta ≤ cfg.deltaMax → 0 < delta * cfg.shrink ∧ delta * cfg.shrink ≤ cfg.deltaMax := by
    intro d h
    exact ⟨mul_pos h.1 hs.1, by nlinarith⟩
  have acc : ∀ delta (c : Prop) [Decidable c], 0 < delta ∧ delta ≤ cfg.deltaMax →
      0 < (if c then min (cfg.grow * delta) cfg.deltaMax else delta) ∧ (if c then min (cfg.grow * delta) cfg.deltaMax else delta) ≤ cfg.deltaMax := by
    intro d c _ h
    split
    · exact ⟨lt_min (mul_pos hgrow h.1) (lt_of_lt_of_le h.1 h.2), min_le_right _ _⟩
    · exact h
  induction k generalizing delta with
  | zero =>
    unfold trLoop
    simp only
    split
    · exact acc delta _ hd
    · exact shr delta hd
  | succ k ih =>
    unfold trLoop
    simp only
    split
    · exact acc delta _ hd
    · exact ih _ (shr delta hd)


end SRoot

/-- the documented configuration of a trust-region method -/
structure TRCfg.Sane (cfg : TRCfg) : Prop where
  delta0 : 0 < cfg.delta0 ∧ cfg.delta0 ≤ cfg.deltaMax
  shrink : 0 < cfg.shrink ∧ cfg.shrink ≤ 1
  grow : 0 < cfg.grow
  eta : 0 ≤ cfg.eta

/-- **C34** one step of either trust-region method from any radius in `(0, deltaMax]`: the radius stays in that interval, and an accepted step
is at most the radius the step started with and strictly lowers the merit -/
theorem C34_step {m n : Nat} (lin : Matrix (Fin m) (Fin n) ℝ → (Fin m → ℝ) → Option (Fin n → ℝ)) (cfg : TRCfg) (hc : cfg.Sane)
    (f : RootFun m n) (delta : ℝ) (hd : 0 < delta ∧ delta ≤ cfg.deltaMax) (s : SState m n)
    (step : ℝ × SState m n × StepInfo n)
    (hstep : step = (doglegSolver lin cfg).step f delta s ∨ step = (gaussNewtonSolver cfg).step f delta s) :
    0 < step.1 ∧ step.1 ≤ cfg.deltaMax ∧
    (step.2.2.accepted = true → step.2.1.x = s.x + step.2.2.step ∧ norm2 step.2.2.step ≤ delta ∧ step.2.1.phi < s.phi ∧
      step.2.1.phi = merit (f step.2.1.x).1) := by
  have main : ∀ (sub : ℝ → Fin n → ℝ), (∀ d, 0 < d → norm2 (sub d) ≤ d) → ∀ g,
      let r := trLoop cfg sub f s g (cfg.maxReject - 1) delta
      0 < r.1 ∧ r.1 ≤ cfg.deltaMax ∧ (r.2.2.accepted = true → r.2.1.x = s.x + r.2.2.step ∧ norm2 r.2.2.step ≤ delta ∧ r.2.1.phi < s.phi ∧
        r.2.1.phi = merit (f r.2.1.x).1) := by
    intro sub hsub g r
    obtain ⟨_, h2⟩ := SRoot.trLoop_spec cfg sub f s g (cfg.maxReject - 1) delta
    obtain ⟨h3, h4⟩ := SRoot.trLoop_range cfg sub f s g (cfg.maxReject - 1) delta hc.shrink hc.grow hd
    refine ⟨h3, h4, fun ha => ?_⟩
    obtain ⟨e1, e2, _, _, e5, e6, j, _, e7⟩ := h2 ha
    refine ⟨e1, ?_, e6 hc.eta, by rw [e5]; congr 1⟩
    rw [e7]
    have hj : cfg.shrink ^ j ≤ 1 := pow_le_one₀ hc.shrink.1.le hc.shrink.2
    have hj0 : 0 < cfg.shrink ^ j := pow_pos hc.shrink.1 j
    refine le_trans (hsub _ (mul_pos hd.1 hj0)) ?_
    nlinarith [hd.1]
  rcases hstep with rfl | rfl
  · exact main _ (fun d h => C34_dogleg_inside lin s.jac s.res _ d h) _
  · exact main _ (fun d h => C34_steihaug_inside _ _ d h) _

/-- **C34** for a whole solve, started with a solver object in any state: consecutive iterates are never further apart than `deltaMax`, and the
merit strictly decreases -/
theorem C34_run {m n : Nat} (lin : Matrix (Fin m) (Fin n) ℝ → (Fin m → ℝ) → Option (Fin n → ℝ)) (cfg : TRCfg) (hc : cfg.Sane)
    (f : RootFun m n) (x0 : Fin n → ℝ) (fTol xTol : ℝ) (maxiter : Nat) (o : ℝ) (r : RootResult m n)
    (hr : r = (rootFind (doglegSolver lin cfg) o f x0 fTol xTol maxiter).2 ∨ r = (rootFind (gaussNewtonSolver cfg) o f x0 fTol xTol maxiter).2) :
    List.IsChain (fun a b => norm2 (b.x - a.x) ≤ cfg.deltaMax ∧ merit (f b.x).1 < merit (f a.x).1) (startState f x0 :: r.iterates) := by
  have key : ∀ (step : RootFun m n → ℝ → SState m n → ℝ × SState m n × StepInfo n),
      (∀ delta s, 0 < delta ∧ delta ≤ cfg.deltaMax → 0 < (step f delta s).1 ∧ (step f delta s).1 ≤ cfg.deltaMax ∧
        ((step f delta s).2.2.accepted = true → (step f delta s).2.1.x = s.x + (step f delta s).2.2.step ∧
          norm2 (step f delta s).2.2.step ≤ delta ∧ (step f delta s).2.1.phi < s.phi ∧
          (step f delta s).2.1.phi = merit (f (step f delta s).2.1.x).1)) →
      List.IsChain (fun a b => norm2 (b.x - a.x) ≤ cfg.deltaMax ∧ merit (f b.x).1 < merit (f a.x).1)
        (startState f x0 :: (rootFind ({ σ := ℝ, reset := fun _ => cfg.delta0, step := step } : RootSolver m n) o f x0 fTol xTol maxiter).2.iterates) := by
    intro step hst
    simp only [rootFind]
    split
    · simp
    · refine SRoot.loop_chain ({ σ := ℝ, reset := fun _ => cfg.delta0, step := step } : RootSolver m n) f fTol xTol
        (fun d s => (0 < d ∧ d ≤ cfg.deltaMax) ∧ s.phi = merit (f s.x).1) _ ?_ maxiter _ _ _ ⟨hc.delta0, rfl⟩
      rintro d s ⟨hd, hs⟩ ha
      obtain ⟨a1, a2, a3⟩ := hst d s hd
      obtain ⟨b1, b2, b3, b4⟩ := a3 ha
      refine ⟨⟨⟨a1, a2⟩, b4⟩, ?_, ?_⟩
      · simp only [b1, add_sub_cancel_left]
        exact b2.trans hd.2
      · rw [← hs, ← b4]; exact b3
  rcases hr with rfl | rfl
  · exact key _ (fun delta s hd => C34_step lin cfg hc f delta hd s _ (Or.inl rfl))
  · exact key _ (fun delta s hd => C34_step lin cfg hc f delta hd s _ (Or.inr rfl))

/-- non-vacuity: the default configuration -/
example : TRCfg.Sane { delta0 := 1, deltaMax := 100, eta := 0.1, shrink := 0.25, grow := 2, maxReject := 50 } :=
  ⟨by norm_num, by norm_num, by norm_num, by norm_num⟩

/-! ## C60 -/

/-- the documented configuration of Levenberg-Marquardt -/
structure LMCfg.Sane (cfg : LMCfg) : Prop where
  lam0 : cfg.minLam ≤ cfg.lam0 ∧ cfg.lam0 ≤ cfg.maxLam
  up : 1 ≤ cfg.lamUp
  down : cfg.lamDown ≤ 1
  min : 0 < cfg.minLam
  eta : 0 ≤ cfg.eta

example : LMCfg.Sane { lam0 := 1e-3, lamUp := 10, lamDown := 0.3, eta := 1e-4, minLam := 1e-15, maxLam := 1e15, maxReject := 50 } :=
  ⟨by norm_num, by norm_num, by norm_num, by norm_num, by norm_num⟩

/-- **C60** one Levenberg-Marquardt step: the damping stays in `[min_lam, max_lam]`; an accepted step strictly lowers the merit, a refused one
leaves the iterate alone -/
theorem C60_step {m n : Nat} (lin : Matrix (Fin n) (Fin n) ℝ → (Fin n → ℝ) → Option (Fin n → ℝ)) (cfg : LMCfg) (hc : cfg.Sane)
    (f : RootFun m n) (lam : ℝ) (hl : cfg.minLam ≤ lam ∧ lam ≤ cfg.maxLam) (s : SState m n) :
    let r : ℝ × SState m n × StepInfo n := (lmSolver lin cfg).step f lam s
    (cfg.minLam ≤ r.1 ∧ r.1 ≤ cfg.maxLam) ∧ (r.2.2.accepted = false → r.2.1 = s) ∧
    (r.2.2.accepted = true → r.2.1.x = s.x + r.2.2.step ∧ r.2.1.phi < s.phi ∧ r.2.1.phi = merit (f r.2.1.x).1) := by
  intro r
  obtain ⟨h1, h2⟩ := SRoot.lmLoop_spec lin cfg f s (s.jacᵀ *ᵥ s.res) (cfg.maxReject - 1) lam
  refine ⟨SRoot.lmLoop_range lin cfg f s _ _ lam hc.up hc.down (hc.lam0.1.trans hc.lam0.2) hc.min.le hl, h1, fun ha => ?_⟩
  obtain ⟨e1, e2, _, _, e5, e6⟩ := h2 ha
  exact ⟨e1, e6 hc.eta, e5.trans (congrArg merit e2)⟩

/-- **C60** along a solve the merit strictly decreases, whatever the linear solver does and whatever state the solver object was left in -/
theorem C60_run {m n : Nat} (lin : Matrix (Fin n) (Fin n) ℝ → (Fin n → ℝ) → Option (Fin n → ℝ)) (cfg : LMCfg) (hc : cfg.Sane)
    (f : RootFun m n) (x0 : Fin n → ℝ) (fTol xTol : ℝ) (maxiter : Nat) (o : ℝ) :
    List.IsChain (fun a b => merit (f b.x).1 < merit (f a.x).1)
      (startState f x0 :: (rootFind (lmSolver lin cfg) o f x0 fTol xTol maxiter).2.iterates) := by
  simp only [rootFind]
  split
  · simp
  · refine SRoot.loop_chain (lmSolver lin cfg) f fTol xTol
      (fun (lam : ℝ) s => (cfg.minLam ≤ lam ∧ lam ≤ cfg.maxLam) ∧ s.phi = merit (f s.x).1) _ ?_ maxiter _ _ _ ⟨hc.lam0, rfl⟩
    rintro lam s ⟨hl, hs⟩ ha
    obtain ⟨a1, _, a3⟩ := C60_step lin cfg hc f lam hl s
    obtain ⟨_, b3, b4⟩ := a3 ha
    refine ⟨⟨a1, b4⟩, ?_⟩
    rw [← hs, ← b4]; exact b3

/-- **C60** if the damped normal equations are solved exactly, the predicted reduction is positive at every point that is not stationary: only
the actual reduction can cause a refusal -/
theorem C60_predicted_positive {m n : Nat} (J : Matrix (Fin m) (Fin n) ℝ) (g p : Fin n → ℝ) (lam : ℝ) (hl : 0 < lam) (hg : g ≠ 0)
    (hp : (Jᵀ * J + Matrix.diagonal (lam • lmScale J)) *ᵥ p = -g) : 0 < lmPredicted J g p lam := by
  have hD : p ⬝ᵥ (Matrix.diagonal (lam • lmScale J) *ᵥ p) = lam * (lmScale J ⬝ᵥ (p * p)) := by
    simp only [dotProduct, Matrix.mulVec_diagonal, Pi.smul_apply, Pi.mul_apply, smul_eq_mul, Finset.mul_sum]
    exact Finset.sum_congr rfl fun i _ => by ring
  have hJ : p ⬝ᵥ ((Jᵀ * J) *ᵥ p) = (J *ᵥ p) ⬝ᵥ (J *ᵥ p) := by
    rw [← Matrix.mulVec_mulVec, Matrix.dotProduct_mulVec p Jᵀ, ← Matrix.mulVec_transpose, Matrix.transpose_transpose]
  have hgp : g ⬝ᵥ p = -((J *ᵥ p) ⬝ᵥ (J *ᵥ p) + lam * (lmScale J ⬝ᵥ (p * p))) := by
    have : p ⬝ᵥ ((Jᵀ * J + Matrix.diagonal (lam • lmScale J)) *ᵥ p) = p ⬝ᵥ (-g) := by rw [hp]
    rw [Matrix.add_mulVec, dotProduct_add, hJ, hD, dotProduct_neg, dotProduct_comm p g] at this
    linarith
  have hpne : p ≠ 0 := by
    rintro rfl
    rw [Matrix.mulVec_zero] at hp
    exact hg (by simpa using hp.symm)
  have hpos : 0 < lmScale J ⬝ᵥ (p * p) := by
    have h1 : p ⬝ᵥ p ≤ lmScale J ⬝ᵥ (p * p) := by
      simp only [dotProduct, Pi.mul_apply]
      refine Finset.sum_le_sum fun i _ => ?_
      have : 1 ≤ lmScale J i := le_max_left _ _
      nlinarith [mul_self_nonneg (p i)]
    refine lt_of_lt_of_le (lt_of_le_of_ne (SRoot.dot_self_nonneg p) (fun h0 => ?_)) h1
    exact hpne ((SRoot.dot_self_eq_zero p).mp h0.symm)
  have h2 := SRoot.dot_self_nonneg (J *ᵥ p)
  have h3 := mul_pos hl hpos
  rw [lmPredicted, hgp]
  linarith

/-! ## C33 -/

namespace SRoot
variable {m n : Nat}

/-- every state of `l` is at most as bad as one of the `M` states before it; `rev` are the states before `l`, latest first -/
def Window (M : Nat) : List (SState m n) → List (SState m n) → Prop
  | _, [] => True
  | rev, t :: l => (∃ u ∈ rev.take M, t.phi ≤ u.phi) ∧ Window M (t :: rev) l

theorem foldl_max_mem (l : List ℝ) (a : ℝ) : l.foldl max a = a ∨ l.foldl max a ∈ l := by
  induction l generalizing a with
  | nil => exact Or.inl rfl
  | cons b l ih =>
    rw [List.foldl_cons]
    rcases ih (max a b) with h | h
    · rw [h]
      rcases max_choice a b with h' | h' <;> rw [h']
      · exact Or.inl rfl
      · exact Or.inr (by simp)
    · exact Or.inr (List.mem_cons_of_mem _ h)

theorem push_take (M : Nat) (rev : List ℝ) (phi : ℝ) : pushHistory M (rev.take M) phi = (phi :: rev).take M := by
  unfold pushHistory
  cases M with
  | zero => simp
  | succ M => simp [List.take_take]

open Classical in
theorem loop_accept (S : RootSolver m n) (f : RootFun m n) (fTol xTol : ℝ) (k : Nat) (o o' : S.σ) (s s' : SState m n) (info : StepInfo n) (last)
    (h : S.step f o s = (o', s', info)) (ha : info.accepted = true) :
    rootLoop S f fTol xTol (k + 1) o s last =
      if checkConvergence s' fTol xTol (some info.step) then
        (o', { final := s', success := true, last := some info.step, iterates := [s'] })
      else ((rootLoop S f fTol xTol k o' s' (some info.step)).1,
        { (rootLoop S f fTol xTol k o' s' (some info.step)).2 with
          iterates := s' :: (rootLoop S f fTol xTol k o' s' (some info.step)).2.iterates }) := by
  simp only [rootLoop, h, ha, if_true]

theorem loop_reject (S : RootSolver m n) (f : RootFun m n) (fTol xTol : ℝ) (k : Nat) (o o' : S.σ) (s s' : SState m n) (info : StepInfo n) (last)
    (h : S.step f o s = (o', s', info)) (ha : info.accepted = false) :
    rootLoop S f fTol xTol (k + 1) o s last = (o', { final := s', success := false, last := last, iterates := [] }) := by
  simp [rootLoop, h, ha]

theorem nonmonotone_window {δ : Type} (fresh : δ) (dir : δ → SState m n → δ × Proposal n) (cfg : LineSearchCfg m n) (M : Nat) (hM : 1 ≤ M)
    (f : RootFun m n) (hdir : ∀ d s, (dir d s).2.slope ≤ 0) (hc1 : 0 ≤ cfg.c1) (hb : 0 ≤ cfg.beta) (fTol xTol : ℝ) (k : Nat)
    (d : δ) (h : List ℝ) (rev : List (SState m n)) (s : SState m n) (last) (hh : h = (rev.map SState.phi).take M) :
    Window M (s :: rev) (rootLoop (nonmonotoneSolver fresh dir cfg M) f fTol xTol k (d, h) s last).2.iterates := by
  induction k generalizing d h rev s last with
  | zero => simp [rootLoop, Window]
  | succ k ih =>
    have hst : (nonmonotoneSolver fresh dir cfg M).step f (d, h) s = (((dir d s).1, pushHistory M h s.phi),
        finishStep s (dir d s).2 (backtrack cfg f s.x (maxHistory (pushHistory M h s.phi) s.phi) (dir d s).2 cfg.maxIter 1)) := rfl
    have hpush : pushHistory M h s.phi = ((s :: rev).map SState.phi).take M := by rw [hh, push_take]; rfl
    cases hb' : backtrack cfg f s.x (maxHistory (pushHistory M h s.phi) s.phi) (dir d s).2 cfg.maxIter 1 with
    | none =>
      rw [hb', finishStep] at hst
      rw [loop_reject _ f fTol xTol k _ _ s s _ last hst rfl]; trivial
    | some q =>
      obtain ⟨s', alpha⟩ := q
      obtain ⟨_, _, _, h4, _, j, _, h6⟩ := backtrack_spec cfg f s.x _ (dir d s).2 cfg.maxIter 1 s' alpha hb'
      have hle : s'.phi ≤ maxHistory (pushHistory M h s.phi) s.phi := by
        have hneg : cfg.c1 * alpha * (dir d s).2.slope ≤ 0 :=
          mul_nonpos_of_nonneg_of_nonpos (mul_nonneg hc1 (by rw [h6, one_mul]; exact pow_nonneg hb j)) (hdir d s)
        linarith
      have hex : ∃ u ∈ (s :: rev).take M, s'.phi ≤ u.phi := by
        have hs : s ∈ (s :: rev).take M := by
          cases M with
          | zero => omega
          | succ M => simp
        rw [maxHistory] at hle
        rcases foldl_max_mem (pushHistory M h s.phi) s.phi with e | e
        · rw [e] at hle; exact ⟨s, hs, hle⟩
        · rw [hpush, ← List.map_take] at e
          obtain ⟨u, hu, hue⟩ := List.mem_map.mp e
          rw [hpush, ← List.map_take, ← hue] at hle
          exact ⟨u, hu, hle⟩
      rw [hb', finishStep] at hst
      rw [loop_accept _ f fTol xTol k _ _ s _ _ last hst rfl]
      split
      · exact ⟨hex, trivial⟩
      · exact ⟨hex, ih _ _ (s :: rev) _ _ (by rw [hpush])⟩

theorem window_index (M : Nat) (rev l : List (SState m n)) (h : Window M rev l) (i : Nat) (hi : i < l.length) :
    ∃ j, ∃ hj : j < (rev.reverse ++ l).length, j < rev.length + i ∧ rev.length + i ≤ j + M ∧ l[i].phi ≤ (rev.reverse ++ l)[j].phi := by
  induction l generalizing rev i with
  | nil => simp at hi
  | cons t l ih =>
    cases i with
    | zero =>
      obtain ⟨⟨u, hu, hle⟩, _⟩ := h
      obtain ⟨q, hq, rfl⟩ := List.getElem_of_mem hu
      have hq' : q < rev.length ∧ q < M := by simp at hq; omega
      refine ⟨rev.length - 1 - q, by simp; omega, by omega, by omega, ?_⟩
      rw [List.getElem_append_left (by simp; omega), List.getElem_reverse]
      simp only [List.getElem_take] at hle
      have : rev.length - 1 - (rev.length - 1 - q) = q := by omega
      simp only [this]; exact hle
    | succ i =>
      obtain ⟨j, hj, h1, h2, h3⟩ := ih (t :: rev) h.2 i (by simpa using hi)
      refine ⟨j, by simp at hj ⊢; omega, by simp at h1; omega, by simp at h2; omega, ?_⟩
      simpa using h3

theorem window_start (M : Nat) (s : SState m n) (rev l : List (SState m n)) (hrev : ∀ u ∈ rev, u.phi ≤ s.phi) (h : Window M rev l) :
    ∀ t ∈ l, t.phi ≤ s.phi := by
  induction l generalizing rev with
  | nil => simp
  | cons t l ih =>
    obtain ⟨⟨u, hu, hle⟩, hw⟩ := h
    have ht : t.phi ≤ s.phi := hle.trans (hrev u (List.mem_of_mem_take hu))
    intro v hv
    rcases List.mem_cons.mp hv with rfl | hv
    · exact ht
    · refine ih (t :: rev) ?_ hw v hv
      intro w hw'
      rcases List.mem_cons.mp hw' with rfl | hw'
      · exact ht
      · exact hrev w hw'

/-- with a consistent merit function the recorded merits are those of the function -/
theorem nonmonotone_phi {δ : Type} (fresh : δ) (dir : δ → SState m n → δ × Proposal n) (cfg : LineSearchCfg m n) (M : Nat)
    (f : RootFun m n) (hmerit : ConsistentMerit cfg f) (fTol xTol : ℝ) (k : Nat) (o : δ × List ℝ) (s : SState m n) (last) :
    ∀ t ∈ (rootLoop (nonmonotoneSolver fresh dir cfg M) f fTol xTol k o s last).2.iterates, t.phi = merit (f t.x).1 := by
  induction k generalizing o s last with
  | zero => simp [rootLoop]
  | succ k ih =>
    have hst : (nonmonotoneSolver fresh dir cfg M).step f o s = (((dir o.1 s).1, pushHistory M o.2 s.phi),
        finishStep s (dir o.1 s).2 (backtrack cfg f s.x (maxHistory (pushHistory M o.2 s.phi) s.phi) (dir o.1 s).2 cfg.maxIter 1)) := rfl
    cases hb' : backtrack cfg f s.x (maxHistory (pushHistory M o.2 s.phi) s.phi) (dir o.1 s).2 cfg.maxIter 1 with
    | none =>
      rw [hb', finishStep] at hst
      rw [loop_reject _ f fTol xTol k _ _ s s _ last hst rfl]; simp
    | some q =>
      obtain ⟨s', alpha⟩ := q
      obtain ⟨_, _, _, _, h5, _⟩ := backtrack_spec cfg f s.x _ (dir o.1 s).2 cfg.maxIter 1 s' alpha hb'
      rw [merit_consistent cfg f hmerit] at h5
      rw [hb', finishStep] at hst
      rw [loop_accept _ f fTol xTol k _ _ s _ _ last hst rfl]
      split
      · intro t ht; simp only [List.mem_singleton] at ht; subst ht; exact h5
      · intro t ht
        rcases List.mem_cons.mp ht with rfl | ht
        · exact h5
        · exact ih _ _ _ t ht

end SRoot

/-- **C33** (partial: the solver object is fresh, its history empty) every iterate is at most as bad as one of the `M` iterates before it in the
same solve, and so never worse than the start. What is missing: solver objects that have been used before, see `C33_reuse_violated`. -/
theorem C33_window_partial {m n : Nat} {δ : Type} (fresh : δ) (dir : δ → SState m n → δ × Proposal n) (cfg : LineSearchCfg m n) (M : Nat)
    (hM : 1 ≤ M) (f : RootFun m n) (hdir : ∀ d s, (dir d s).2.slope ≤ 0) (hc1 : 0 ≤ cfg.c1) (hb : 0 ≤ cfg.beta)
    (hmerit : SRoot.ConsistentMerit cfg f) (d : δ) (x0 : Fin n → ℝ) (fTol xTol : ℝ) (maxiter : Nat) :
    let r := (rootFind (nonmonotoneSolver fresh dir cfg M) (d, []) f x0 fTol xTol maxiter).2
    let xs := x0 :: r.iterates.map SState.x
    (∀ i (hi : i < xs.length), 0 < i → ∃ j, ∃ hj : j < xs.length, j < i ∧ i ≤ j + M ∧ merit (f xs[i]).1 ≤ merit (f xs[j]).1) ∧
    (∀ x ∈ xs, merit (f x).1 ≤ merit (f x0).1) := by
  intro r xs
  have key : SRoot.Window M [startState f x0] r.iterates ∧ ∀ t ∈ r.iterates, t.phi = merit (f t.x).1 := by
    simp only [r, rootFind]
    split
    · simp [SRoot.Window]
    · exact ⟨SRoot.nonmonotone_window fresh dir cfg M hM f hdir hc1 hb fTol xTol maxiter fresh [] [] (startState f x0) none (by simp),
        SRoot.nonmonotone_phi fresh dir cfg M f hmerit fTol xTol maxiter (fresh, []) (startState f x0) none⟩
  have hall : ∀ t ∈ startState f x0 :: r.iterates, t.phi = merit (f t.x).1 := by
    intro t ht
    rcases List.mem_cons.mp ht with rfl | ht
    · rfl
    · exact key.2 t ht
  have hxs : xs = (startState f x0 :: r.iterates).map SState.x := by simp [xs, startState]
  constructor
  · intro i hi hpos
    obtain ⟨i, rfl⟩ : ∃ i', i = i' + 1 := ⟨i - 1, by omega⟩
    have hi' : i < r.iterates.length := by simpa [xs] using hi
    obtain ⟨j, hj, h1, h2, h3⟩ := SRoot.window_index M [startState f x0] r.iterates key.1 i hi'
    simp only [List.reverse_singleton, List.singleton_append, List.length_singleton] at hj h1 h2 h3
    refine ⟨j, by simpa [hxs] using hj, by omega, by omega, ?_⟩
    have e1 : xs[i + 1] = r.iterates[i].x := by simp [xs]
    have e2 : xs[j]'(by simpa [hxs] using hj) = (startState f x0 :: r.iterates)[j].x := by simp only [hxs, List.getElem_map]
    rw [e1, e2, ← key.2 _ (List.getElem_mem hi'), ← hall _ (List.getElem_mem hj)]
    exact h3
  · intro x hx
    rw [hxs] at hx
    obtain ⟨t, ht, rfl⟩ := List.mem_map.mp hx
    rw [← hall t ht]
    rcases List.mem_cons.mp ht with rfl | ht
    · exact le_refl _
    · exact SRoot.window_start M (startState f x0) [startState f x0] r.iterates (by simp) key.1 t ht

namespace SRoot
/-- exact scalar division as the linear solver -/
noncomputable def divLin : Matrix (Fin 1) (Fin 1) ℝ → (Fin 1 → ℝ) → Option (Fin 1 → ℝ) := fun J r => some fun _ => r 0 / J 0 0

/-- Newton's method with the non-monotone line search of memory 10 and its default constants -/
noncomputable def newtonNM : RootSolver 1 1 :=
  nonmonotoneSolver () (fun _ s => ((), newtonDirection divLin s)) { c1 := 1e-4, beta := 0.5, maxIter := 20 } 10

/-- residual 20 at 0 and 0 elsewhere -/
noncomputable def firstProblem : RootFun 1 1 := fun x => (fun _ => if x 0 = 0 then 20 else 0, fun _ _ => -20)

/-- residual 1 at 0 and 10 elsewhere -/
noncomputable def secondProblem : RootFun 1 1 := fun x => (fun _ => if x 0 = 0 then 1 else 10, fun _ _ => -1)
end SRoot

namespace SRoot
variable {m n : Nat}

theorem backtrack_first (cfg : LineSearchCfg m n) (f : RootFun m n) (x : Fin n → ℝ) (ref : ℝ) (p : Proposal n) (k : Nat) (a : ℝ)
    (h : trialMerit cfg f (x + a • p.direction) ≤ ref + cfg.c1 * a * p.slope) :
    backtrack cfg f x ref p (k + 1) a = some (⟨x + a • p.direction, (f (x + a • p.direction)).1,
      (f (x + a • p.direction)).2, trialMerit cfg f (x + a • p.direction), 0⟩, a) := by
  unfold backtrack; rw [if_pos h]

theorem backtrack_never (cfg : LineSearchCfg m n) (f : RootFun m n) (x : Fin n → ℝ) (ref : ℝ) (p : Proposal n) (k : Nat) (a : ℝ)
    (ha : 0 < a) (hb : 0 < cfg.beta)
    (h : ∀ a, 0 < a → ¬ trialMerit cfg f (x + a • p.direction) ≤ ref + cfg.c1 * a * p.slope) :
    backtrack cfg f x ref p k a = none := by
  induction k generalizing a with
  | zero => rfl
  | succ k ih => unfold backtrack; rw [if_neg (h a ha)]; exact ih _ (mul_pos ha hb)

theorem newton_scalar (r j : ℝ) (s : SState 1 1) (h1 : s.res = (fun _ => r)) (h2 : s.jac = (fun _ _ => j)) (hr : r ≠ 0) (hj : j ≠ 0) :
    newtonDirection divLin s = Proposal.mk (fun _ => -r / j) (-(r * r)) := by
  simp only [newtonDirection, finishProposal, solveOrGradient, divLin, h1, h2, Option.getD_some]
  have : ((fun _ => r : Fin 1 → ℝ) ⬝ᵥ ((fun _ _ => j : Matrix (Fin 1) (Fin 1) ℝ) *ᵥ fun _ => (-(fun _ => r) : Fin 1 → ℝ) 0 / j)) = -(r * r) := by
    simp [dotProduct, mulVec]; field_simp
  rw [this]
  have hpos : 0 < r * r := mul_self_pos.mpr hr
  rw [if_neg (by linarith)]
  rfl

theorem maxAbs_one (v : Fin 1 → ℝ) : maxAbs v = |v 0| := by simp [maxAbs]

theorem merit_one (v : Fin 1 → ℝ) : merit v = 0.5 * (v 0 * v 0) := by simp [merit, dotProduct]

end SRoot

/-- **C33** violated when a solver object is used for a second solve: the history of the first solve is still there, and an iterate a hundred
times as bad as the start is accepted. (First solve: residual 20 at the start. Second solve: residual 1 at the start, 10 after one iteration.) -/
theorem C33_reuse_violated :
    ∃ o, o = (rootFind SRoot.newtonNM ((), []) SRoot.firstProblem 0 1e-8 1e-8 1).1 ∧
      let r := (rootFind SRoot.newtonNM o SRoot.secondProblem 0 1e-8 1e-8 1).2
      merit (SRoot.secondProblem 0).1 = 0.5 ∧ r.iterates.length = 1 ∧ merit r.final.res = 50 ∧
      -- a fresh solver object refuses that step
      ((rootFind SRoot.newtonNM ((), []) SRoot.secondProblem 0 1e-8 1e-8 1).2.iterates = []) := by
  have hs : ∀ (f : RootFun 1 1) (h : List ℝ) (s : SState 1 1), SRoot.newtonNM.step f ((), h) s = (((), pushHistory 10 h s.phi),
      finishStep s (newtonDirection SRoot.divLin s) (backtrack { c1 := 1e-4, beta := 0.5, maxIter := 20 } f s.x
        (maxHistory (pushHistory 10 h s.phi) s.phi) (newtonDirection SRoot.divLin s) 20 1)) := fun _ _ _ => rfl
  have hreset : ∀ h, SRoot.newtonNM.reset ((), h) = ((), h) := fun _ => rfl
  -- first solve
  have p1 : (startState SRoot.firstProblem 0).phi = 200 := by
    simp [startState, SRoot.merit_one, SRoot.firstProblem]; norm_num
  have q1 := SRoot.newton_scalar 20 (-20) (startState SRoot.firstProblem 0) (by simp [startState, SRoot.firstProblem])
    rfl (by norm_num) (by norm_num)
  have first : (rootFind SRoot.newtonNM ((), []) SRoot.firstProblem 0 1e-8 1e-8 1).1 = ((), [200]) := by
    have st := hs SRoot.firstProblem [] (startState SRoot.firstProblem 0)
    rw [q1, SRoot.backtrack_first] at st
    · simp only [rootFind]
      rw [if_neg, hreset, SRoot.loop_accept _ _ _ _ _ _ _ _ _ _ _ st rfl]
      · have : pushHistory 10 [] (startState SRoot.firstProblem 0).phi = [200] := by rw [p1]; rfl
        split
        · exact congrArg (Prod.mk ()) this
        · exact congrArg (Prod.mk ()) this
      · simp [startState, SRoot.maxAbs_one, SRoot.firstProblem]; norm_num
    · rw [p1]
      simp [trialMerit, SRoot.merit_one, SRoot.firstProblem, pushHistory, maxHistory, startState]
      norm_num
  have p2 : (startState SRoot.secondProblem 0).phi = 0.5 := by
    simp [startState, SRoot.merit_one, SRoot.secondProblem]
  have q2 := SRoot.newton_scalar 1 (-1) (startState SRoot.secondProblem 0) (by simp [startState, SRoot.secondProblem])
    rfl (by norm_num) (by norm_num)
  have c2 : ¬ maxAbs (startState SRoot.secondProblem 0).res < 1e-8 := by
    simp [startState, SRoot.maxAbs_one, SRoot.secondProblem]; norm_num
  refine ⟨_, rfl, ?_⟩
  rw [first]
  have st := hs SRoot.secondProblem [200] (startState SRoot.secondProblem 0)
  have st0 := hs SRoot.secondProblem [] (startState SRoot.secondProblem 0)
  rw [q2, SRoot.backtrack_first] at st
  · have hr : rootFind SRoot.newtonNM ((), [200]) SRoot.secondProblem 0 1e-8 1e-8 1 =
        rootLoop SRoot.newtonNM SRoot.secondProblem 1e-8 1e-8 1 ((), [200]) (startState SRoot.secondProblem 0) none := by
      simp only [rootFind]
      rw [if_neg c2, hreset]
    refine ⟨p2, ?_, ?_, ?_⟩
    · rw [hr, SRoot.loop_accept _ _ _ _ _ _ _ _ _ _ _ st rfl]
      split <;> simp [rootLoop]
    · rw [hr, SRoot.loop_accept _ _ _ _ _ _ _ _ _ _ _ st rfl]
      split <;> simp [rootLoop, SRoot.merit_one, SRoot.secondProblem, startState] <;> norm_num
    · rw [q2, SRoot.backtrack_never] at st0
      · simp only [rootFind]
        rw [if_neg c2, hreset, SRoot.loop_reject _ _ _ _ _ _ _ _ _ _ _ st0 rfl]
      · norm_num
      · norm_num
      · intro a ha
        rw [p2]
        simp [trialMerit, SRoot.merit_one, SRoot.secondProblem, pushHistory, maxHistory, startState, ha.ne']
        nlinarith
  · rw [p2]
    simp [trialMerit, SRoot.merit_one, SRoot.secondProblem, pushHistory, maxHistory, startState]
    norm_num

/-- **C33** the hypotheses of `C33_window_partial` hold for Newton directions -/
example (f : RootFun 1 1) (x0 : Fin 1 → ℝ) : ∀ x ∈ x0 :: ((rootFind SRoot.newtonNM ((), []) f x0 1e-8 1e-8 100).2.iterates.map SState.x),
    merit (f x).1 ≤ merit (f x0).1 :=
  (C33_window_partial () (fun _ s => ((), newtonDirection SRoot.divLin s)) { c1 := 1e-4, beta := 0.5, maxIter := 20 } 10 (by norm_num) f
    (fun _ s => (C32_slope s.res s.jac _).1) (by norm_num) (by norm_num) (fun g h => by simp at h) () x0 1e-8 1e-8 100).2

/-! ## C35: what success does not mean -/

namespace SRoot
/-- residual 1 at 0 and 0.9 elsewhere; the slope reported at 0 is `-10¹¹` -/
noncomputable def steep : RootFun 1 1 := fun x => (fun _ => if x 0 = 0 then 1 else 0.9, fun _ _ => -1e11)
end SRoot

/-- **C35** scope: success may come from the step test alone. A Newton step of size `10⁻¹¹` ends the solve with `success = True` and residual
0.9. -/
theorem C35_success_without_root :
    let r := (rootFind (armijoSolver () (fun _ s => ((), newtonDirection SRoot.divLin s)) { c1 := 1e-4, beta := 0.5, maxIter := 20 }) ()
      SRoot.steep 0 1e-8 1e-8 100).2
    r.success = true ∧ r.final.res 0 = 0.9 := by
  set S : RootSolver 1 1 := armijoSolver () (fun _ s => ((), newtonDirection SRoot.divLin s)) { c1 := 1e-4, beta := 0.5, maxIter := 20 } with hS
  have q := SRoot.newton_scalar 1 (-1e11) (startState SRoot.steep 0) (by simp [startState, SRoot.steep])
    rfl (by norm_num) (by norm_num)
  have p2 : (startState SRoot.steep 0).phi = 0.5 := by simp [startState, SRoot.merit_one, SRoot.steep]
  have st : S.step SRoot.steep () (startState SRoot.steep 0) = ((), finishStep (startState SRoot.steep 0)
      (newtonDirection SRoot.divLin (startState SRoot.steep 0)) (backtrack { c1 := 1e-4, beta := 0.5, maxIter := 20 } SRoot.steep
        (startState SRoot.steep 0).x (startState SRoot.steep 0).phi (newtonDirection SRoot.divLin (startState SRoot.steep 0)) 20 1)) := rfl
  rw [q, SRoot.backtrack_first] at st
  · intro r
    have hr : r = (rootFind S () SRoot.steep 0 1e-8 1e-8 100).2 := rfl
    rw [hr]
    simp only [rootFind]
    have hreset : S.reset () = () := rfl
    rw [if_neg, hreset, SRoot.loop_accept _ _ _ _ 99 _ _ _ _ _ _ st rfl, if_pos]
    · simp [SRoot.steep, startState]; norm_num
    · right
      refine ⟨_, rfl, ?_⟩
      simp [checkStep, SRoot.maxAbs_one, startState]
      norm_num
    · simp [startState, SRoot.maxAbs_one, SRoot.steep]; norm_num
  · rw [p2]
    simp [trialMerit, SRoot.merit_one, SRoot.steep, startState]
    norm_num

/-! ## C32: the line search finds a step -/

/-- **C32** if the Jacobian really is the derivative of the residuals along the direction, the slope is negative and `0 ≤ c1 < 1`, `0 < β < 1`,
then the back-tracking search accepts a step once enough reductions are allowed: a failure means the iteration limit or a wrong Jacobian -/
theorem C32_search_succeeds {m n : Nat} (cfg : LineSearchCfg m n) (f : RootFun m n) (hmerit : SRoot.ConsistentMerit cfg f)
    (s : SState m n) (hs : s.res = (f s.x).1 ∧ s.phi = merit s.res) (p : Proposal n)
    (hp : p.slope = s.res ⬝ᵥ (s.jac *ᵥ p.direction)) (hneg : p.slope < 0)
    (hderiv : ∀ i, HasDerivAt (fun a : ℝ => (f (s.x + a • p.direction)).1 i) ((s.jac *ᵥ p.direction) i) 0)
    (hc : cfg.c1 < 1) (hb : 0 < cfg.beta ∧ cfg.beta < 1) :
    ∃ N, ∀ k, N ≤ k → (backtrack cfg f s.x s.phi p k 1).isSome := by
  have hF : ∀ i, (f (s.x + (0 : ℝ) • p.direction)).1 i = s.res i := by intro i; rw [zero_smul, add_zero, hs.1]
  have hd : HasDerivAt (fun a : ℝ => merit (f (s.x + a • p.direction)).1) p.slope 0 := by
    have h1 : HasDerivAt (fun a : ℝ => ∑ i, (f (s.x + a • p.direction)).1 i * (f (s.x + a • p.direction)).1 i)
        (∑ i, ((s.jac *ᵥ p.direction) i * s.res i + s.res i * (s.jac *ᵥ p.direction) i)) 0 := by
      refine HasDerivAt.fun_sum fun i _ => ?_
      have := (hderiv i).mul (hderiv i)
      rw [hF i] at this
      exact this
    have h2 := h1.const_mul (0.5 : ℝ)
    have e : 0.5 * (∑ i, ((s.jac *ᵥ p.direction) i * s.res i + s.res i * (s.jac *ᵥ p.direction) i)) = p.slope := by
      rw [hp, dotProduct, Finset.mul_sum]
      exact Finset.sum_congr rfl fun i _ => by ring
    rw [e] at h2
    exact h2
  have h0 : merit (f (s.x + (0 : ℝ) • p.direction)).1 = s.phi := by rw [zero_smul, add_zero, hs.2, hs.1]
  have hev : ∀ᶠ a : ℝ in nhdsWithin 0 {0}ᶜ, slope (fun a : ℝ => merit (f (s.x + a • p.direction)).1) 0 a < cfg.c1 * p.slope :=
    (hasDerivAt_iff_tendsto_slope.mp hd).eventually_lt_const (by nlinarith)
  have hev' : ∀ᶠ a : ℝ in nhdsWithin 0 (Set.Ioi 0), merit (f (s.x + a • p.direction)).1 ≤ s.phi + cfg.c1 * a * p.slope := by
    have hsub : nhdsWithin (0 : ℝ) (Set.Ioi 0) ≤ nhdsWithin 0 {0}ᶜ := nhdsWithin_mono _ (fun a ha => ne_of_gt ha)
    filter_upwards [hsub hev, self_mem_nhdsWithin] with a ha hpos
    have hpos' : (0 : ℝ) < a := hpos
    rw [slope_def_field, sub_zero, h0, div_lt_iff₀ hpos'] at ha
    nlinarith
  have htend : Filter.Tendsto (fun j : ℕ => cfg.beta ^ j) Filter.atTop (nhdsWithin 0 (Set.Ioi 0)) :=
    tendsto_nhdsWithin_iff.mpr ⟨tendsto_pow_atTop_nhds_zero_of_lt_one hb.1.le hb.2, Filter.Eventually.of_forall fun j => pow_pos hb.1 j⟩
  obtain ⟨N, hN⟩ := Filter.eventually_atTop.mp (htend.eventually hev')
  have hacc := hN N (le_refl _)
  refine ⟨N + 1, fun k hk => ?_⟩
  have gen : ∀ (q : Nat) (a : ℝ) (k : Nat), q < k → a * cfg.beta ^ q = cfg.beta ^ N → (backtrack cfg f s.x s.phi p k a).isSome := by
    intro q
    induction q with
    | zero =>
      intro a k hk ha
      obtain ⟨k, rfl⟩ : ∃ k', k = k' + 1 := ⟨k - 1, by omega⟩
      rw [pow_zero, mul_one] at ha
      rw [ha, SRoot.backtrack_first _ _ _ _ _ _ _ (by rw [SRoot.merit_consistent cfg f hmerit]; exact hacc)]
      rfl
    | succ q ih =>
      intro a k hk ha
      obtain ⟨k, rfl⟩ : ∃ k', k = k' + 1 := ⟨k - 1, by omega⟩
      by_cases hle : trialMerit cfg f (s.x + a • p.direction) ≤ s.phi + cfg.c1 * a * p.slope
      · rw [SRoot.backtrack_first _ _ _ _ _ _ _ hle]; rfl
      · unfold backtrack
        rw [if_neg hle]
        exact ih _ _ (by omega) (by rw [← ha, pow_succ]; ring)
  exact gen N 1 k (by omega) (by rw [one_mul])

end GE
