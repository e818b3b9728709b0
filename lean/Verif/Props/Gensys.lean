import Verif.Model.Gensys
import Verif.Props.LinearSolve
import Mathlib.LinearAlgebra.Matrix.Block
import Mathlib.LinearAlgebra.Matrix.ToLinearEquiv
import Mathlib.Analysis.SpecificLimits.Basic
import Mathlib.Topology.Algebra.Module.FiniteDimension
/-! # C68, C69: gensys -/

open Matrix Filter Topology

namespace GE

namespace Gen

/-! ## triangular difference equations -/

theorem tri_inj {m : ℕ} {M : Matrix (Fin m) (Fin m) ℂ} (hM : ∀ i j, j < i → M i j = 0) (hd : ∀ i, M i i ≠ 0) {z : Fin m → ℂ} (h : M *ᵥ z = 0) :
    z = 0 := by
  have hdet : M.det ≠ 0 := by
    rw [det_of_isUpperTriangular (M := M) (fun i j hij => hM i j hij)]
    exact Finset.prod_ne_zero_iff.mpr fun i _ => hd i
  exact eq_zero_of_mulVec_eq_zero hdet h

theorem tri_row {m : ℕ} {M : Matrix (Fin m) (Fin m) ℂ} (hM : ∀ i j, j < i → M i j = 0) (z : Fin m → ℂ) (i : Fin m) :
    (M *ᵥ z) i = M i i * z i + ∑ j ∈ Finset.univ.filter (fun j => i < j), M i j * z j := by
  rw [mulVec, dotProduct, ← Finset.add_sum_erase _ _ (Finset.mem_univ i)]
  congr 1
  symm
  apply Finset.sum_subset
  · intro j hj; simp only [Finset.mem_filter, Finset.mem_univ, true_and] at hj; simp [ne_of_gt hj]
  · intro j hj hn
    simp only [Finset.mem_erase, Finset.mem_univ, and_true] at hj
    simp only [Finset.mem_filter, Finset.mem_univ, true_and, not_lt] at hn
    rw [hM i j (lt_of_le_of_ne hn hj), zero_mul]

/-- downward induction over `Fin m` -/
theorem down {m : ℕ} (P : Fin m → Prop) (h : ∀ i, (∀ j, i < j → P j) → P i) : ∀ i, P i := by
  have : ∀ k : ℕ, ∀ i : Fin m, m - i.val ≤ k → P i := by
    intro k
    induction k with
    | zero => intro i hi; omega
    | succ k ih => intro i hi; exact h i fun j hj => ih j (by have : i.val < j.val := hj; omega)
  exact fun i => this _ i le_rfl

theorem tri_back {m : ℕ} {M N : Matrix (Fin m) (Fin m) ℂ} (hM : ∀ i j, j < i → M i j = 0) (hN : ∀ i j, j < i → N i j = 0)
    (hd : ∀ i, ‖M i i‖ ≤ ‖N i i‖) (hn : ∀ i, N i i ≠ 0) (z : ℕ → Fin m → ℂ) (hz : ∀ t, M *ᵥ z (t + 1) = N *ᵥ z t)
    (hlim : ∀ i, Tendsto (fun t => z t i) atTop (𝓝 0)) : ∀ i t, z t i = 0 := by
  apply down
  intro i ih t
  have hstep : ∀ t, M i i * z (t + 1) i = N i i * z t i := by
    intro t
    have := congrFun (hz t) i
    rw [tri_row hM, tri_row hN] at this
    rw [Finset.sum_eq_zero, Finset.sum_eq_zero, add_zero, add_zero] at this
    · exact this
    · intro j hj; rw [ih j (by simpa using hj) t, mul_zero]
    · intro j hj; rw [ih j (by simpa using hj) (t + 1), mul_zero]
  have hle : ∀ t, ‖z t i‖ ≤ ‖z (t + 1) i‖ := by
    intro t
    have h1 : ‖N i i‖ * ‖z t i‖ = ‖M i i‖ * ‖z (t + 1) i‖ := by rw [← norm_mul, ← norm_mul, hstep]
    have h2 : 0 < ‖N i i‖ := norm_pos_iff.mpr (hn i)
    have h3 : ‖N i i‖ * ‖z t i‖ ≤ ‖N i i‖ * ‖z (t + 1) i‖ := by
      rw [h1]; exact mul_le_mul_of_nonneg_right (hd i) (norm_nonneg _)
    exact le_of_mul_le_mul_left h3 h2
  have hmono : Monotone fun t => ‖z t i‖ := monotone_nat_of_le_succ hle
  have h0 : Tendsto (fun t => ‖z t i‖) atTop (𝓝 0) := by simpa using (hlim i).norm
  have := hmono.ge_of_tendsto h0 t
  exact norm_le_zero_iff.mp this

/-- a stable scalar recursion with vanishing disturbances vanishes -/
theorem recursion_vanishes (m : ℂ) (hm : ‖m‖ < 1) (z e : ℕ → ℂ) (hz : ∀ t, z (t + 1) = m * z t + e t) (he : Tendsto e atTop (𝓝 0)) :
    Tendsto z atTop (𝓝 0) := by
  rw [Metric.tendsto_atTop]
  intro ε hε
  have hpos : 0 < (1 - ‖m‖) * (ε / 2) := mul_pos (by linarith) (by linarith)
  obtain ⟨N, hN⟩ := (Metric.tendsto_atTop.mp he) _ hpos
  have hb : ∀ k, ‖z (N + k)‖ ≤ ε / 2 + ‖m‖ ^ k * ‖z N‖ := by
    intro k
    induction k with
    | zero => simp; linarith
    | succ k ih =>
      have h1 := hN (N + k) (by omega)
      rw [dist_zero_right] at h1
      calc ‖z (N + (k + 1))‖ = ‖m * z (N + k) + e (N + k)‖ := by rw [← hz]; rfl
        _ ≤ ‖m‖ * ‖z (N + k)‖ + ‖e (N + k)‖ := by rw [← norm_mul]; exact norm_add_le _ _
        _ ≤ ‖m‖ * (ε / 2 + ‖m‖ ^ k * ‖z N‖) + (1 - ‖m‖) * (ε / 2) :=
          add_le_add (mul_le_mul_of_nonneg_left ih (norm_nonneg _)) h1.le
        _ = ε / 2 + ‖m‖ ^ (k + 1) * ‖z N‖ := by ring
  have hp : Tendsto (fun k => ‖m‖ ^ k * ‖z N‖) atTop (𝓝 0) := by
    simpa using (tendsto_pow_atTop_nhds_zero_of_lt_one (norm_nonneg m) hm).mul_const ‖z N‖
  obtain ⟨K, hK⟩ := (Metric.tendsto_atTop.mp hp) (ε / 2) (by linarith)
  refine ⟨N + K, fun t ht => ?_⟩
  obtain ⟨k, rfl⟩ : ∃ k, t = N + k := ⟨t - N, by omega⟩
  have h2 := hK k (by omega)
  rw [dist_zero_right] at h2 ⊢
  have h3 := (le_abs_self _).trans h2.le
  have h4 := hb k
  have h5 := lt_of_le_of_lt (le_abs_self _) h2
  linarith

theorem tri_fwd {m : ℕ} {M N : Matrix (Fin m) (Fin m) ℂ} (hM : ∀ i j, j < i → M i j = 0) (hN : ∀ i j, j < i → N i j = 0)
    (hd : ∀ i, ‖N i i‖ < ‖M i i‖) (z : ℕ → Fin m → ℂ) (hz : ∀ t, M *ᵥ z (t + 1) = N *ᵥ z t) :
    ∀ i, Tendsto (fun t => z t i) atTop (𝓝 0) := by
  apply down
  intro i ih
  have hne : M i i ≠ 0 := by
    intro h; have := hd i; rw [h, norm_zero] at this; exact absurd this (not_lt.mpr (norm_nonneg _))
  set f : ℕ → ℂ := fun t => ∑ j ∈ Finset.univ.filter (fun j => i < j), M i j * z (t + 1) j with hf
  set h : ℕ → ℂ := fun t => ∑ j ∈ Finset.univ.filter (fun j => i < j), N i j * z t j with hh
  have hf0 : Tendsto f atTop (𝓝 0) := by
    have := tendsto_finsetSum (Finset.univ.filter (fun j => i < j))
      (fun j hj => (((ih j (by simpa using hj)).comp (tendsto_add_atTop_nat 1)).const_mul (M i j)))
    simpa using this
  have hh0 : Tendsto h atTop (𝓝 0) := by
    have := tendsto_finsetSum (Finset.univ.filter (fun j => i < j)) (fun j hj => ((ih j (by simpa using hj)).const_mul (N i j)))
    simpa using this
  refine recursion_vanishes (N i i / M i i) ?_ _ (fun t => (h t - f t) / M i i) ?_ ?_
  · rw [norm_div, div_lt_one (norm_pos_iff.mpr hne)]; exact hd i
  · intro t
    have := congrFun (hz t) i
    rw [tri_row hM, tri_row hN] at this
    field_simp
    simp only [hf, hh]
    linear_combination this
  · have := (hh0.sub hf0).div_const (M i i)
    simpa using this

/-! ## the stable subspace -/

variable {ι η κ : Type} [Fintype ι] [DecidableEq ι] [Fintype η] [DecidableEq η] [Fintype κ] [DecidableEq κ]
variable {g0 g1 : Matrix ι ι ℂ} (q : SortedQZ g0 g1)

theorem rot0 : q.Q * g0 = q.A * q.Zᴴ := by rw [← q.A_eq, Matrix.mul_assoc, q.Z_right, Matrix.mul_one]
theorem rot1 : q.Q * g1 = q.B * q.Zᴴ := by rw [← q.B_eq, Matrix.mul_assoc, q.Z_right, Matrix.mul_one]

/-- the unstable coordinates of `y` -/
def unst (y : ι → ℂ) : Fin q.nu → ℂ := fun u => (q.Zᴴ *ᵥ y) (.inr u)
/-- the stable coordinates of `y` -/
def stab (y : ι → ℂ) : Fin q.ns → ℂ := fun s => (q.Zᴴ *ᵥ y) (.inl s)

def A11 : Matrix (Fin q.ns) (Fin q.ns) ℂ := q.A.toBlocks₁₁
def A22 : Matrix (Fin q.nu) (Fin q.nu) ℂ := q.A.toBlocks₂₂
def B11 : Matrix (Fin q.ns) (Fin q.ns) ℂ := q.B.toBlocks₁₁
def B22 : Matrix (Fin q.nu) (Fin q.nu) ℂ := q.B.toBlocks₂₂

theorem A_inr (z : Fin q.ns ⊕ Fin q.nu → ℂ) (u) : (q.A *ᵥ z) (.inr u) = (A22 q *ᵥ fun i => z (.inr i)) u := by
  simp [mulVec, dotProduct, Fintype.sum_sum_type, q.A_low, A22, toBlocks₂₂]
theorem B_inr (z : Fin q.ns ⊕ Fin q.nu → ℂ) (u) : (q.B *ᵥ z) (.inr u) = (B22 q *ᵥ fun i => z (.inr i)) u := by
  simp [mulVec, dotProduct, Fintype.sum_sum_type, q.B_low, B22, toBlocks₂₂]
theorem A_inl (z : Fin q.ns ⊕ Fin q.nu → ℂ) (hz : ∀ u, z (.inr u) = 0) (s) : (q.A *ᵥ z) (.inl s) = (A11 q *ᵥ fun i => z (.inl i)) s := by
  simp [mulVec, dotProduct, Fintype.sum_sum_type, hz, A11, toBlocks₁₁]
theorem B_inl (z : Fin q.ns ⊕ Fin q.nu → ℂ) (hz : ∀ u, z (.inr u) = 0) (s) : (q.B *ᵥ z) (.inl s) = (B11 q *ᵥ fun i => z (.inl i)) s := by
  simp [mulVec, dotProduct, Fintype.sum_sum_type, hz, B11, toBlocks₁₁]

theorem coords_zero {y : ι → ℂ} (h : q.Zᴴ *ᵥ y = 0) : y = 0 := by
  have : q.Z *ᵥ (q.Zᴴ *ᵥ y) = 0 := by rw [h, mulVec_zero]
  rwa [mulVec_mulVec, q.Z_right, one_mulVec] at this

theorem Q_inj {v : ι → ℂ} (h : q.Q *ᵥ v = 0) : v = 0 := by
  have : q.Qᴴ *ᵥ (q.Q *ᵥ v) = 0 := by rw [h, mulVec_zero]
  rwa [mulVec_mulVec, q.Q_left, one_mulVec] at this

theorem diagA : ∀ i, A11 q i i ≠ 0 := by
  intro i h
  have := q.sorted₁ i
  rw [show q.A (.inl i) (.inl i) = 0 from h, norm_zero] at this
  exact absurd this (not_lt.mpr (norm_nonneg _))

/-- no coincident zeros -/
def NonDeg : Prop := ∀ u, q.B (.inr u) (.inr u) ≠ 0

variable {q}

theorem unst_inr (y y' : ι → ℂ) (h : g0 *ᵥ y' = g1 *ᵥ y) : A22 q *ᵥ unst q y' = B22 q *ᵥ unst q y := by
  have : q.Q *ᵥ (g0 *ᵥ y') = q.Q *ᵥ (g1 *ᵥ y) := by rw [h]
  rw [mulVec_mulVec, mulVec_mulVec, rot0, rot1, ← mulVec_mulVec, ← mulVec_mulVec] at this
  funext u
  have hu := congrFun this (.inr u)
  rwa [A_inr, B_inr] at hu

/-- a vanishing solution stays in the stable subspace -/
theorem unst_zero (hq : NonDeg q) (y : ℕ → ι → ℂ) (hy : ∀ t, g0 *ᵥ y (t + 1) = g1 *ᵥ y t) (hl : Tendsto y atTop (𝓝 0)) : ∀ t, unst q (y t) = 0 := by
  have key := tri_back (M := A22 q) (N := B22 q) (fun i j h => q.A_tri₂ i j h) (fun i j h => q.B_tri₂ i j h)
    (fun i => not_lt.mp (q.sorted₂ i)) hq (fun t => unst q (y t)) (fun t => unst_inr _ _ (hy t)) (by
      intro u
      have h1 : Tendsto (fun t => (q.Zᴴ *ᵥ y t) (.inr u)) atTop (𝓝 ((q.Zᴴ *ᵥ 0) (.inr u))) := by
        simp only [mulVec, dotProduct]
        exact tendsto_finsetSum _ fun j _ => ((tendsto_pi_nhds.mp hl) j).const_mul _
      simpa [unst] using h1)
  intro t; funext u; exact key u t

/-- solutions inside the stable subspace vanish -/
theorem stab_vanish (y : ℕ → ι → ℂ) (hy : ∀ t, g0 *ᵥ y (t + 1) = g1 *ᵥ y t) (hu : ∀ t, unst q (y t) = 0) : Tendsto y atTop (𝓝 0) := by
  have key := tri_fwd (M := A11 q) (N := B11 q) (fun i j h => q.A_tri₁ i j h) (fun i j h => q.B_tri₁ i j h) q.sorted₁
    (fun t => stab q (y t)) (by
      intro t
      have : q.Q *ᵥ (g0 *ᵥ y (t + 1)) = q.Q *ᵥ (g1 *ᵥ y t) := by rw [hy]
      rw [mulVec_mulVec, mulVec_mulVec, rot0, rot1, ← mulVec_mulVec, ← mulVec_mulVec] at this
      funext s
      have hs := congrFun this (.inl s)
      rwa [A_inl q _ (fun u => congrFun (hu (t + 1)) u), B_inl q _ (fun u => congrFun (hu t) u)] at hs)
  have hz : Tendsto (fun t => q.Zᴴ *ᵥ y t) atTop (𝓝 0) := by
    rw [tendsto_pi_nhds]
    rintro (s | u)
    · exact key s
    · have : (fun t => (q.Zᴴ *ᵥ y t) (.inr u)) = fun _ => 0 := by funext t; exact congrFun (hu t) u
      rw [this]; exact tendsto_const_nhds
  have h2 : Tendsto (fun t => q.Z *ᵥ (q.Zᴴ *ᵥ y t)) atTop (𝓝 (q.Z *ᵥ 0)) := by
    rw [tendsto_pi_nhds]
    intro i
    simp only [mulVec, dotProduct]
    exact tendsto_finsetSum _ fun j _ => ((tendsto_pi_nhds.mp hz) j).const_mul _
  simpa [mulVec_mulVec, q.Z_right] using h2

theorem ofCoords_inr (c : Fin q.ns ⊕ Fin q.nu → ℂ) : q.Zᴴ *ᵥ (q.Z *ᵥ c) = c := by rw [mulVec_mulVec, q.Z_left, one_mulVec]

/-- inside the stable subspace the system determines the next value -/
theorem next_exists (y : ι → ℂ) (hy : unst q y = 0) : ∃ y', unst q y' = 0 ∧ g0 *ᵥ y' = g1 *ᵥ y := by
  have hdet : (A11 q).det ≠ 0 := by
    rw [det_of_isUpperTriangular (M := A11 q) (fun i j hij => q.A_tri₁ i j hij)]
    exact Finset.prod_ne_zero_iff.mpr fun i _ => diagA q i
  let c : Fin q.ns ⊕ Fin q.nu → ℂ := Sum.elim ((A11 q)⁻¹ *ᵥ (B11 q *ᵥ stab q y)) 0
  refine ⟨q.Z *ᵥ c, ?_, ?_⟩
  · funext u; simp only [unst]; rw [ofCoords_inr]; rfl
  · have : q.Q *ᵥ (g0 *ᵥ (q.Z *ᵥ c)) = q.Q *ᵥ (g1 *ᵥ y) := by
      rw [mulVec_mulVec, mulVec_mulVec _ q.Q, rot0, rot1, ← mulVec_mulVec, ← mulVec_mulVec, ofCoords_inr]
      funext i
      rcases i with s | u
      · rw [A_inl q _ (fun _ => rfl), B_inl q _ (fun u => congrFun hy u)]
        change (A11 q *ᵥ ((A11 q)⁻¹ *ᵥ (B11 q *ᵥ stab q y))) s = _
        rw [mulVec_mulVec, mul_nonsing_inv _ (Ne.isUnit hdet), one_mulVec]; rfl
      · rw [A_inr, B_inr]
        change (A22 q *ᵥ (0 : Fin q.nu → ℂ)) u = (B22 q *ᵥ unst q y) u
        rw [hy, mulVec_zero, mulVec_zero]
    have h2 : q.Q *ᵥ (g0 *ᵥ (q.Z *ᵥ c) - g1 *ᵥ y) = 0 := by rw [mulVec_sub, this, sub_self]
    exact sub_eq_zero.mp (Q_inj q h2)

theorem next_unique (y : ι → ℂ) (hy : unst q y = 0) (h : g0 *ᵥ y = 0) : y = 0 := by
  apply coords_zero q
  have h1 : q.Q *ᵥ (g0 *ᵥ y) = 0 := by rw [h, mulVec_zero]
  rw [mulVec_mulVec, rot0, ← mulVec_mulVec] at h1
  have h2 : A11 q *ᵥ stab q y = 0 := by
    funext s
    have := congrFun h1 (.inl s)
    rwa [A_inl q _ (fun u => congrFun hy u)] at this
  have h3 := tri_inj (fun i j h => q.A_tri₁ i j h) (diagA q) h2
  funext i
  rcases i with s | u
  · exact congrFun h3 s
  · exact congrFun hy u

/-- the solution inside the stable subspace starting from `y` -/
theorem path_exists (y : ι → ℂ) (hy : unst q y = 0) :
    ∃ p : ℕ → ι → ℂ, p 0 = y ∧ (∀ t, unst q (p t) = 0) ∧ ∀ t, g0 *ᵥ p (t + 1) = g1 *ᵥ p t := by
  choose f hf1 hf2 using fun y : {y : ι → ℂ // unst q y = 0} => next_exists y.1 y.2
  let p : ℕ → {y : ι → ℂ // unst q y = 0} := fun t => Nat.rec ⟨y, hy⟩ (fun _ y => ⟨f y, hf1 y⟩) t
  exact ⟨fun t => (p t).1, rfl, fun t => (p t).2, fun t => hf2 (p t)⟩

theorem unst_iff (hq : NonDeg q) (y : ι → ℂ) :
    unst q y = 0 ↔ ∃ p : ℕ → ι → ℂ, p 0 = y ∧ (∀ t, g0 *ᵥ p (t + 1) = g1 *ᵥ p t) ∧ Tendsto p atTop (𝓝 0) := by
  constructor
  · intro h
    obtain ⟨p, h1, h2, h3⟩ := path_exists y h
    exact ⟨p, h1, h3, stab_vanish p h3 h2⟩
  · rintro ⟨p, rfl, h3, h4⟩
    exact unst_zero hq p h3 h4 0

theorem unst_add (y y' : ι → ℂ) : unst q (y + y') = unst q y + unst q y' := by funext u; simp [unst, mulVec_add]
theorem unst_sub (y y' : ι → ℂ) : unst q (y - y') = unst q y - unst q y' := by funext u; simp [unst, mulVec_sub]

end Gen

end GE
