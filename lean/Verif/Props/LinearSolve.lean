import Verif.Model.LinearSolve
import Mathlib.Tactic.NoncommRing
import Mathlib.Tactic.Linarith
import Mathlib.Tactic.Positivity
import Mathlib.Tactic.FieldSimp
import Mathlib.Analysis.Calculus.Deriv.Add
import Mathlib.Analysis.Calculus.Deriv.Mul
/-! # C36, C61, C62: solving the linear model -/

open Matrix

namespace GE

/-- `T` solves the quadratic matrix equation of the linearised model -/
def SolvesQuadratic {n : ℕ} (A B C T : Mat n n) : Prop := A + B * T + C * T * T = 0

namespace Lin

theorem linSolve_iff {n : ℕ} {β : Type} (A : Mat n n) (B X : Matrix (Fin n) β ℝ) :
    linSolve A B = some X ↔ IsUnit A.det ∧ A * X = B := by
  unfold linSolve
  by_cases h : IsUnit A.det
  · simp only [h, if_true, Option.some.injEq, true_and]
    constructor
    · rintro rfl; exact Matrix.mul_nonsing_inv_cancel_left _ _ h
    · rintro rfl; exact Matrix.nonsing_inv_mul_cancel_left _ _ h
  · simp only [h, if_false, false_and, reduceCtorEq]

theorem linSolve_none {n : ℕ} {β : Type} (A : Mat n n) (B : Matrix (Fin n) β ℝ) : linSolve A B = none ↔ ¬ IsUnit A.det := by
  unfold linSolve
  by_cases h : IsUnit A.det <;> simp only [h, if_true, if_false, reduceCtorEq, not_true_eq_false, not_false_eq_true]

/-- cancelling an invertible matrix on the left -/
theorem cancel {n : ℕ} {β : Type} {A : Mat n n} (h : IsUnit A.det) {X Y : Matrix (Fin n) β ℝ} (hxy : A * X = A * Y) : X = Y := by
  rw [← Matrix.nonsing_inv_mul_cancel_left A X h, hxy, Matrix.nonsing_inv_mul_cancel_left A Y h]

end Lin

open Lin

/-! ## C36 -/

/-- C36: the direct solution of a backward-looking model is returned exactly when the current-period Jacobian is invertible, and then it is
the unique pair with `A + B T = 0` and `B R + D = 0` -/
theorem C36_backward {n k : ℕ} (A B C : Mat n n) (D : Mat n k) :
    ((solveBackwardDirect A B C D).isSome ↔ IsUnit B.det) ∧
    ∀ T R, solveBackwardDirect A B C D = some (T, R) ↔ IsUnit B.det ∧ A + B * T = 0 ∧ B * R + D = 0 := by
  have hdet : IsUnit (-B).det ↔ IsUnit B.det := by
    rw [Matrix.det_neg]
    exact ⟨fun h => isUnit_of_mul_isUnit_right h, fun h => ((isUnit_one.neg).pow _).mul h⟩
  have hiff : ∀ T R, solveBackwardDirect A B C D = some (T, R) ↔ IsUnit B.det ∧ A + B * T = 0 ∧ B * R + D = 0 := by
    intro T R
    unfold solveBackwardDirect solveBackwardPolicy solveBackwardShockMatrix
    have h1 : linSolve (-B) A = some T ↔ IsUnit B.det ∧ A + B * T = 0 := by
      rw [linSolve_iff, hdet]
      refine and_congr_right fun _ => ?_
      rw [Matrix.neg_mul]
      constructor
      · intro h; rw [← h]; simp
      · intro h; rw [eq_comm, ← sub_eq_zero, sub_neg_eq_add]; exact h
    have h2 : (linSolve B D).map (fun X => -X) = some R ↔ IsUnit B.det ∧ B * R + D = 0 := by
      rw [Option.map_eq_some_iff]
      constructor
      · rintro ⟨X, hX, rfl⟩
        obtain ⟨hu, hX⟩ := (linSolve_iff _ _ _).mp hX
        exact ⟨hu, by rw [Matrix.mul_neg, hX]; simp⟩
      · rintro ⟨hu, hX⟩
        exact ⟨-R, (linSolve_iff _ _ _).mpr ⟨hu, by rw [Matrix.mul_neg]; exact neg_eq_of_add_eq_zero_right hX⟩, by simp⟩
    constructor
    · intro h
      split at h
      · rename_i T' R' e1 e2
        simp only [Option.some.injEq, Prod.mk.injEq] at h
        obtain ⟨rfl, rfl⟩ := h
        exact ⟨(h1.mp e1).1, (h1.mp e1).2, (h2.mp e2).2⟩
      · cases h
    · rintro ⟨hu, ht, hr⟩
      rw [h1.mpr ⟨hu, ht⟩, h2.mpr ⟨hu, hr⟩]
  refine ⟨?_, hiff⟩
  rw [Option.isSome_iff_exists]
  constructor
  · rintro ⟨⟨T, R⟩, h⟩; exact ((hiff T R).mp h).1
  · intro hu
    refine ⟨(-(B⁻¹ * A), -(B⁻¹ * D)), (hiff _ _).mpr ⟨hu, ?_, ?_⟩⟩
    · rw [Matrix.mul_neg, Matrix.mul_nonsing_inv_cancel_left _ _ hu]; simp
    · rw [Matrix.mul_neg, Matrix.mul_nonsing_inv_cancel_left _ _ hu]; simp

/-- the path `x` follows the policy rule with shocks `e` -/
def FollowsRule {n k : ℕ} (T : Mat n n) (R : Mat n k) (x : ℕ → Fin n → ℝ) (e : ℕ → Fin k → ℝ) : Prop :=
  ∀ t, x (t + 1) = T *ᵥ x t + R *ᵥ e (t + 1)

/-- the expectation of next period's variables under the rule, for shocks taking the values `z i` with probabilities `w i` -/
def expectedNext {n k : ℕ} (T : Mat n n) (R : Mat n k) (x : Fin n → ℝ) {ι : Type} [Fintype ι] (w : ι → ℝ) (z : ι → Fin k → ℝ) : Fin n → ℝ :=
  ∑ i, w i • (T *ᵥ x + R *ᵥ z i)

namespace Lin

theorem expectedNext_eq {n k : ℕ} (T : Mat n n) (R : Mat n k) (x : Fin n → ℝ) {ι : Type} [Fintype ι] (w : ι → ℝ) (z : ι → Fin k → ℝ)
    (h1 : ∑ i, w i = 1) (h0 : ∑ i, w i • z i = 0) : expectedNext T R x w z = T *ᵥ x := by
  unfold expectedNext
  simp only [smul_add, Finset.sum_add_distrib]
  rw [← Finset.sum_smul, h1, one_smul]
  have : ∑ i, w i • R *ᵥ z i = R *ᵥ ∑ i, w i • z i := by
    rw [Matrix.mulVec_sum]
    exact Finset.sum_congr rfl fun i _ => (Matrix.mulVec_smul R (w i) (z i)).symm
  rw [this, h0, Matrix.mulVec_zero, add_zero]

theorem selection_iff {n k : ℕ} (B C : Mat n n) (D : Mat n k) (T : Mat n n) (R : Mat n k) :
    selectionMatrix B C D T = some R ↔ IsUnit (C * T + B).det ∧ (C * T + B) * R + D = 0 := by
  unfold selectionMatrix
  rw [Option.map_eq_some_iff]
  constructor
  · rintro ⟨X, hX, rfl⟩
    obtain ⟨hu, hX⟩ := (linSolve_iff _ _ _).mp hX
    exact ⟨hu, by rw [Matrix.mul_neg, hX]; simp⟩
  · rintro ⟨hu, hX⟩
    exact ⟨-R, (linSolve_iff _ _ _).mpr ⟨hu, by rw [Matrix.mul_neg]; exact neg_eq_of_add_eq_zero_right hX⟩, by simp⟩

end Lin

/-- C36: with a transition matrix solving the quadratic equation and the impact matrix the code computes from it, every path that follows the
rule satisfies the linearised model at every date, whatever the shocks, expectations being taken over any mean-zero distribution of the next
shock -/
theorem C36_path_solves {n k : ℕ} (A B C : Mat n n) (D : Mat n k) (T : Mat n n) (R : Mat n k) (hT : SolvesQuadratic A B C T)
    (hR : selectionMatrix B C D T = some R) (x : ℕ → Fin n → ℝ) (e : ℕ → Fin k → ℝ) (hx : FollowsRule T R x e)
    {ι : Type} [Fintype ι] (w : ι → ℝ) (z : ι → Fin k → ℝ) (h1 : ∑ i, w i = 1) (h0 : ∑ i, w i • z i = 0) (t : ℕ) :
    A *ᵥ x t + B *ᵥ x (t + 1) + C *ᵥ expectedNext T R (x (t + 1)) w z + D *ᵥ e (t + 1) = 0 := by
  obtain ⟨-, hR⟩ := (selection_iff _ _ _ _ _).mp hR
  rw [expectedNext_eq T R _ w z h1 h0, hx t]
  have key : A *ᵥ x t + B *ᵥ (T *ᵥ x t + R *ᵥ e (t + 1)) + C *ᵥ (T *ᵥ (T *ᵥ x t + R *ᵥ e (t + 1))) + D *ᵥ e (t + 1) =
      (A + B * T + C * T * T) *ᵥ x t + ((C * T + B) * R + D) *ᵥ e (t + 1) := by
    simp only [Matrix.mulVec_add, Matrix.add_mulVec, ← Matrix.mulVec_mulVec, Matrix.add_mul]
    abel
  have hT' : A + B * T + C * T * T = 0 := hT
  rw [key, hT', hR, Matrix.zero_mulVec, Matrix.zero_mulVec, add_zero]

/-- C36, converse: a rule that makes the linearised model hold from every starting point and shock satisfies both matrix equations; so the
impact matrix is the one the code computes, whenever it can compute it -/
theorem C36_necessary {n k : ℕ} (A B C : Mat n n) (D : Mat n k) (T : Mat n n) (R : Mat n k)
    (h : ∀ (x : Fin n → ℝ) (e : Fin k → ℝ), A *ᵥ x + B *ᵥ (T *ᵥ x + R *ᵥ e) + C *ᵥ (T *ᵥ (T *ᵥ x + R *ᵥ e)) + D *ᵥ e = 0) :
    SolvesQuadratic A B C T ∧ (IsUnit (C * T + B).det → selectionMatrix B C D T = some R) := by
  have key : ∀ (x : Fin n → ℝ) (e : Fin k → ℝ), A *ᵥ x + B *ᵥ (T *ᵥ x + R *ᵥ e) + C *ᵥ (T *ᵥ (T *ᵥ x + R *ᵥ e)) + D *ᵥ e =
      (A + B * T + C * T * T) *ᵥ x + ((C * T + B) * R + D) *ᵥ e := by
    intro x e
    simp only [Matrix.mulVec_add, Matrix.add_mulVec, ← Matrix.mulVec_mulVec, Matrix.add_mul]
    abel
  have hz : ∀ (x : Fin n → ℝ) (e : Fin k → ℝ), (A + B * T + C * T * T) *ᵥ x + ((C * T + B) * R + D) *ᵥ e = 0 := fun x e => by
    rw [← key]; exact h x e
  have ext0 : ∀ {m : ℕ} (M : Mat n m), (∀ v, M *ᵥ v = 0) → M = 0 := by
    intro m M hM
    ext i j
    have := congrFun (hM (Pi.single j 1)) i
    simpa [Matrix.mulVec_single_one] using this
  refine ⟨ext0 _ fun v => ?_, fun hu => (selection_iff _ _ _ _ _).mpr ⟨hu, ext0 _ fun v => ?_⟩⟩
  · simpa using hz v 0
  · simpa using hz 0 v

/-- C36: for a backward-looking model the direct solution and the general formula agree -/
theorem C36_backward_is_general {n k : ℕ} (A B : Mat n n) (D : Mat n k) (T : Mat n n) (R : Mat n k)
    (h : solveBackwardDirect A B 0 D = some (T, R)) : SolvesQuadratic A B 0 T ∧ selectionMatrix B 0 D T = some R := by
  obtain ⟨hu, h1, h2⟩ := ((C36_backward A B 0 D).2 T R).mp h
  refine ⟨?_, (selection_iff _ _ _ _ _).mpr ?_⟩
  · unfold SolvesQuadratic; simpa using h1
  · rw [Matrix.zero_mul, zero_add]; exact ⟨hu, h2⟩

/-! ## C61: cyclic reduction -/

/-- the matrices after `k` passes of the reduction -/
noncomputable def afterPasses {n : ℕ} : ℕ → CRState n → Option (CRState n)
  | 0, s => some s
  | k + 1, s => (afterPasses k s).bind crStep

namespace Lin

theorem crStep_iff {n : ℕ} (s s' : CRState n) : crStep s = some s' ↔ IsUnit s.A1.det ∧
    s'.A0 = -(s.A0 * (s.A1⁻¹ * s.A0)) ∧ s'.A1 = s.A1 - s.A0 * (s.A1⁻¹ * s.A2) - s.A2 * (s.A1⁻¹ * s.A0) ∧
    s'.A2 = -(s.A2 * (s.A1⁻¹ * s.A2)) ∧ s'.A1hat = s.A1hat - s.A2 * (s.A1⁻¹ * s.A0) := by
  unfold crStep linSolve
  by_cases h : IsUnit s.A1.det
  · rw [if_pos h, Matrix.mul_fromCols]
    dsimp only
    rw [Matrix.fromRows_mul_fromCols]
    simp only [h, true_and, Option.some.injEq, Matrix.toBlocks_fromBlocks₁₁,
      Matrix.toBlocks_fromBlocks₁₂, Matrix.toBlocks_fromBlocks₂₁, Matrix.toBlocks_fromBlocks₂₂]
    obtain ⟨a, b, c, d⟩ := s'
    simp only [CRState.mk.injEq]
    constructor
    · rintro ⟨rfl, rfl, rfl, rfl⟩; exact ⟨rfl, rfl, rfl, rfl⟩
    · rintro ⟨rfl, rfl, rfl, rfl⟩; exact ⟨rfl, rfl, rfl, rfl⟩
  · simp only [h, if_false, false_and, reduceCtorEq]

/-- `k` passes lead from `s` to `s'` -/
inductive Passes {n : ℕ} (s : CRState n) : ℕ → CRState n → Prop
  | zero : Passes s 0 s
  | succ {k u v} : Passes s k u → crStep u = some v → Passes s (k + 1) v

theorem Passes.after {n : ℕ} {s v : CRState n} {k : ℕ} (h : Passes s k v) : afterPasses k s = some v := by
  induction h with
  | zero => rfl
  | succ _ hs ih => rw [afterPasses, ih]; exact hs

theorem Passes.head {n : ℕ} {s u v : CRState n} {k : ℕ} (h1 : crStep s = some u) (h2 : Passes u k v) : Passes s (k + 1) v := by
  induction h2 with
  | zero => exact .succ .zero h1
  | succ _ hs ih => exact .succ ih hs

theorem Passes.split {n : ℕ} {s v : CRState n} {k : ℕ} (h : Passes s (k + 1) v) : ∃ u, crStep s = some u ∧ Passes u k v := by
  induction k generalizing v with
  | zero =>
    cases h with
    | succ h hs =>
      cases h
      exact ⟨v, hs, .zero⟩
  | succ k ih =>
    cases h with
    | succ h hs =>
      obtain ⟨w, h1, h2⟩ := ih h
      exact ⟨w, h1, .succ h2 hs⟩

/-- the block tridiagonal system whose even unknowns the passes keep -/
def Sys {n m : ℕ} (s : CRState n) (x : ℕ → Mat n m) : Prop := ∀ j, s.A0 * x j + s.A1 * x (j + 1) + s.A2 * x (j + 2) = 0

theorem solve_mid {n m : ℕ} {s : CRState n} (hu : IsUnit s.A1.det) {a b c : Mat n m} (h : s.A0 * a + s.A1 * b + s.A2 * c = 0) :
    b = -(s.A1⁻¹ * (s.A0 * a + s.A2 * c)) := by
  have h2 : s.A1 * b = -(s.A0 * a + s.A2 * c) := by
    rw [eq_neg_iff_add_eq_zero, ← h]; abel
  rw [← Matrix.mul_neg, ← h2, Matrix.nonsing_inv_mul_cancel_left _ _ hu]

theorem step_sys {n m : ℕ} {s s' : CRState n} (h : crStep s = some s') {x : ℕ → Mat n m} (hx : Sys s x) : Sys s' (fun j => x (2 * j)) := by
  obtain ⟨hu, h0, h1, h2, -⟩ := (crStep_iff s s').mp h
  intro j
  have e1 := solve_mid hu (hx (2 * j))
  have e3 := solve_mid hu (hx (2 * j + 2))
  have e2 := hx (2 * j + 1)
  rw [show 2 * j + 1 + 2 = 2 * j + 2 + 1 by ring, e3, show 2 * j + 1 + 1 = 2 * j + 2 by ring, e1] at e2
  beta_reduce
  rw [show 2 * (j + 1) = 2 * j + 2 by ring, show 2 * (j + 2) = 2 * j + 2 + 2 by ring, h0, h1, h2, ← e2]
  simp only [Matrix.mul_add, Matrix.sub_mul, Matrix.neg_mul, Matrix.mul_neg, ← Matrix.mul_assoc]
  abel

theorem passes_sys {n m : ℕ} {s s' : CRState n} {k : ℕ} (h : Passes s k s') {x : ℕ → Mat n m} (hx : Sys s x) :
    Sys s' (fun j => x (2 ^ k * j)) := by
  induction h with
  | zero => simpa using hx
  | succ _ hs ih =>
    have := step_sys hs ih
    intro j
    have := this j
    simpa [pow_succ, mul_assoc] using this

theorem sys_shift {n m : ℕ} {s : CRState n} {x : ℕ → Mat n m} (hx : Sys s x) : Sys s (fun j => x (j + 1)) := fun j => by
  have := hx (j + 1)
  simpa [add_assoc, add_comm, add_left_comm] using this

/-- the equation kept for the first unknown -/
theorem hat_eq {n m : ℕ} {A B C : Mat n n} {s : CRState n} {k : ℕ} (h : Passes ⟨A, B, C, B⟩ k s) {x : ℕ → Mat n m} (hx : Sys ⟨A, B, C, B⟩ x) :
    A * x 0 + s.A1hat * x 1 + s.A2 * x (2 ^ k + 1) = 0 := by
  have hz : Sys ⟨A, B, C, B⟩ (fun j => x (j + 1)) := sys_shift hx
  induction h with
  | zero => simpa using hx 0
  | @succ k u v hp hs ih =>
    obtain ⟨hu, -, -, h2, h3⟩ := (crStep_iff u v).mp hs
    have hm := passes_sys hp hz 0
    simp only [mul_zero, zero_add, mul_one] at hm
    have e := solve_mid hu hm
    rw [show 2 ^ k * 2 + 1 = 2 ^ (k + 1) + 1 by rw [pow_succ]] at e
    rw [e] at ih
    rw [h2, h3, ← ih]
    simp only [Matrix.mul_add, Matrix.sub_mul, Matrix.neg_mul, Matrix.mul_neg, ← Matrix.mul_assoc]
    abel

/-- any solution of the system for the reduced state extends to one for the state before -/
theorem step_extend {n m : ℕ} {s s' : CRState n} (h : crStep s = some s') {y : ℕ → Mat n m} (hy : Sys s' y) :
    ∃ x : ℕ → Mat n m, (∀ j, x (2 * j) = y j) ∧ Sys s x := by
  obtain ⟨hu, h0, h1, h2, -⟩ := (crStep_iff s s').mp h
  let x : ℕ → Mat n m := fun i => if i % 2 = 0 then y (i / 2) else -(s.A1⁻¹ * (s.A0 * y (i / 2) + s.A2 * y (i / 2 + 1)))
  have xe : ∀ j, x (2 * j) = y j := fun j => by simp [x]
  have xo : ∀ j, x (2 * j + 1) = -(s.A1⁻¹ * (s.A0 * y j + s.A2 * y (j + 1))) := fun j => by
    have h1 : (2 * j + 1) % 2 = 1 := by omega
    have h2 : (2 * j + 1) / 2 = j := by omega
    simp only [x, h1, h2]; simp
  refine ⟨x, xe, fun i => ?_⟩
  rcases Nat.even_or_odd' i with ⟨j, rfl | rfl⟩
  · rw [show 2 * j + 2 = 2 * (j + 1) by ring, xo, xe, xe, Matrix.mul_neg, Matrix.mul_nonsing_inv_cancel_left _ _ hu]
    abel
  · rw [show 2 * j + 1 + 2 = 2 * (j + 1) + 1 by ring, show 2 * j + 1 + 1 = 2 * (j + 1) by ring, xo, xo, xe]
    have := hy j
    rw [h0, h1, h2] at this
    rw [← this]
    simp only [Matrix.mul_add, Matrix.sub_mul, Matrix.neg_mul, Matrix.mul_neg, ← Matrix.mul_assoc]
    abel

theorem step_unique {n m : ℕ} {s s' : CRState n} (h : crStep s = some s') {x z : ℕ → Mat n m} (hx : Sys s x) (hz : Sys s z)
    (he : ∀ j, x (2 * j) = z (2 * j)) : x = z := by
  obtain ⟨hu, -⟩ := (crStep_iff s s').mp h
  funext i
  rcases Nat.even_or_odd' i with ⟨j, rfl | rfl⟩
  · exact he j
  · rw [solve_mid hu (hx (2 * j)), solve_mid hu (hz (2 * j)), show 2 * j + 2 = 2 * (j + 1) by ring, he, he]

/-- when the passes end with `A2 = 0` and an invertible `A1`, the first unknown determines all -/
theorem sys_solvable {n : ℕ} {s s' : CRState n} {k : ℕ} (h : Passes s k s') (h2 : s'.A2 = 0) (h1 : IsUnit s'.A1.det) (m : ℕ) (Z : Mat n m) :
    (∃ x : ℕ → Mat n m, x 0 = Z ∧ Sys s x) ∧ ∀ x z : ℕ → Mat n m, x 0 = z 0 → Sys s x → Sys s z → x = z := by
  induction k generalizing s with
  | zero =>
    obtain rfl : s' = s := by cases h; rfl
    constructor
    · refine ⟨fun j => (-(s'.A1⁻¹ * s'.A0)) ^ j * Z, by simp, fun j => ?_⟩
      simp only [h2, Matrix.zero_mul, add_zero]
      rw [pow_succ', Matrix.mul_assoc, Matrix.neg_mul, Matrix.mul_neg, Matrix.mul_assoc, Matrix.mul_nonsing_inv_cancel_left _ _ h1]
      abel
    · intro x z h0 hx hz
      funext j
      induction j with
      | zero => exact h0
      | succ j ih =>
        have e1 := solve_mid h1 (hx j)
        have e2 := solve_mid h1 (hz j)
        simp only [h2, Matrix.zero_mul, add_zero] at e1 e2
        rw [e1, e2, ih]
  | succ k ih =>
    obtain ⟨u, hs, hp⟩ := h.split
    obtain ⟨⟨y, y0, hy⟩, huniq⟩ := ih hp
    constructor
    · obtain ⟨x, xe, hx⟩ := step_extend hs hy
      exact ⟨x, by rw [← y0, ← xe 0], hx⟩
    · intro x z h0 hx hz
      have := huniq (fun j => x (2 * j)) (fun j => z (2 * j)) (by simpa using h0) (step_sys hs hx) (step_sys hs hz)
      exact step_unique hs hx hz fun j => congrFun this j

theorem sys_of_solution {n : ℕ} {A B C X : Mat n n} (h : SolvesQuadratic A B C X) : Sys ⟨A, B, C, B⟩ (fun j => X ^ j) := fun j => by
  have : A * X ^ j + B * X ^ (j + 1) + C * X ^ (j + 2) = (A + B * X + C * X * X) * X ^ j := by
    rw [pow_succ' X j, pow_succ' X (j + 1), pow_succ' X j]
    simp only [Matrix.add_mul, Matrix.mul_assoc]
  have h' : A + B * X + C * X * X = 0 := h
  simp only [this, h', Matrix.zero_mul]

/-- how the loop ends normally -/
theorem loop_done {n : ℕ} {tol : ℝ} {m : ℕ} {s r : CRState n} (h : crLoop tol m s = some (.done r)) :
    ∃ k, k ≤ m ∧ Passes s k r ∧ ((0 < k ∧ norm1 r.A0 < tol ∧ norm1 r.A2 < tol) ∨ (k = m ∧ (0 < k → norm1 r.A0 < tol))) := by
  induction m generalizing s with
  | zero =>
    simp only [crLoop, Option.some.injEq, CRExit.done.injEq] at h
    subst h
    exact ⟨0, le_refl _, .zero, Or.inr ⟨rfl, fun h => absurd h (lt_irrefl _)⟩⟩
  | succ m ih =>
    unfold crLoop at h
    split at h
    · cases h
    · rename_i s' hs
      split at h
      · rename_i h0
        split at h
        · rename_i h2
          simp only [Option.some.injEq, CRExit.done.injEq] at h
          subst h
          exact ⟨1, by omega, .succ .zero hs, Or.inl ⟨one_pos, h0, h2⟩⟩
        · obtain ⟨k, hk, hp, hc⟩ := ih h
          refine ⟨k + 1, by omega, hp.head hs, ?_⟩
          rcases hc with ⟨-, a, b⟩ | ⟨hkm, a⟩
          · exact Or.inl ⟨by omega, a, b⟩
          · refine Or.inr ⟨by omega, fun _ => ?_⟩
            by_cases hk0 : 0 < k
            · exact a hk0
            · have : k = 0 := by omega
              subst this
              cases hp
              exact h0
      · split at h
        · cases h
        · rename_i hm
          obtain ⟨k, hk, hp, hc⟩ := ih h
          refine ⟨k + 1, by omega, hp.head hs, ?_⟩
          rcases hc with ⟨-, a, b⟩ | ⟨hkm, a⟩
          · exact Or.inl ⟨by omega, a, b⟩
          · exact Or.inr ⟨by omega, fun _ => a (by omega)⟩

theorem cr_some {n : ℕ} {A B C : Mat n n} {m : ℕ} {tol : ℝ} {r : CRResult n} (h : cycleReduction A B C m tol = some r) :
    (∃ l, crLoop tol m ⟨A, B, C, B⟩ = some (.early r.msg l) ∧ r.X = none ∧ r.res = none) ∨
    ∃ s X, crLoop tol m ⟨A, B, C, B⟩ = some (.done s) ∧ IsUnit s.A1hat.det ∧ s.A1hat * X + A = 0 ∧ r.X = some X ∧
      r.res = some (A + B * X + C * X * X) ∧ r.msg = .success := by
  unfold cycleReduction at h
  split at h
  · cases h
  · rename_i msg l hl
    simp only [Option.some.injEq] at h; subst h
    exact Or.inl ⟨l, hl, rfl, rfl⟩
  · rename_i s hl
    split at h
    · cases h
    · rename_i Y hY
      simp only [Option.some.injEq] at h; subst h
      obtain ⟨hu, hy⟩ := (linSolve_iff _ _ _).mp hY
      exact Or.inr ⟨s, -Y, hl, hu, by rw [Matrix.mul_neg, hy]; simp, rfl, rfl, rfl⟩

theorem early_failed {n : ℕ} {tol : ℝ} {m : ℕ} {s : CRState n} {msg l} (h : crLoop tol m s = some (.early msg l)) : msg = .failed := by
  induction m generalizing s with
  | zero => simp [crLoop] at h
  | succ m ih =>
    unfold crLoop at h
    split at h
    · cases h
    · split at h
      · split at h
        · cases h
        · exact ih h
      · split at h
        · simp only [Option.some.injEq, CRExit.early.injEq] at h
          exact h.1.symm
        · exact ih h

end Lin

/-- C61: the distance of the returned matrix `X` from any solution `T` of the quadratic equation. After `k` passes the error solves
`A1_hat (X − T) = A2 T^(2^k + 1)` with `A1_hat` invertible; the matrix `A2` is below the tolerance, or the passes were exhausted
(`C61_success_violated`). -/
theorem C61_distance {n : ℕ} (A B C : Mat n n) (maxIter : ℕ) (tol : ℝ) (r : CRResult n) (h : cycleReduction A B C maxIter tol = some r)
    (X : Mat n n) (hX : r.X = some X) (T : Mat n n) (hT : SolvesQuadratic A B C T) :
    ∃ k s, afterPasses k ⟨A, B, C, B⟩ = some s ∧ k ≤ maxIter ∧ IsUnit s.A1hat.det ∧ s.A1hat * (X - T) = s.A2 * T ^ (2 ^ k + 1) ∧
      ((0 < k ∧ norm1 s.A0 < tol ∧ norm1 s.A2 < tol) ∨ (k = maxIter ∧ (0 < k → norm1 s.A0 < tol))) := by
  rcases cr_some h with ⟨l, -, hn, -⟩ | ⟨s, Y, hl, hu, hy, hrX, -⟩
  · rw [hn] at hX; cases hX
  · rw [hrX, Option.some.injEq] at hX; subst hX
    obtain ⟨k, hk, hp, hc⟩ := loop_done hl
    refine ⟨k, s, hp.after, hk, hu, ?_, hc⟩
    · have := hat_eq hp (sys_of_solution hT)
      simp only [pow_zero, pow_one, Matrix.mul_one] at this
      rw [Matrix.mul_sub]
      have e1 : s.A1hat * Y = -A := eq_neg_of_add_eq_zero_left hy
      have e2 : s.A1hat * T = -A - s.A2 * T ^ (2 ^ k + 1) := by
        rw [eq_sub_iff_add_eq, eq_neg_iff_add_eq_zero, ← this]; abel
      rw [e1, e2]; abel

namespace Lin

theorem col_le {n m : ℕ} (M : Mat n m) (j : Fin m) : ∑ i, |M i j| ≤ norm1 M :=
  le_ciSup (f := fun j => ∑ i, |M i j|) (Set.finite_range _).bddAbove j

theorem norm1_nonneg {n m : ℕ} (M : Mat n m) : 0 ≤ norm1 M := Real.iSup_nonneg fun _ => Finset.sum_nonneg fun _ _ => abs_nonneg _

theorem norm1_le {n m : ℕ} {M : Mat n m} {b : ℝ} (h0 : 0 ≤ b) (h : ∀ j, ∑ i, |M i j| ≤ b) : norm1 M ≤ b := Real.iSup_le h h0

theorem norm1_mul {n m p : ℕ} (M : Mat n m) (N : Mat m p) : norm1 (M * N) ≤ norm1 M * norm1 N := by
  refine norm1_le (mul_nonneg (norm1_nonneg _) (norm1_nonneg _)) fun j => ?_
  calc ∑ i, |(M * N) i j| ≤ ∑ i, ∑ k, |M i k| * |N k j| := by
        refine Finset.sum_le_sum fun i _ => ?_
        rw [Matrix.mul_apply]
        refine (Finset.abs_sum_le_sum_abs _ _).trans (le_of_eq ?_)
        exact Finset.sum_congr rfl fun k _ => abs_mul _ _
    _ = ∑ k, (∑ i, |M i k|) * |N k j| := by
        rw [Finset.sum_comm]
        exact Finset.sum_congr rfl fun k _ => (Finset.sum_mul _ _ _).symm
    _ ≤ ∑ k, norm1 M * |N k j| := Finset.sum_le_sum fun k _ => mul_le_mul_of_nonneg_right (col_le M k) (abs_nonneg _)
    _ = norm1 M * ∑ k, |N k j| := (Finset.mul_sum _ _ _).symm
    _ ≤ norm1 M * norm1 N := mul_le_mul_of_nonneg_left (col_le N j) (norm1_nonneg _)

theorem norm1_pow {n : ℕ} (M : Mat n n) (k : ℕ) : norm1 (M ^ (k + 1)) ≤ norm1 M ^ (k + 1) := by
  induction k with
  | zero => simp
  | succ k ih =>
    rw [pow_succ, pow_succ (norm1 M)]
    exact (norm1_mul _ _).trans (mul_le_mul_of_nonneg_right ih (norm1_nonneg _))

end Lin

/-- C61: the error bound the user gets when the passes were not exhausted: the returned matrix is within
`‖A1_hat⁻¹‖ · tol · ‖T‖^(2^k + 1)` of every solution `T`, in the norm the code uses -/
theorem C61_error_bound {n : ℕ} (A B C : Mat n n) (maxIter : ℕ) (tol : ℝ) (r : CRResult n) (h : cycleReduction A B C maxIter tol = some r)
    (X : Mat n n) (hX : r.X = some X) (T : Mat n n) (hT : SolvesQuadratic A B C T) :
    ∃ k s, afterPasses k ⟨A, B, C, B⟩ = some s ∧ k ≤ maxIter ∧ IsUnit s.A1hat.det ∧
      (norm1 (X - T) ≤ norm1 s.A1hat⁻¹ * (tol * norm1 T ^ (2 ^ k + 1)) ∨ k = maxIter) := by
  obtain ⟨k, s, hs, hk, hu, he, hc⟩ := C61_distance A B C maxIter tol r h X hX T hT
  refine ⟨k, s, hs, hk, hu, hc.imp (fun hc => ?_) And.left⟩
  have hxt : X - T = s.A1hat⁻¹ * (s.A2 * T ^ (2 ^ k + 1)) := by rw [← he, Matrix.nonsing_inv_mul_cancel_left _ _ hu]
  rw [hxt]
  refine (norm1_mul _ _).trans (mul_le_mul_of_nonneg_left ((norm1_mul _ _).trans ?_) (norm1_nonneg _))
  exact mul_le_mul (le_of_lt hc.2.2) (norm1_pow T _) (norm1_nonneg _) (le_trans (norm1_nonneg _) (le_of_lt hc.2.2))

/-- C61: when the passes end with `A2` exactly zero (and `A1` invertible), the returned matrix solves the quadratic equation exactly, and it is
the only solution -/
theorem C61_exact {n : ℕ} (A B C : Mat n n) (maxIter : ℕ) (tol : ℝ) (s : CRState n) (hl : crLoop tol maxIter ⟨A, B, C, B⟩ = some (.done s))
    (h2 : s.A2 = 0) (h1 : IsUnit s.A1.det) (r : CRResult n) (h : cycleReduction A B C maxIter tol = some r) :
    ∃ X, r.X = some X ∧ ∀ T, SolvesQuadratic A B C T ↔ T = X := by
  rcases cr_some h with ⟨l, hl', -⟩ | ⟨s', X, hl', hu, hy, hrX, -⟩
  · rw [hl] at hl'; cases hl'
  · rw [hl, Option.some.injEq, CRExit.done.injEq] at hl'
    subst hl'
    obtain ⟨k, -, hp, -⟩ := loop_done hl
    refine ⟨X, hrX, fun T => ⟨fun hT => ?_, ?_⟩⟩
    · have := hat_eq hp (sys_of_solution hT)
      simp only [pow_zero, pow_one, Matrix.mul_one, h2, Matrix.zero_mul, add_zero] at this
      refine Lin.cancel hu ?_
      rw [eq_neg_of_add_eq_zero_left hy, eq_neg_of_add_eq_zero_right this]
    · rintro rfl
      obtain ⟨⟨x, x0, hx⟩, huniq⟩ := sys_solvable hp h2 h1 n (1 : Mat n n)
      have hat := hat_eq hp hx
      rw [x0, Matrix.mul_one, h2, Matrix.zero_mul, add_zero] at hat
      have x1 : x 1 = T := Lin.cancel hu (by rw [eq_neg_of_add_eq_zero_left hy, eq_neg_of_add_eq_zero_right hat])
      have hmul : Sys ⟨A, B, C, B⟩ (fun j => x j * T) := fun j => by
        have := congrArg (· * T) (hx j)
        simpa [Matrix.add_mul, Matrix.mul_assoc] using this
      have heq := huniq (fun j => x (j + 1)) (fun j => x j * T) (by simp [x0, x1]) (sys_shift hx) hmul
      have x2 : x 2 = T * T := by
        have := congrFun heq 1
        simpa [x1] using this
      have := hx 0
      simp only [zero_add] at this
      rw [x0, x1, x2, Matrix.mul_one, ← Matrix.mul_assoc] at this
      exact this

/-- C61: for a backward-looking model (`C = 0`), whatever matrix cyclic reduction returns is the exact solution `−B⁻¹A` -/
theorem C61_backward {n : ℕ} (A B : Mat n n) (maxIter : ℕ) (tol : ℝ) (r : CRResult n) (h : cycleReduction A B 0 maxIter tol = some r)
    (X : Mat n n) (hX : r.X = some X) : A + B * X = 0 := by
  rcases cr_some h with ⟨l, -, hn, -⟩ | ⟨s, Y, hl, hu, hy, hrX, -⟩
  · rw [hn] at hX; cases hX
  · rw [hrX, Option.some.injEq] at hX; subst hX
    obtain ⟨k, -, hp, -⟩ := loop_done hl
    have hinv : ∀ k s, Passes ⟨A, B, 0, B⟩ k s → s.A2 = 0 ∧ s.A1hat = B := by
      intro k s hp
      induction hp with
      | zero => exact ⟨rfl, rfl⟩
      | succ _ hs ih =>
        obtain ⟨-, -, -, h2, h3⟩ := (crStep_iff _ _).mp hs
        rw [h2, h3, ih.1, ih.2]
        simp
    rw [(hinv k s hp).2] at hy
    rw [add_comm]; exact hy

/-- C61: the residual reported is the residual of the equation at the returned matrix; both are present exactly when the message is "Optimization
successful"; otherwise the message is the one about all matrices -/
theorem C61_report {n : ℕ} (A B C : Mat n n) (maxIter : ℕ) (tol : ℝ) (r : CRResult n) (h : cycleReduction A B C maxIter tol = some r) :
    (r.msg = .success ↔ r.X.isSome) ∧ (∀ X, r.X = some X → r.res = some (A + B * X + C * X * X)) ∧ (r.msg ≠ .success → r.msg = .failed) := by
  rcases cr_some h with ⟨l, hl, hn, hr⟩ | ⟨s, Y, hl, hu, hy, hrX, hres, hm⟩
  · have := early_failed hl
    exact ⟨by simp [this, hn], fun X hX => by rw [hn] at hX; (cases hX), fun _ => this⟩
  · refine ⟨by simp [hm, hrX], fun X hX => ?_, fun hne => absurd hm hne⟩
    rw [hrX, Option.some.injEq] at hX
    rw [← hX]; exact hres

/-- C61, violated: the message "Iteration on matrix A0 and A1 converged towards a solution, but A2 did not." is never returned -/
theorem C61_a2_message_violated {n : ℕ} (A B C : Mat n n) (maxIter : ℕ) (tol : ℝ) (r : CRResult n)
    (h : cycleReduction A B C maxIter tol = some r) : r.msg ≠ .a2NotConverged := by
  intro hm
  have := (C61_report A B C maxIter tol r h).2.2 (by rw [hm]; decide)
  rw [hm] at this; cases this

namespace Lin

/-- the 1 × 1 matrix -/
def sc (a : ℝ) : Mat 1 1 := fun _ _ => a

theorem sc_mul (a b : ℝ) : sc a * sc b = sc (a * b) := by ext i j; simp [sc, Matrix.mul_apply]
theorem sc_add (a b : ℝ) : sc a + sc b = sc (a + b) := rfl
theorem sc_sub (a b : ℝ) : sc a - sc b = sc (a - b) := rfl
theorem sc_neg (a : ℝ) : -sc a = sc (-a) := rfl
theorem sc_det (a : ℝ) : (sc a).det = a := by simp [sc]
theorem sc_inj {a b : ℝ} : sc a = sc b ↔ a = b := ⟨fun h => congrFun (congrFun h 0) 0, fun h => h ▸ rfl⟩
theorem sc_zero : (0 : Mat 1 1) = sc 0 := rfl
theorem sc_inv {a : ℝ} (h : a ≠ 0) : (sc a)⁻¹ = sc a⁻¹ := by
  refine Matrix.inv_eq_right_inv ?_
  rw [sc_mul, mul_inv_cancel₀ h]
  ext i j; fin_cases i; fin_cases j; rfl
theorem sc_norm (a : ℝ) : norm1 (sc a) = |a| := by simp [norm1, sc]

theorem sc_step {a b c d : ℝ} (hb : b ≠ 0) : crStep ⟨sc a, sc b, sc c, sc d⟩ =
    some ⟨sc (-(a * (b⁻¹ * a))), sc (b - a * (b⁻¹ * c) - c * (b⁻¹ * a)), sc (-(c * (b⁻¹ * c))), sc (d - c * (b⁻¹ * a))⟩ := by
  rw [crStep_iff]
  simp only [sc_inv hb, sc_mul, sc_sub, sc_neg, sc_det, and_self, and_true]
  exact isUnit_iff_ne_zero.mpr hb

theorem sc_solve {a b : ℝ} (ha : a ≠ 0) : linSolve (sc a) (sc b) = some (sc (a⁻¹ * b)) := by
  rw [linSolve_iff, sc_det, sc_mul, mul_inv_cancel_left₀ ha]
  exact ⟨isUnit_iff_ne_zero.mpr ha, rfl⟩

end Lin

/-- C61, violated: "Optimization successful" is also returned when the allowed passes run out with `A2` far from zero, and the matrix returned
does not solve the equation; for every tolerance up to 1 -/
theorem C61_success_violated (tol : ℝ) (h0 : 0 < tol) (h1 : tol ≤ 1) :
    ∃ (A B C : Mat 1 1) (r : CRResult 1) (X : Mat 1 1) (s : CRState 1), cycleReduction A B C 1 tol = some r ∧ r.msg = .success ∧ r.X = some X ∧
      ¬ SolvesQuadratic A B C X ∧ crStep ⟨A, B, C, B⟩ = some s ∧ ¬ norm1 s.A2 < tol := by
  have hne : (1 - tol / 2 : ℝ) ≠ 0 := by linarith
  have hst := sc_step (a := tol / 2) (b := 1) (c := 1) (d := 1) one_ne_zero
  simp only [inv_one, one_mul, mul_one] at hst
  have hn0 : norm1 (sc (-(tol / 2 * (tol / 2)))) < tol := by
    rw [sc_norm, abs_neg, abs_of_pos (by positivity)]
    nlinarith
  have hn2 : ¬ norm1 (sc (-1)) < tol := by
    rw [sc_norm, abs_neg, abs_one]; linarith
  have hcr : cycleReduction (sc (tol / 2)) (sc 1) (sc 1) 1 tol = some ⟨some (-sc ((1 - tol / 2)⁻¹ * (tol / 2))),
      some (sc (tol / 2) + sc 1 * (-sc ((1 - tol / 2)⁻¹ * (tol / 2))) +
        sc 1 * (-sc ((1 - tol / 2)⁻¹ * (tol / 2))) * (-sc ((1 - tol / 2)⁻¹ * (tol / 2)))), .success, 0⟩ := by
    have hl : crLoop tol 1 ⟨sc (tol / 2), sc 1, sc 1, sc 1⟩ =
        some (.done ⟨sc (-(tol / 2 * (tol / 2))), sc (1 - tol / 2 - tol / 2), sc (-1), sc (1 - tol / 2)⟩) := by
      unfold crLoop
      rw [hst]
      dsimp only
      rw [if_pos hn0, if_neg hn2]
      rfl
    unfold cycleReduction
    rw [hl]
    dsimp only
    rw [sc_solve hne]
  refine ⟨_, _, _, _, _, _, hcr, rfl, rfl, ?_, hst, hn2⟩
  unfold SolvesQuadratic
  rw [sc_neg, sc_mul, sc_mul, sc_add, sc_add, sc_zero, sc_inj]
  intro hz
  have hz' : (tol / 2) * ((1 - tol / 2)⁻¹ * (tol / 2)) ^ 2 = 0 := by
    have hi : (1 - tol / 2)⁻¹ * (1 - tol / 2) = 1 := inv_mul_cancel₀ hne
    generalize (1 - tol / 2)⁻¹ = q at *
    have e : q = 1 + q * (tol / 2) := by linarith
    have e3 : tol / 2 = q * (tol / 2) - q * (tol / 2) * (tol / 2) := by
      have := congrArg (· * (tol / 2)) hi
      simp only [one_mul] at this
      nlinarith
    nlinarith
  have hq : (1 - tol / 2)⁻¹ ≠ 0 := inv_ne_zero hne
  have : tol / 2 ≠ 0 := by linarith
  have hp : ((1 - tol / 2)⁻¹ * (tol / 2)) ≠ 0 := mul_ne_zero hq this
  exact (mul_ne_zero this (pow_ne_zero 2 hp)) hz'

/-- C61: a failure of the iteration is never reported as one: `solve_policy_function_with_cycle_reduction` raises instead of returning, and so
does solving the model with `on_failure="ignore"` (whose documented result is `None`), exactly when the iteration gave no matrix -/
theorem C61_failure_violated {n k : ℕ} (A B C : Mat n n) (D : Mat n k) (maxIter : ℕ) (tol : ℝ) :
    (∀ r, cycleReduction A B C maxIter tol = some r → r.X = none → solveWithCR A B C D maxIter tol = .error .badOperand) ∧
    solveWithCR A B C D maxIter tol ≠ .ok none := by
  constructor
  · intro r h hX
    obtain ⟨X, res, msg, l⟩ := r
    simp only at hX; subst hX
    simp [solveWithCR, solvePolicyCR, h]
  · unfold solveWithCR
    split <;> simp

/-- C61: what is returned is the pair `T`, `R` with `R` the impact matrix of `T`, the message is always success, and paths of the rule solve
the model whenever `T` does -/
theorem C61_policy {n k : ℕ} (A B C : Mat n n) (D : Mat n k) (maxIter : ℕ) (tol : ℝ) (p : CRPolicy n k)
    (h : solvePolicyCR A B C D maxIter tol = .ok p) :
    (∃ r, cycleReduction A B C maxIter tol = some r ∧ r.X = some p.T) ∧ (C * p.T + B) * p.R + D = 0 ∧ p.msg = .success := by
  unfold solvePolicyCR at h
  split at h
  · cases h
  · cases h
  · rename_i T res msg l hr
    split at h
    · cases h
    · rename_i R hR
      simp only [Except.ok.injEq] at h; subst h
      refine ⟨⟨_, hr, rfl⟩, ((selection_iff _ _ _ _ _).mp hR).2, ?_⟩
      exact ((C61_report A B C maxIter tol _ hr).1).mpr rfl

/-- C61: when the compiled kernel reports convergence, the Python version returns the same matrix with "Optimization successful" -/
theorem C61_kernel_agrees {n : ℕ} (A B C : Mat n n) (maxIter : ℕ) (tol : ℝ) (T : Mat n n)
    (h : cycleReductionCore A B C maxIter tol = some (T, true)) :
    ∃ r, cycleReduction A B C maxIter tol = some r ∧ r.X = some T ∧ r.msg = .success := by
  have hloop : ∀ m (s0 s : CRState n), crCoreLoop tol m s0 = some (s, true) → crLoop tol m s0 = some (.done s) := by
    intro m
    induction m with
    | zero => intro s0 s h; simp [crCoreLoop] at h
    | succ m ih =>
      intro s0 s h
      unfold crCoreLoop at h
      unfold crLoop
      split at h
      · cases h
      · rename_i s' hs
        split at h
        · rename_i h0
          rw [if_pos h0]
          split at h
          · rename_i h2
            rw [if_pos h2]
            simp only [Option.some.injEq, Prod.mk.injEq, and_true] at h
            rw [h]
          · rename_i h2
            rw [if_neg h2]
            exact ih _ _ h
        · rename_i h0
          rw [if_neg h0]
          have hm : m ≠ 0 := by
            rintro rfl
            simp [crCoreLoop] at h
          rw [if_neg hm]
          exact ih _ _ h
  unfold cycleReductionCore at h
  split at h
  · cases h
  · simp at h
  · rename_i s hs
    rw [Option.map_eq_some_iff] at h
    obtain ⟨Y, hY, hT⟩ := h
    simp only [Prod.mk.injEq, and_true] at hT
    unfold cycleReduction
    rw [hloop _ _ _ hs]
    dsimp only
    rw [hY]
    exact ⟨_, rfl, by rw [hT], rfl⟩

/-- C61: the distance formula for the scan version without the jitter: it looks at `A0` only, so nothing is said about the size of `A2` -/
theorem C61_scan_distance_partial {n : ℕ} (A B C : Mat n n) (maxIter : ℕ) (tol : ℝ) (X : Mat n n) (k : ℕ)
    (h : scanCycleReduction 0 A B C maxIter tol = some (X, k)) (T : Mat n n) (hT : SolvesQuadratic A B C T) :
    ∃ s, afterPasses k ⟨A, B, C, B⟩ = some s ∧ IsUnit s.A1hat.det ∧ s.A1hat * (X - T) = s.A2 * T ^ (2 ^ k + 1) ∧ k ≤ maxIter := by
  have hloop : ∀ m (s0 : CRState n) nrm k0 s nrm' k', scanLoop 0 tol m s0 nrm k0 = some (s, nrm', k') →
      k0 ≤ k' ∧ k' ≤ k0 + m ∧ Passes s0 (k' - k0) s := by
    intro m
    induction m with
    | zero =>
      intro s0 nrm k0 s nrm' k' h
      simp only [scanLoop, Option.some.injEq, Prod.mk.injEq] at h
      obtain ⟨rfl, rfl, rfl⟩ := h
      exact ⟨le_refl _, le_refl _, by rw [Nat.sub_self]; exact .zero⟩
    | succ m ih =>
      intro s0 nrm k0 s nrm' k' h
      unfold scanLoop at h
      split at h
      · obtain ⟨a, b, c⟩ := ih _ _ _ _ _ _ h
        exact ⟨a, by omega, c⟩
      · split at h
        · cases h
        · rename_i s' hs
          obtain ⟨a, b, c⟩ := ih _ _ _ _ _ _ h
          have hs' : crStep s0 = some s' := by
            have : ({ s0 with A1 := stabilize s0.A1 0 } : CRState n) = s0 := by
              obtain ⟨a, b, c, d⟩ := s0
              simp [stabilize]
            rwa [this] at hs
          have hss : ({ s' with A1 := s'.A1 - (0 : ℝ) • (1 : Mat n n) } : CRState n) = s' := by
            obtain ⟨a, b, c, d⟩ := s'
            simp
          rw [hss] at c
          refine ⟨by omega, by omega, ?_⟩
          have : k' - k0 = (k' - (k0 + 1)) + 1 := by omega
          rw [this]
          exact c.head hs'
  unfold scanCycleReduction at h
  split at h
  · cases h
  · rename_i s nrm k' hs
    rw [Option.map_eq_some_iff] at h
    obtain ⟨Y, hY, hX⟩ := h
    simp only [Prod.mk.injEq] at hX
    obtain ⟨rfl, rfl⟩ := hX
    obtain ⟨-, hk, hp⟩ := hloop _ _ _ _ _ _ _ hs
    rw [Nat.sub_zero] at hp
    have hst : stabilize s.A1hat 0 = s.A1hat := by simp [stabilize]
    rw [hst] at hY
    obtain ⟨hu, hy⟩ := (linSolve_iff _ _ _).mp hY
    refine ⟨s, hp.after, hu, ?_, by omega⟩
    have := hat_eq hp (sys_of_solution hT)
    simp only [pow_zero, pow_one, Matrix.mul_one] at this
    rw [Matrix.mul_sub, Matrix.mul_neg, hy]
    have e2 : s.A1hat * T = -A - s.A2 * T ^ (2 ^ k' + 1) := by
      rw [eq_sub_iff_add_eq, eq_neg_iff_add_eq_zero, ← this]; abel
    rw [e2]; abel

namespace Lin

/-- one pass of the scan version: the reduction with the jitter added to the matrix inverted -/
def JPass {n : ℕ} (j : ℝ) (s s' : CRState n) : Prop :=
  IsUnit (s.A1 + j • (1 : Mat n n)).det ∧
    s'.A0 = -(s.A0 * ((s.A1 + j • 1)⁻¹ * s.A0)) ∧ s'.A1 = s.A1 - s.A0 * ((s.A1 + j • 1)⁻¹ * s.A2) - s.A2 * ((s.A1 + j • 1)⁻¹ * s.A0) ∧
    s'.A2 = -(s.A2 * ((s.A1 + j • 1)⁻¹ * s.A2)) ∧ s'.A1hat = s.A1hat - s.A2 * ((s.A1 + j • 1)⁻¹ * s.A0)

theorem scan_passes {n : ℕ} (j tol : ℝ) : ∀ m (s0 : CRState n) nrm k0 s nrm' k', scanLoop j tol m s0 nrm k0 = some (s, nrm', k') →
    k0 ≤ k' ∧ k' ≤ k0 + m ∧ ∃ f : ℕ → CRState n, f 0 = s0 ∧ f (k' - k0) = s ∧ ∀ i < k' - k0, JPass j (f i) (f (i + 1)) := by
  intro m
  induction m with
  | zero =>
    intro s0 nrm k0 s nrm' k' h
    simp only [scanLoop, Option.some.injEq, Prod.mk.injEq] at h
    obtain ⟨rfl, rfl, rfl⟩ := h
    exact ⟨le_refl _, le_refl _, fun _ => s0, rfl, rfl, fun i hi => by omega⟩
  | succ m ih =>
    intro s0 nrm k0 s nrm' k' h
    unfold scanLoop at h
    split at h
    · obtain ⟨a, b, c⟩ := ih _ _ _ _ _ _ h
      exact ⟨a, by omega, c⟩
    · split at h
      · cases h
      · rename_i s' hs
        obtain ⟨a, b, f, f0, fk, hf⟩ := ih _ _ _ _ _ _ h
        obtain ⟨hu, h0, h1, h2, h3⟩ := (crStep_iff _ _).mp hs
        have hpass : JPass j s0 { s' with A1 := s'.A1 - j • (1 : Mat n n) } := by
          refine ⟨hu, h0, ?_, h2, h3⟩
          rw [h1]
          simp only [stabilize]
          abel
        refine ⟨by omega, by omega, fun i => match i with | 0 => s0 | i + 1 => f i, rfl, ?_, ?_⟩
        · have : k' - k0 = (k' - (k0 + 1)) + 1 := by omega
          rw [this]
          exact fk
        · intro i hi
          cases i with
          | zero => show JPass j s0 (f 0); rw [f0]; exact hpass
          | succ i => exact hf i (by omega)

/-- the defect of the reduced equation after one pass -/
theorem jpass_defect {n : ℕ} {j : ℝ} {s s' : CRState n} (h : JPass j s s') (A X T E H : Mat n n)
    (hE : s.A0 + s.A1 * X + s.A2 * (X * X) = E) (hH : A + s.A1hat * T + s.A2 * (X * T) = H) :
    s'.A0 + s'.A1 * (X * X) + s'.A2 * (X * X * (X * X)) =
      E * X - (s.A0 * ((s.A1 + j • 1)⁻¹ * (E + j • X)) + s.A2 * ((s.A1 + j • 1)⁻¹ * ((E + j • X) * (X * X)))) ∧
    A + s'.A1hat * T + s'.A2 * (X * X * T) = H - s.A2 * ((s.A1 + j • 1)⁻¹ * ((E + j • X) * T)) := by
  obtain ⟨hu, h0, h1, h2, h3⟩ := h
  have hS : (s.A1 + j • (1 : Mat n n)) * X = s.A1 * X + j • X := by simp [Matrix.add_mul]
  have hmid : s.A0 + s.A2 * (X * X) = (E + j • X) - (s.A1 + j • (1 : Mat n n)) * X := by rw [hS, ← hE]; abel
  have hinv : ∀ Z : Mat n n, (s.A1 + j • (1 : Mat n n))⁻¹ * ((s.A1 + j • (1 : Mat n n)) * Z) = Z := fun Z =>
    Matrix.nonsing_inv_mul_cancel_left _ _ hu
  generalize hSd : (s.A1 + j • (1 : Mat n n)) = S at *
  constructor
  · have e1 : s.A0 * (S⁻¹ * (s.A0 + s.A2 * (X * X))) = s.A0 * (S⁻¹ * (E + j • X)) - s.A0 * X := by
      rw [hmid, Matrix.mul_sub, Matrix.mul_sub, hinv]
    have e2 : s.A2 * (S⁻¹ * ((s.A0 + s.A2 * (X * X)) * (X * X))) = s.A2 * (S⁻¹ * ((E + j • X) * (X * X))) - s.A2 * (X * (X * X)) := by
      rw [hmid, Matrix.sub_mul, Matrix.mul_sub, Matrix.mul_sub, Matrix.mul_assoc S X (X * X), hinv]
    have e3 : E * X = s.A0 * X + s.A1 * (X * X) + s.A2 * (X * (X * X)) := by
      rw [← hE]; simp only [Matrix.add_mul, Matrix.mul_assoc]
    have e4 : s'.A0 + s'.A1 * (X * X) + s'.A2 * (X * X * (X * X)) =
        s.A1 * (X * X) - s.A0 * (S⁻¹ * (s.A0 + s.A2 * (X * X))) - s.A2 * (S⁻¹ * ((s.A0 + s.A2 * (X * X)) * (X * X))) := by
      rw [h0, h1, h2]
      simp only [Matrix.mul_add, Matrix.add_mul, Matrix.sub_mul, Matrix.neg_mul, Matrix.mul_assoc]
      abel
    rw [e4, e1, e2, e3]
    abel
  · have e1 : s.A2 * (S⁻¹ * ((s.A0 + s.A2 * (X * X)) * T)) = s.A2 * (S⁻¹ * ((E + j • X) * T)) - s.A2 * (X * T) := by
      rw [hmid, Matrix.sub_mul, Matrix.mul_sub, Matrix.mul_sub, Matrix.mul_assoc S X T, hinv]
    have e4 : A + s'.A1hat * T + s'.A2 * (X * X * T) = A + s.A1hat * T - s.A2 * (S⁻¹ * ((s.A0 + s.A2 * (X * X)) * T)) := by
      rw [h2, h3]
      simp only [Matrix.mul_add, Matrix.add_mul, Matrix.sub_mul, Matrix.neg_mul, Matrix.mul_assoc]
      abel
    rw [e4, e1, ← hH]
    abel

end Lin

/-- C61: the distance formula for the scan version as it is, with the jitter `j` it adds to the matrices it inverts. The states visited are those of the
reduction with the jitter; `E` and `H` collect, pass by pass, what the jitter does to the reduced equations (they vanish with it), and the error of
the returned matrix is due to `A2`, to `j T` and to `H` alone. -/
theorem C61_scan_jitter {n : ℕ} (j : ℝ) (A B C : Mat n n) (maxIter : ℕ) (tol : ℝ) (X : Mat n n) (k : ℕ)
    (h : scanCycleReduction j A B C maxIter tol = some (X, k)) (T : Mat n n) (hT : SolvesQuadratic A B C T) :
    k ≤ maxIter ∧ ∃ (s : ℕ → CRState n) (E H : ℕ → Mat n n), s 0 = ⟨A, B, C, B⟩ ∧ E 0 = 0 ∧ H 0 = 0 ∧
      (∀ i < k, JPass j (s i) (s (i + 1)) ∧
        E (i + 1) = E i * T ^ 2 ^ i - ((s i).A0 * (((s i).A1 + j • 1)⁻¹ * (E i + j • T ^ 2 ^ i)) +
          (s i).A2 * (((s i).A1 + j • 1)⁻¹ * ((E i + j • T ^ 2 ^ i) * (T ^ 2 ^ i * T ^ 2 ^ i)))) ∧
        H (i + 1) = H i - (s i).A2 * (((s i).A1 + j • 1)⁻¹ * ((E i + j • T ^ 2 ^ i) * T))) ∧
      IsUnit ((s k).A1hat + j • (1 : Mat n n)).det ∧
      ((s k).A1hat + j • 1) * (X - T) = (s k).A2 * T ^ (2 ^ k + 1) - j • T - H k := by
  unfold scanCycleReduction at h
  split at h
  · cases h
  · rename_i s nrm k' hs
    rw [Option.map_eq_some_iff] at h
    obtain ⟨Y, hY, hX⟩ := h
    simp only [Prod.mk.injEq] at hX
    obtain ⟨rfl, rfl⟩ := hX
    obtain ⟨-, hk, f, f0, fk, hf⟩ := scan_passes j tol _ _ _ _ _ _ _ hs
    rw [Nat.sub_zero] at fk hf
    obtain ⟨hu, hy⟩ := (linSolve_iff _ _ _).mp hY
    let E : ℕ → Mat n n := fun i => (f i).A0 + (f i).A1 * T ^ 2 ^ i + (f i).A2 * (T ^ 2 ^ i * T ^ 2 ^ i)
    let H : ℕ → Mat n n := fun i => A + (f i).A1hat * T + (f i).A2 * (T ^ 2 ^ i * T)
    have hT' : A + B * T + C * (T * T) = 0 := by
      have := hT
      unfold SolvesQuadratic at this
      rw [← this]
      simp only [Matrix.mul_assoc]
    refine ⟨by omega, f, E, H, f0, ?_, ?_, ?_, by rw [fk]; exact hu, ?_⟩
    · show (f 0).A0 + (f 0).A1 * T ^ 2 ^ 0 + (f 0).A2 * (T ^ 2 ^ 0 * T ^ 2 ^ 0) = 0
      rw [f0]; simpa using hT'
    · show A + (f 0).A1hat * T + (f 0).A2 * (T ^ 2 ^ 0 * T) = 0
      rw [f0]; simpa using hT'
    · intro i hi
      obtain ⟨d1, d2⟩ := jpass_defect (hf i hi) A (T ^ 2 ^ i) T (E i) (H i) rfl rfl
      have hp : T ^ 2 ^ (i + 1) = T ^ 2 ^ i * T ^ 2 ^ i := by rw [pow_succ, mul_two, pow_add]
      refine ⟨hf i hi, ?_, ?_⟩
      · rw [← d1]
        show (f (i + 1)).A0 + (f (i + 1)).A1 * T ^ 2 ^ (i + 1) + (f (i + 1)).A2 * (T ^ 2 ^ (i + 1) * T ^ 2 ^ (i + 1)) = _
        rw [hp]
      · rw [← d2]
        show A + (f (i + 1)).A1hat * T + (f (i + 1)).A2 * (T ^ 2 ^ (i + 1) * T) = _
        rw [hp]
    · rw [fk]
      have hH : H k' = A + s.A1hat * T + s.A2 * (T ^ 2 ^ k' * T) := by show A + (f k').A1hat * T + (f k').A2 * (T ^ 2 ^ k' * T) = _; rw [fk]
      unfold stabilize at hy
      rw [hH, Matrix.mul_sub, Matrix.mul_neg, hy, pow_succ, Matrix.add_mul, Matrix.smul_mul, Matrix.one_mul]
      abel

/-- C61, violated for the scan version: for a backward-looking model (`C = 0`) the matrix returned solves the equation with the jitter added to `B`, and is
never the solution of the model unless it is zero. -/
theorem C61_scan_jitter_violated {n : ℕ} (j : ℝ) (hj : j ≠ 0) (A B : Mat n n) (maxIter : ℕ) (tol : ℝ) (X : Mat n n) (k : ℕ)
    (h : scanCycleReduction j A B 0 maxIter tol = some (X, k)) : A + (B + j • 1) * X = 0 ∧ (SolvesQuadratic A B 0 X → X = 0) := by
  have key : A + (B + j • (1 : Mat n n)) * X = 0 := by
    unfold scanCycleReduction at h
    split at h
    · cases h
    · rename_i s nrm k' hs
      rw [Option.map_eq_some_iff] at h
      obtain ⟨Y, hY, hX⟩ := h
      simp only [Prod.mk.injEq] at hX
      obtain ⟨rfl, rfl⟩ := hX
      obtain ⟨-, hk, f, f0, fk, hf⟩ := scan_passes j tol _ _ _ _ _ _ _ hs
      rw [Nat.sub_zero] at fk hf
      obtain ⟨hu, hy⟩ := (linSolve_iff _ _ _).mp hY
      have hinv : ∀ i ≤ k', (f i).A2 = 0 ∧ (f i).A1hat = B := by
        intro i
        induction i with
        | zero => intro _; rw [f0]; exact ⟨rfl, rfl⟩
        | succ i ih =>
          intro hi
          obtain ⟨i1, i2⟩ := ih (by omega)
          obtain ⟨-, -, -, h2, h3⟩ := hf i (by omega)
          rw [h2, h3, i1, i2]
          simp
      have hB := (hinv k' le_rfl).2
      rw [fk] at hB
      unfold stabilize at hy
      rw [hB] at hy
      rw [Matrix.mul_neg, hy]
      abel
  refine ⟨key, fun hs => ?_⟩
  unfold SolvesQuadratic at hs
  have : j • X = 0 := by
    have e : A + (B + j • (1 : Mat n n)) * X = (A + B * X + 0 * X * X) + j • X := by simp [Matrix.add_mul, add_assoc]
    rw [key] at e
    rw [hs, zero_add] at e
    exact e.symm
  exact (smul_eq_zero.1 this).resolve_left hj

/-- non-vacuity: `1 + T = 0` with jitter one returns `-1/2` after one pass -/
example : ∃ X, scanCycleReduction 1 (1 : Mat 1 1) 1 0 1 (1 / 10) = some (X, 1) := by
  have hdet : IsUnit (stabilize (1 : Mat 1 1) 1).det := by
    rw [isUnit_iff_ne_zero]
    simp [stabilize]
  have hex : ∃ s', crStep ({ A0 := 1, A1 := stabilize 1 1, A2 := 0, A1hat := 1 } : CRState 1) = some s' ∧ s'.A1hat = 1 := by
    refine ⟨⟨_, _, _, _⟩, (crStep_iff _ _).2 ⟨hdet, rfl, rfl, rfl, rfl⟩, by simp⟩
  obtain ⟨s', hs', hA⟩ := hex
  have hl : scanLoop 1 (1 / 10) 1 (⟨1, 1, 0, 1⟩ : CRState 1) 1000000000 0 =
      some ({ s' with A1 := s'.A1 - (1 : ℝ) • (1 : Mat 1 1) }, norm1 s'.A0, 1) := by
    unfold scanLoop
    rw [if_neg (by norm_num)]
    dsimp only
    rw [hs']
    rfl
  unfold scanCycleReduction
  rw [hl]
  dsimp only
  rw [hA, linSolve, if_pos hdet]
  exact ⟨_, rfl⟩

/-- C61: the scan version (without the jitter) makes passes until the norm of `A0` is below the tolerance and then leaves the matrices alone:
if it reports fewer passes than allowed, the norm is below the tolerance, and it was not before; at least one pass is made. -/
theorem C61_scan_stops {n : ℕ} (A B C : Mat n n) (maxIter : ℕ) (tol : ℝ) (htol : tol ≤ 1000000000) (X : Mat n n) (k : ℕ)
    (h : scanCycleReduction 0 A B C maxIter tol = some (X, k)) :
    (0 < maxIter → 0 < k) ∧ (k < maxIter → ∃ s, afterPasses k ⟨A, B, C, B⟩ = some s ∧ norm1 s.A0 < tol) ∧
    ∀ i, 0 < i → i < k → ∃ s, afterPasses i ⟨A, B, C, B⟩ = some s ∧ tol ≤ norm1 s.A0 := by
  have hloop : ∀ m (s0 : CRState n) nrm k0 s nrm' k', scanLoop 0 tol m s0 nrm k0 = some (s, nrm', k') →
      k0 ≤ k' ∧ Passes s0 (k' - k0) s ∧ (k' = k0 → nrm' = nrm) ∧ (k0 < k' → nrm' = norm1 s.A0) ∧ (k' < k0 + m → nrm' < tol) ∧
      ∀ i, 0 < i → i < k' - k0 → ∃ u, Passes s0 i u ∧ tol ≤ norm1 u.A0 := by
    intro m
    induction m with
    | zero =>
      intro s0 nrm k0 s nrm' k' h
      simp only [scanLoop, Option.some.injEq, Prod.mk.injEq] at h
      obtain ⟨rfl, rfl, rfl⟩ := h
      exact ⟨le_refl _, by rw [Nat.sub_self]; exact .zero, fun _ => rfl, fun h => absurd h (lt_irrefl _), fun h => absurd h (by omega),
        fun i h1 h2 => by omega⟩
    | succ m ih =>
      intro s0 nrm k0 s nrm' k' h
      unfold scanLoop at h
      split at h
      · rename_i hlt
        obtain ⟨a, b, c, d, e, f⟩ := ih _ _ _ _ _ _ h
        refine ⟨a, b, c, d, fun hk => ?_, f⟩
        by_cases hk' : k' = k0
        · rw [c hk']; exact hlt
        · by_cases hkm : k' < k0 + m
          · exact e hkm
          · exfalso
            -- with the norm below the tolerance no pass is made
            have hstill : ∀ m (s0 : CRState n) nrm k0 s nrm' k', nrm < tol → scanLoop 0 tol m s0 nrm k0 = some (s, nrm', k') → k' = k0 := by
              intro m
              induction m with
              | zero =>
                intro s0 nrm k0 s nrm' k' _ h
                simp only [scanLoop, Option.some.injEq, Prod.mk.injEq] at h
                exact h.2.2.symm
              | succ m ih =>
                intro s0 nrm k0 s nrm' k' hl h
                unfold scanLoop at h
                rw [if_pos hl] at h
                exact ih _ _ _ _ _ _ hl h
            exact hk' (hstill _ _ _ _ _ _ _ hlt h)
      · rename_i hge
        split at h
        · cases h
        · rename_i s' hs
          obtain ⟨a, b, c, d, e, f⟩ := ih _ _ _ _ _ _ h
          have hs' : crStep s0 = some s' := by
            have : ({ s0 with A1 := stabilize s0.A1 0 } : CRState n) = s0 := by
              obtain ⟨a, b, c, d⟩ := s0
              simp [stabilize]
            rwa [this] at hs
          have hss : ({ s' with A1 := s'.A1 - (0 : ℝ) • (1 : Mat n n) } : CRState n) = s' := by
            obtain ⟨a, b, c, d⟩ := s'
            simp
          rw [hss] at b f
          have hk : k' - k0 = (k' - (k0 + 1)) + 1 := by omega
          refine ⟨by omega, ?_, fun h => by omega, fun _ => ?_, fun h => e (by omega), ?_⟩
          · rw [hk]; exact b.head hs'
          · by_cases hk1 : k' = k0 + 1
            · rw [c hk1]
              subst hk1
              rw [Nat.sub_self] at b
              cases b
              rfl
            · exact d (by omega)
          · intro i hi hik
            by_cases hi1 : i = 1
            · subst hi1
              refine ⟨s', .succ .zero hs', ?_⟩
              by_contra hlt
              have hstill : ∀ m (s0 : CRState n) nrm k0 s nrm' k', nrm < tol → scanLoop 0 tol m s0 nrm k0 = some (s, nrm', k') → k' = k0 := by
                intro m
                induction m with
                | zero =>
                  intro s0 nrm k0 s nrm' k' _ h
                  simp only [scanLoop, Option.some.injEq, Prod.mk.injEq] at h
                  exact h.2.2.symm
                | succ m ih =>
                  intro s0 nrm k0 s nrm' k' hl h
                  unfold scanLoop at h
                  rw [if_pos hl] at h
                  exact ih _ _ _ _ _ _ hl h
              have := hstill _ _ _ _ _ _ _ (not_le.mp hlt) h
              omega
            · obtain ⟨j, rfl⟩ : ∃ j, i = j + 1 := ⟨i - 1, by omega⟩
              obtain ⟨u, hu, hn⟩ := f j (by omega) (by omega)
              exact ⟨u, hu.head hs', hn⟩
  unfold scanCycleReduction at h
  split at h
  · cases h
  · rename_i s nrm k' hs
    rw [Option.map_eq_some_iff] at h
    obtain ⟨Y, hY, hX⟩ := h
    simp only [Prod.mk.injEq] at hX
    obtain ⟨rfl, rfl⟩ := hX
    obtain ⟨-, b, c, d, e, f⟩ := hloop _ _ _ _ _ _ _ hs
    rw [Nat.sub_zero] at b f
    have hpos : 0 < maxIter → 0 < k' := by
      intro hm
      by_contra hk
      have hk0 : k' = 0 := by omega
      have h1 := c hk0
      have h2 := e (by omega)
      rw [h1] at h2
      exact absurd htol (not_le.mpr h2)
    refine ⟨hpos, fun hk => ⟨s, b.after, ?_⟩, fun i hi hik => ?_⟩
    · have hk0 := hpos (by omega)
      rw [← d hk0]
      exact e (by omega)
    · obtain ⟨u, hu, hn⟩ := f i hi hik
      exact ⟨u, hu.after, hn⟩

/-! ## C62: gradients -/

/-- the sum of the entrywise products -/
def dot {n m : ℕ} (X Y : Mat n m) : ℝ := ∑ i, ∑ j, X i j * Y i j

namespace Lin

theorem dot_trace {n m : ℕ} (X Y : Mat n m) : dot X Y = (Xᵀ * Y).trace := by
  unfold dot
  simp only [Matrix.trace, Matrix.diag, Matrix.mul_apply, Matrix.transpose_apply]
  exact Finset.sum_comm

theorem dot_add_right {n m : ℕ} (X Y Z : Mat n m) : dot X (Y + Z) = dot X Y + dot X Z := by
  simp [dot_trace, Matrix.mul_add, Matrix.trace_add]
theorem dot_add_left {n m : ℕ} (X Y Z : Mat n m) : dot (X + Y) Z = dot X Z + dot Y Z := by
  simp [dot_trace, Matrix.add_mul, Matrix.trace_add]
theorem dot_neg_left {n m : ℕ} (X Y : Mat n m) : dot (-X) Y = -dot X Y := by simp [dot_trace]
theorem dot_neg_right {n m : ℕ} (X Y : Mat n m) : dot X (-Y) = -dot X Y := by simp [dot_trace]
theorem dot_smul_left {n m : ℕ} (a : ℝ) (X Y : Mat n m) : dot (a • X) Y = a * dot X Y := by simp [dot_trace]
theorem dot_mul_left {n m p : ℕ} (M : Mat n m) (X : Mat n p) (Y : Mat m p) : dot X (M * Y) = dot (Mᵀ * X) Y := by
  simp [dot_trace, Matrix.mul_assoc]
theorem dot_mul_right {n m p : ℕ} (M : Mat m p) (X : Mat n p) (Y : Mat n m) : dot X (Y * M) = dot (X * Mᵀ) Y := by
  rw [dot_trace, dot_trace, ← Matrix.mul_assoc, Matrix.trace_mul_comm, ← Matrix.mul_assoc]
  simp

theorem vec_inj {n m : ℕ} {X Y : Mat n m} (h : vec X = vec Y) : X = Y := by
  ext i j; exact congrFun h (j, i)

theorem adjoint_eq {n : ℕ} {jit : ℝ} {B C T Tbar : Mat n n} {Ab Bb Cb : Mat n n} (h : policyAdjoints jit B C T Tbar = some (Ab, Bb, Cb)) :
    Cᵀ * Ab * Tᵀ + Tᵀ * Cᵀ * Ab + Bᵀ * Ab + jit • Ab = -Tbar ∧ Bb = Ab * Tᵀ ∧ Cb = Ab * Tᵀ * Tᵀ := by
  unfold policyAdjoints at h
  split at h
  · rename_i hu
    have h' := Option.some.inj h
    have hA := congrArg Prod.fst h'
    have hB := congrArg (fun p => p.2.1) h'
    have hC := congrArg (fun p => p.2.2) h'
    dsimp only at hA hB hC
    generalize hv : (stabilize (adjointMatrix B C T) jit)⁻¹ *ᵥ (-vec Tbar) = v at hA hB hC
    have hvec : vec Ab = v := by
      rw [← hA]; rfl
    rw [hA] at hB hC
    refine ⟨?_, hB.symm, hC.symm⟩
    have h1 : stabilize (adjointMatrix B C T) jit *ᵥ vec Ab = -vec Tbar := by
      rw [hvec, ← hv, Matrix.mulVec_mulVec, Matrix.mul_nonsing_inv _ hu, Matrix.one_mulVec]
    have h2 : stabilize (adjointMatrix B C T) jit *ᵥ vec Ab = vec (Cᵀ * Ab * Tᵀ + Tᵀ * Cᵀ * Ab + Bᵀ * Ab + jit • Ab) := by
      unfold stabilize adjointMatrix
      rw [Matrix.add_mulVec, Matrix.add_mulVec, Matrix.add_mulVec, Matrix.kronecker_mulVec_vec, Matrix.kronecker_mulVec_vec,
        Matrix.kronecker_mulVec_vec, Matrix.smul_mulVec, Matrix.one_mulVec]
      simp only [Matrix.transpose_one, Matrix.mul_one]
      rfl
    have h3 : vec (Cᵀ * Ab * Tᵀ + Tᵀ * Cᵀ * Ab + Bᵀ * Ab + jit • Ab) = vec (-Tbar) := by
      rw [← h2, h1]; rfl
    exact vec_inj h3
  · cases h

end Lin

/-- C62: the adjoints returned are the gradients of a loss through the solved policy function, up to the jitter: along every differentiable
curve of solutions `(A, B, C, T)` the derivative of a loss with gradient `Tbar` in `T` is the inner product of the adjoints with the
derivatives of `A`, `B` and `C`, minus `jitter · ⟨A_bar, dT⟩` -/
theorem C62_gradient {n : ℕ} (jit : ℝ) (A B C T : ℝ → Mat n n) (dA dB dC dT : Mat n n) (s₀ : ℝ)
    (hA : ∀ i j, HasDerivAt (fun s => A s i j) (dA i j) s₀) (hB : ∀ i j, HasDerivAt (fun s => B s i j) (dB i j) s₀)
    (hC : ∀ i j, HasDerivAt (fun s => C s i j) (dC i j) s₀) (hT : ∀ i j, HasDerivAt (fun s => T s i j) (dT i j) s₀)
    (hsol : ∀ s, SolvesQuadratic (A s) (B s) (C s) (T s)) (Tbar Ab Bb Cb : Mat n n)
    (h : policyAdjoints jit (B s₀) (C s₀) (T s₀) Tbar = some (Ab, Bb, Cb)) :
    dot Tbar dT = dot Ab dA + dot Bb dB + dot Cb dC - jit * dot Ab dT := by
  have hmul : ∀ (F G : ℝ → Mat n n) (dF dG : Mat n n), (∀ i j, HasDerivAt (fun s => F s i j) (dF i j) s₀) →
      (∀ i j, HasDerivAt (fun s => G s i j) (dG i j) s₀) →
      ∀ i j, HasDerivAt (fun s => (F s * G s) i j) ((dF * G s₀ + F s₀ * dG) i j) s₀ := by
    intro F G dF dG hF hG i j
    have : HasDerivAt (fun s => ∑ k, F s i k * G s k j) (∑ k, (dF i k * G s₀ k j + F s₀ i k * dG k j)) s₀ :=
      HasDerivAt.fun_sum fun k _ => (hF i k).mul (hG k j)
    simpa [Matrix.mul_apply, Finset.sum_add_distrib] using this
  have hlin : dA + (dB * T s₀ + B s₀ * dT) + ((dC * T s₀ + C s₀ * dT) * T s₀ + C s₀ * T s₀ * dT) = 0 := by
    ext i j
    have h1 := ((hA i j).add (hmul B T dB dT hB hT i j)).add (hmul (fun s => C s * T s) T _ dT (hmul C T dC dT hC hT) hT i j)
    have h0 : (fun s => A s i j + (B s * T s) i j + (C s * T s * T s) i j) = fun _ => (0 : ℝ) := by
      funext s
      exact congrFun (congrFun (hsol s) i) j
    have h2 : HasDerivAt (fun s => A s i j + (B s * T s) i j + (C s * T s * T s) i j) 0 s₀ := by
      rw [h0]; exact hasDerivAt_const _ _
    exact HasDerivAt.unique h1 h2
  obtain ⟨he, rfl, rfl⟩ := adjoint_eq h
  have hTb : Tbar = -(( C s₀)ᵀ * Ab * (T s₀)ᵀ + (T s₀)ᵀ * (C s₀)ᵀ * Ab + (B s₀)ᵀ * Ab + jit • Ab) := by rw [he, neg_neg]
  have hz : dot Ab (dA + (dB * T s₀ + B s₀ * dT) + ((dC * T s₀ + C s₀ * dT) * T s₀ + C s₀ * T s₀ * dT)) = 0 := by
    rw [hlin]; simp [dot]
  rw [dot_add_right, dot_add_right, dot_add_right, dot_add_right, Matrix.add_mul, dot_add_right, dot_mul_right (T s₀) Ab dB,
    dot_mul_left (B s₀) Ab dT, dot_mul_right (T s₀) Ab (dC * T s₀), dot_mul_right (T s₀) (Ab * (T s₀)ᵀ) dC,
    dot_mul_right (T s₀) Ab (C s₀ * dT), dot_mul_left (C s₀) (Ab * (T s₀)ᵀ) dT, dot_mul_left (C s₀ * T s₀) Ab dT] at hz
  rw [hTb, dot_neg_left, dot_add_left, dot_add_left, dot_add_left, dot_smul_left]
  have e1 : dot ((C s₀)ᵀ * Ab * (T s₀)ᵀ) dT = dot ((C s₀)ᵀ * (Ab * (T s₀)ᵀ)) dT := by rw [Matrix.mul_assoc]
  have e2 : dot ((C s₀ * T s₀)ᵀ * Ab) dT = dot ((T s₀)ᵀ * (C s₀)ᵀ * Ab) dT := by rw [Matrix.transpose_mul]
  linarith [hz, e1, e2]

/-- C62: the adjoints exist when the linearised equation has only the zero solution (and the jitter is not an eigenvalue of it); they are then
the unique matrices with `Bᵀ S + Tᵀ Cᵀ S + Cᵀ S Tᵀ + jitter S = −Tbar` -/
theorem C62_exists {n : ℕ} (jit : ℝ) (B C T Tbar : Mat n n)
    (h : ∀ S : Mat n n, Cᵀ * S * Tᵀ + Tᵀ * Cᵀ * S + Bᵀ * S + jit • S = 0 → S = 0) :
    ∃ S, policyAdjoints jit B C T Tbar = some (S, S * Tᵀ, S * Tᵀ * Tᵀ) ∧
      ∀ S', Cᵀ * S' * Tᵀ + Tᵀ * Cᵀ * S' + Bᵀ * S' + jit • S' = -Tbar ↔ S' = S := by
  have hmv : ∀ S : Mat n n, stabilize (adjointMatrix B C T) jit *ᵥ vec S = vec (Cᵀ * S * Tᵀ + Tᵀ * Cᵀ * S + Bᵀ * S + jit • S) := by
    intro S
    unfold stabilize adjointMatrix
    rw [Matrix.add_mulVec, Matrix.add_mulVec, Matrix.add_mulVec, Matrix.kronecker_mulVec_vec, Matrix.kronecker_mulVec_vec,
      Matrix.kronecker_mulVec_vec, Matrix.smul_mulVec, Matrix.one_mulVec]
    simp only [Matrix.transpose_one, Matrix.mul_one]
    rfl
  have hu : IsUnit (stabilize (adjointMatrix B C T) jit).det := by
    rw [← Matrix.isUnit_iff_isUnit_det]
    rw [← Matrix.mulVec_injective_iff_isUnit]
    intro v w hvw
    have hsub : stabilize (adjointMatrix B C T) jit *ᵥ (v - w) = 0 := by rw [Matrix.mulVec_sub, sub_eq_zero]; exact hvw
    let S : Mat n n := fun k i => (v - w) (i, k)
    have hS : vec S = v - w := rfl
    rw [← hS, hmv] at hsub
    have : S = 0 := h S (vec_inj (hsub.trans (by rfl)))
    have hv : v - w = 0 := by rw [← hS, this]; rfl
    exact sub_eq_zero.mp hv
  have hex : ∃ S, policyAdjoints jit B C T Tbar = some (S, S * Tᵀ, S * Tᵀ * Tᵀ) := by
    unfold policyAdjoints
    rw [if_pos hu]
    exact ⟨_, rfl⟩
  obtain ⟨S, hS⟩ := hex
  refine ⟨S, hS, fun S' => ⟨fun h' => ?_, ?_⟩⟩
  · have e := (adjoint_eq hS).1
    have hd : Cᵀ * (S' - S) * Tᵀ + Tᵀ * Cᵀ * (S' - S) + Bᵀ * (S' - S) + jit • (S' - S) = 0 := by
      have : Cᵀ * (S' - S) * Tᵀ + Tᵀ * Cᵀ * (S' - S) + Bᵀ * (S' - S) + jit • (S' - S) =
          (Cᵀ * S' * Tᵀ + Tᵀ * Cᵀ * S' + Bᵀ * S' + jit • S') - (Cᵀ * S * Tᵀ + Tᵀ * Cᵀ * S + Bᵀ * S + jit • S) := by
        simp only [Matrix.mul_sub, Matrix.sub_mul, smul_sub]; abel
      rw [this, h', e, sub_self]
    exact sub_eq_zero.mp (h _ hd)
  · rintro rfl; exact (adjoint_eq hS).1

/-! ### concrete cases -/

/-- C36: a one-equation backward model `−x(−1) + 2 x = e` -/
example : ∃ T R, solveBackwardDirect (sc (-1)) (sc 2) 0 (sc (-1)) = some (T, R) := by
  have h : IsUnit (sc 2).det := by rw [sc_det]; exact isUnit_iff_ne_zero.mpr two_ne_zero
  have := ((C36_backward (sc (-1)) (sc 2) 0 (sc (-1))).1).mpr h
  obtain ⟨⟨T, R⟩, h⟩ := Option.isSome_iff_exists.mp this
  exact ⟨T, R, h⟩

/-- C36, C61: `2 − 3 T + T² = 0` has the solution 1, and the impact matrix exists -/
example : SolvesQuadratic (sc 2) (sc (-3)) (sc 1) (sc 1) ∧ ∃ R, selectionMatrix (sc (-3)) (sc 1) (sc 1) (sc 1) = some R := by
  constructor
  · unfold SolvesQuadratic
    simp only [sc_mul, sc_add, sc_zero, sc_inj]; norm_num
  · refine ⟨sc (1 / 2), (selection_iff _ _ _ _ _).mpr ⟨?_, ?_⟩⟩
    · rw [sc_mul, sc_add, sc_det]; exact isUnit_iff_ne_zero.mpr (by norm_num)
    · simp only [sc_mul, sc_add, sc_zero, sc_inj]; norm_num

/-- C61: a run that converges, with `A2` zero and `A1` invertible at the end -/
example : ∃ s r, crLoop 1 1 ⟨sc (1 / 2), sc 1, sc 0, sc 1⟩ = some (.done s) ∧ s.A2 = 0 ∧ IsUnit s.A1.det ∧
    cycleReduction (sc (1 / 2)) (sc 1) (sc 0) 1 1 = some r := by
  have hst := sc_step (a := 1 / 2) (b := 1) (c := 0) (d := 1) one_ne_zero
  have hl : crLoop 1 1 ⟨sc (1 / 2), sc 1, sc 0, sc 1⟩ = some (.done ⟨sc (-(1 / 2 * (1⁻¹ * (1 / 2)))), sc (1 - 1 / 2 * (1⁻¹ * 0) - 0 * (1⁻¹ * (1 / 2))),
      sc (-(0 * (1⁻¹ * 0))), sc (1 - 0 * (1⁻¹ * (1 / 2)))⟩) := by
    unfold crLoop
    rw [hst]
    dsimp only
    rw [if_pos (by rw [sc_norm]; norm_num [abs_lt]), if_pos (by rw [sc_norm]; norm_num)]
  have hr : ∃ r, cycleReduction (sc (1 / 2)) (sc 1) (sc 0) 1 1 = some r := by
    unfold cycleReduction
    rw [hl]
    dsimp only
    rw [sc_solve (by norm_num)]
    exact ⟨_, rfl⟩
  obtain ⟨r, hr⟩ := hr
  refine ⟨_, r, hl, ?_, ?_, hr⟩
  · rw [sc_zero, sc_inj]; norm_num
  · rw [sc_det]; exact isUnit_iff_ne_zero.mpr (by norm_num)

/-- C62: the adjoint exists for a scalar model -/
example : ∃ S, policyAdjoints 0 (sc (-3)) (sc 1) (sc 1) (sc 1) = some (S, S * (sc 1)ᵀ, S * (sc 1)ᵀ * (sc 1)ᵀ) := by
  obtain ⟨S, hS, -⟩ := C62_exists 0 (sc (-3)) (sc 1) (sc 1) (sc 1) (by
    intro S hS
    have := congrFun (congrFun hS 0) 0
    ext i j
    fin_cases i; fin_cases j
    simp [sc, Matrix.mul_apply] at this ⊢
    linarith)
  exact ⟨S, hS⟩

end GE
