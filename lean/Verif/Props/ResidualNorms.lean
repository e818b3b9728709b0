import Verif.Model.Diagnostics
import Mathlib.Tactic.Linarith
import Mathlib.Tactic.NormNum
import Mathlib.Data.Matrix.Mul
/-! # C88: the residual norms reported for a solved model -/

open Matrix

namespace GE

namespace RN

variable {n k : ℕ}

theorem sqrt_sum_zero {α β : Type} (s : Finset α) (t : Finset β) (f : α → β → ℝ) :
    Real.sqrt (∑ i ∈ s, ∑ j ∈ t, f i j ^ 2) = 0 ↔ ∀ i ∈ s, ∀ j ∈ t, f i j = 0 := by
  have h0 : ∀ i ∈ s, 0 ≤ ∑ j ∈ t, f i j ^ 2 := fun i _ => Finset.sum_nonneg fun j _ => sq_nonneg (f i j)
  rw [Real.sqrt_eq_zero (Finset.sum_nonneg h0), Finset.sum_eq_zero_iff_of_nonneg h0]
  refine forall_congr' fun i => imp_congr_right fun _ => ?_
  rw [Finset.sum_eq_zero_iff_of_nonneg fun j _ => sq_nonneg (f i j)]
  simp

theorem frob_eq_zero {α β : Type} [Fintype α] [Fintype β] (M : Matrix α β ℝ) : frob M = 0 ↔ M = 0 := by
  unfold frob
  rw [sqrt_sum_zero Finset.univ Finset.univ fun i j => M i j]
  constructor
  · intro h
    ext i j
    exact h i (Finset.mem_univ i) j (Finset.mem_univ j)
  · rintro rfl i _ j _
    rfl

theorem isState_iff (tol : ℝ) (T : Mat n n) (j : Fin n) : IsState tol T j ↔ ∃ i, tol ≤ |T i j| := by
  constructor
  · rintro ⟨i, _, h⟩
    exact ⟨i, h⟩
  · rintro ⟨i, h⟩
    obtain ⟨m, _, hm⟩ := Finset.exists_max_image Finset.univ (fun i => |T i j|) ⟨i, Finset.mem_univ i⟩
    exact ⟨m, fun i' => hm i' (Finset.mem_univ i'), h.trans (hm i (Finset.mem_univ i))⟩

theorem trunc_nonstate (tol : ℝ) (T : Mat n n) (j : Fin n) (h : ¬IsState tol T j) (i : Fin n) : truncTol tol T i j = 0 := by
  rw [isState_iff] at h
  push Not at h
  simp only [truncTol, if_pos (h i)]

/-- products through the state columns are the full products -/
theorem mul_states {α : Type} (tol : ℝ) (T : Mat n n) (N : Matrix (Fin n) α ℝ) [Fintype (StateIx tol T)] :
    (truncTol tol T).submatrix id (Subtype.val : StateIx tol T → Fin n) * N.submatrix Subtype.val id = truncTol tol T * N := by
  classical
  ext i a
  simp only [Matrix.mul_apply, Matrix.submatrix_apply, id]
  have h := Finset.sum_subtype_of_mem (s := Finset.univ.filter (IsState tol T)) (p := IsState tol T) (fun x => truncTol tol T i x * N x a)
    (fun x hx => (Finset.mem_filter.1 hx).2)
  have h1 : ∑ x : StateIx tol T, truncTol tol T i ↑x * N (↑x) a = ∑ x ∈ Finset.univ.filter (IsState tol T), truncTol tol T i x * N x a := by
    rw [← h]
    refine Finset.sum_congr ?_ fun _ _ => rfl
    ext x
    simp [x.2]
  rw [h1]
  refine Finset.sum_subset (Finset.filter_subset _ _) fun x _ hx => ?_
  have : ¬IsState tol T x := fun hc => hx (Finset.mem_filter.2 ⟨Finset.mem_univ _, hc⟩)
  rw [trunc_nonstate tol T x this, zero_mul]

theorem trunc_id {m : ℕ} (tol : ℝ) (M : Mat n m) (h : ∀ i j, M i j = 0 ∨ tol ≤ |M i j|) : truncTol tol M = M := by
  ext i j
  rcases h i j with h | h
  · simp [truncTol, h]
  · simp [truncTol, not_lt.2 h]

end RN

/-- **C88.** With `PP` and `QQ` the solution in which entries smaller than the tolerance are set to zero, the two reported norms are the Frobenius
norms of `A + B PP + C PP PP`, restricted to the columns in which `T` has an entry of modulus at least `tol`, and of `B QQ + C PP QQ + D`. -/
theorem C88_norms {n k : ℕ} (A B C : Mat n n) (D : Mat n k) (T : Mat n n) (R : Mat n k) (tol : ℝ) (PP : Mat n n) (QQ : Mat n k)
    (hP : ∀ i j, PP i j = open Classical in if |T i j| < tol then 0 else T i j)
    (hQ : ∀ i j, QQ i j = open Classical in if |R i j| < tol then 0 else R i j) :
    (residualNorms A B C D T R tol).1 =
        Real.sqrt (∑ i, open Classical in ∑ j ∈ Finset.univ.filter (fun j => ∃ i, tol ≤ |T i j|), (A + B * PP + C * PP * PP) i j ^ 2) ∧
      (residualNorms A B C D T R tol).2 = Real.sqrt (∑ i, ∑ j, (B * QQ + C * PP * QQ + D) i j ^ 2) := by
  classical
  have eP : PP = truncTol tol T := by ext i j; rw [hP]; rfl
  have eQ : QQ = truncTol tol R := by ext i j; rw [hQ]; rfl
  subst eP eQ
  have e1 : C * (truncTol tol T).submatrix id (Subtype.val : StateIx tol T → Fin n) *
      (truncTol tol T).submatrix (Subtype.val : StateIx tol T → Fin n) (Subtype.val : StateIx tol T → Fin n)
      = (C * truncTol tol T * truncTol tol T).submatrix id Subtype.val := by
    have := RN.mul_states tol T ((truncTol tol T).submatrix id (Subtype.val : StateIx tol T → Fin n))
    rw [Matrix.submatrix_submatrix] at this
    rw [Matrix.mul_assoc]
    erw [this]
    rw [Matrix.mul_assoc]
    rfl
  have e2 : C * (truncTol tol T).submatrix id (Subtype.val : StateIx tol T → Fin n) *
      (truncTol tol R).submatrix (Subtype.val : StateIx tol T → Fin n) id = C * truncTol tol T * truncTol tol R := by
    rw [Matrix.mul_assoc, RN.mul_states tol T (truncTol tol R), Matrix.mul_assoc]
  constructor
  · simp only [residualNorms, gEconRep]
    rw [e1]
    unfold frob
    congr 1
    refine Finset.sum_congr rfl fun i _ => ?_
    have h := Finset.sum_subtype_of_mem (s := Finset.univ.filter (fun j => ∃ i, tol ≤ |T i j|)) (p := IsState tol T)
      (fun j => (A + B * truncTol tol T + C * truncTol tol T * truncTol tol T) i j ^ 2)
      (fun x hx => (RN.isState_iff tol T x).2 (Finset.mem_filter.1 hx).2)
    rw [← h]
    refine Finset.sum_congr ?_ fun _ _ => rfl
    ext x
    simp only [Finset.mem_univ, Finset.mem_subtype, Finset.mem_filter, true_and, true_iff]
    exact (RN.isState_iff tol T x).1 x.2
  · simp only [residualNorms, gEconRep]
    rw [e2]
    rfl

/-- **C88.** When no entry of the solution is truncated, both norms are zero exactly if `T` solves the quadratic equation in the columns where it has
a nonzero entry, and `R` solves its equation. -/
theorem C88_zero_iff {n k : ℕ} (A B C : Mat n n) (D : Mat n k) (T : Mat n n) (R : Mat n k) (tol : ℝ) (htol : 0 < tol)
    (hT : ∀ i j, T i j = 0 ∨ tol ≤ |T i j|) (hR : ∀ i j, R i j = 0 ∨ tol ≤ |R i j|) :
    residualNorms A B C D T R tol = (0, 0) ↔
      (∀ j, (∃ i, T i j ≠ 0) → ∀ i, (A + B * T + C * T * T) i j = 0) ∧ B * R + C * T * R + D = 0 := by
  classical
  have hn := C88_norms A B C D T R tol T R
    (fun i j => by rcases hT i j with h | h <;> simp [h])
    (fun i j => by rcases hR i j with h | h <;> simp [h])
  have hst : ∀ j, (∃ i, tol ≤ |T i j|) ↔ ∃ i, T i j ≠ 0 := by
    intro j
    constructor
    · rintro ⟨i, h⟩
      refine ⟨i, fun h0 => ?_⟩
      rw [h0, abs_zero] at h
      exact absurd h (not_le.2 htol)
    · rintro ⟨i, h⟩
      exact ⟨i, (hT i j).resolve_left h⟩
  rw [Prod.ext_iff, hn.1, hn.2]
  have h2 : Real.sqrt (∑ i, ∑ j, (B * R + C * T * R + D) i j ^ 2) = 0 ↔ B * R + C * T * R + D = 0 := RN.frob_eq_zero _
  simp only [h2]
  refine and_congr_left fun _ => ?_
  rw [RN.sqrt_sum_zero Finset.univ _ fun i j => (A + B * T + C * T * T) i j]
  constructor
  · intro h j hj i
    exact h i (Finset.mem_univ i) j (Finset.mem_filter.2 ⟨Finset.mem_univ j, (hst j).2 hj⟩)
  · intro h i _ j hj
    exact h j ((hst j).1 (Finset.mem_filter.1 hj).2) i

/-- **C88.** Zero norms mean that the model's linear equations hold along the solution `x' = T x + R e`: for every state `x` and shock `e`,
`A x + B x' + C (T x') + D e = 0`, provided `A` does not load on variables that the solution ignores. -/
theorem C88_solves {n k : ℕ} (A B C : Mat n n) (D : Mat n k) (T : Mat n n) (R : Mat n k) (tol : ℝ) (htol : 0 < tol)
    (hT : ∀ i j, T i j = 0 ∨ tol ≤ |T i j|) (hR : ∀ i j, R i j = 0 ∨ tol ≤ |R i j|)
    (hA : ∀ j, (∀ i, T i j = 0) → ∀ i, A i j = 0)
    (h : residualNorms A B C D T R tol = (0, 0)) (x : Fin n → ℝ) (e : Fin k → ℝ) :
    A *ᵥ x + B *ᵥ (T *ᵥ x + R *ᵥ e) + C *ᵥ (T *ᵥ (T *ᵥ x + R *ᵥ e)) + D *ᵥ e = 0 := by
  obtain ⟨h1, h2⟩ := (C88_zero_iff A B C D T R tol htol hT hR).1 h
  have hq : A + B * T + C * T * T = 0 := by
    ext i j
    by_cases hj : ∃ i, T i j ≠ 0
    · exact h1 j hj i
    · push Not at hj
      simp [Matrix.mul_apply, hA j hj i, hj]
  have e1 : A *ᵥ x + B *ᵥ (T *ᵥ x + R *ᵥ e) + C *ᵥ (T *ᵥ (T *ᵥ x + R *ᵥ e)) + D *ᵥ e
      = (A + B * T + C * T * T) *ᵥ x + (B * R + C * T * R + D) *ᵥ e := by
    simp only [Matrix.add_mulVec, Matrix.mulVec_add, Matrix.mulVec_mulVec, Matrix.mul_assoc]
    abel
  rw [e1, hq, h2]
  simp

/-- **C88, false in general.** Columns in which the solution has no entry are not looked at: a system with `A = B = 1` and the "solution" `T = 0` gets
zero norms although `A + B T + C T T` is not zero, and the equation fails for every nonzero lagged value. -/
theorem C88_unseen_columns_violated :
    ∃ (A B C : Mat 1 1) (D : Mat 1 1) (T : Mat 1 1) (R : Mat 1 1) (tol : ℝ), 0 < tol ∧ residualNorms A B C D T R tol = (0, 0) ∧
      A + B * T + C * T * T ≠ 0 ∧ ∀ x : Fin 1 → ℝ, x 0 ≠ 0 → A *ᵥ x + B *ᵥ (T *ᵥ x) + C *ᵥ (T *ᵥ (T *ᵥ x)) ≠ 0 := by
  refine ⟨1, 1, 0, 0, 0, 0, 1, one_pos, ?_, ?_, ?_⟩
  · exact (C88_zero_iff (1 : Mat 1 1) 1 0 (0 : Mat 1 1) 0 0 1 one_pos (fun _ _ => Or.inl rfl) (fun _ _ => Or.inl rfl)).2
      ⟨fun j ⟨i, h⟩ => absurd rfl h, by rw [Matrix.mul_zero, Matrix.mul_zero, zero_add, zero_add]⟩
  · simp
  · intro x hx h
    apply hx
    have := congrFun h 0
    simpa using this

/-- **C88, false in general.** An exact solution with entries below the tolerance is reported with a nonzero norm, because those entries are
dropped before the residual is computed. -/
theorem C88_truncation_violated :
    ∃ (A B C : Mat 1 1) (D : Mat 1 1) (T : Mat 1 1) (R : Mat 1 1) (tol : ℝ), 0 < tol ∧ A + B * T + C * T * T = 0 ∧ B * R + C * T * R + D = 0 ∧
      (residualNorms A B C D T R tol).2 ≠ 0 := by
  refine ⟨0, 1, 0, !![-1], 0, !![1], 2, two_pos, by simp, ?_, ?_⟩
  · ext i j
    fin_cases i; fin_cases j; simp
  · have h := (C88_norms 0 1 0 !![-1] 0 !![1] 2 0 0 (fun i j => by simp)
      (fun i j => by fin_cases i; fin_cases j; simp)).2
    rw [h]
    simp

/-- **C88.** The decomposition into states and jumpers is exact for the truncated solution: next period's states depend on this period's states only,
through `P` and `Q`, and jumpers through `R` and `S`. -/
theorem C88_representation {n k : ℕ} (A T : Mat n n) (R : Mat n k) (tol : ℝ) (x : Fin n → ℝ) (e : Fin k → ℝ) [Fintype (StateIx tol T)] :
    let g := gEconRep A T R tol
    let next := truncTol tol T *ᵥ x + truncTol tol R *ᵥ e
    (∀ s : StateIx tol T, next s.1 = (g.P *ᵥ (fun s => x s.1) + g.Q *ᵥ e) s) ∧
      (∀ j : JumperIx tol T, next j.1 = (g.R *ᵥ (fun s => x s.1) + g.S *ᵥ e) j) ∧
      (∀ s : StateIx tol T, ∃ i, tol ≤ |T i s.1|) ∧ ∀ j : JumperIx tol T, ∀ i, |T i j.1| < tol := by
  have key : ∀ i, (truncTol tol T *ᵥ x) i = ∑ s : StateIx tol T, truncTol tol T i s.1 * x s.1 := by
    intro i
    have := congrFun (congrFun (RN.mul_states tol T (Matrix.of fun i (_ : Unit) => x i)) i) ()
    simpa [Matrix.mul_apply, Matrix.mulVec, dotProduct] using this.symm
  refine ⟨fun s => ?_, fun j => ?_, fun s => (RN.isState_iff tol T s.1).1 s.2, fun j i => ?_⟩
  · simp only [Pi.add_apply, key, gEconRep]
    rfl
  · simp only [Pi.add_apply, key, gEconRep]
    rfl
  · have := j.2
    rw [RN.isState_iff] at this
    push Not at this
    exact this i

/-- a solved one-equation model meets the hypotheses: `x' = x / 2 + e` for `A = -1/2`, `B = 1`, `D = -1` -/
example : residualNorms !![-(1/2)] !![1] 0 !![-1] !![1/2] !![1] (1/100000000 : ℝ) = ((0 : ℝ), (0 : ℝ)) := by
  refine (C88_zero_iff _ _ _ _ _ _ _ (by norm_num) ?_ ?_).2 ⟨fun j _ i => ?_, ?_⟩
  · intro i j; fin_cases i; fin_cases j; right; norm_num
  · intro i j; fin_cases i; fin_cases j; right; norm_num
  · fin_cases i; fin_cases j; simp
  · ext i j; fin_cases i; fin_cases j; simp

end GE
