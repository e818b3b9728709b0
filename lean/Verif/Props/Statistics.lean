import Verif.Model.Statistics
import Mathlib.Algebra.BigOperators.Fin
import Mathlib.LinearAlgebra.BilinearMap
import Mathlib.LinearAlgebra.Matrix.PosDef
import Mathlib.Topology.Instances.Matrix
import Mathlib.Topology.Order.OrderClosed
import Mathlib.Topology.Algebra.Order.Field
import Mathlib.Tactic.Linarith
import Mathlib.Tactic.NoncommRing
import Mathlib.Tactic.FinCases
import Mathlib.Tactic.Ring
import Mathlib.Data.Finsupp.SMul
import Mathlib.Algebra.BigOperators.Finsupp.Basic
/-! # C47, C63, C64, C65: covariances and argument handling of the statistics functions -/

open Matrix Finset

namespace GE

/-! ## Specification -/

section spec
variable {H : Type} [AddCommGroup H] [Module ℝ H] {a b n k : ℕ}

/-- the covariance matrix of two vectors of zero-mean random variables, for a covariance form `E` -/
def covMat (E : H →ₗ[ℝ] H →ₗ[ℝ] ℝ) (X : Fin a → H) (Y : Fin b → H) : Mat a b := fun i j => E (X i) (Y j)

/-- a matrix applied to a vector of random variables -/
def applyMat (M : Mat a b) (X : Fin b → H) : Fin a → H := fun i => ∑ j, M i j • X j

/-- `x` is a process of the linear model `x_{t+1} = T x_t + R e_{t+1}`, driven by serially uncorrelated shocks with covariance `Q` that are
uncorrelated with the past of `x` -/
structure LinearProcess (E : H →ₗ[ℝ] H →ₗ[ℝ] ℝ) (T : Mat n n) (R : Mat n k) (Q : Mat k k) (x : ℕ → Fin n → H) (e : ℕ → Fin k → H) : Prop where
  symm : ∀ u v, E u v = E v u
  step : ∀ t, x (t + 1) = applyMat T (x t) + applyMat R (e (t + 1))
  variance : ∀ t, covMat E (e t) (e t) = Q
  future : ∀ s t, t < s → covMat E (e s) (x t) = 0

/-- the contract of `scipy.linalg.solve_discrete_lyapunov`: a solution of `A X A' - X + Q = 0` -/
def LyapSpec (lyap : Mat n n → Mat n n → Option (Mat n n)) : Prop := ∀ A Q X, lyap A Q = some X → A * X * Aᵀ - X + Q = 0

/-- what the caller's options mean: exactly one of them is given and `Q` is the covariance matrix it describes -/
def DescribesQ (names : Fin k → Str) (o : ShockOptions) (Q : Mat k k) : Prop :=
  (∃ C : Mat k k, o = { cov := some ⟨k, k, C⟩ } ∧ Q = C) ∨
  (∃ d, o = { stdDict := some d } ∧ (∀ x ∈ dkeys d, ∃ i, names i = x) ∧
    ∃ v : Fin k → ℝ, (∀ i, dget d (names i) = some (v i)) ∧ ∀ i j, Q i j = if i = j then v i ^ 2 else 0) ∨
  (∃ r, o = { std := some (.scalar r) } ∧ 0 ≤ r ∧ ∀ i j, Q i j = if i = j then r ^ 2 else 0) ∨
  (∃ l, o = { std := some (.ndarray l) } ∧ l.length = k ∧ (∀ x ∈ l, 0 < x) ∧ ∀ i j, Q i j = if i = j then l.getD i 0 ^ 2 else 0)

end spec

namespace Stat

section
variable {H : Type} [AddCommGroup H] [Module ℝ H] {a b c n k : ℕ}

theorem covMat_add_left (E : H →ₗ[ℝ] H →ₗ[ℝ] ℝ) (X X' : Fin a → H) (Y : Fin b → H) : covMat E (X + X') Y = covMat E X Y + covMat E X' Y := by
  ext i j; simp [covMat]

theorem covMat_add_right (E : H →ₗ[ℝ] H →ₗ[ℝ] ℝ) (X : Fin a → H) (Y Y' : Fin b → H) : covMat E X (Y + Y') = covMat E X Y + covMat E X Y' := by
  ext i j; simp [covMat]

theorem covMat_apply_left (E : H →ₗ[ℝ] H →ₗ[ℝ] ℝ) (M : Mat c a) (X : Fin a → H) (Y : Fin b → H) : covMat E (applyMat M X) Y = M * covMat E X Y := by
  ext i j; simp [covMat, applyMat, Matrix.mul_apply]

theorem covMat_apply_right (E : H →ₗ[ℝ] H →ₗ[ℝ] ℝ) (M : Mat c b) (X : Fin a → H) (Y : Fin b → H) : covMat E X (applyMat M Y) = covMat E X Y * Mᵀ := by
  ext i j; simp [covMat, applyMat, Matrix.mul_apply, mul_comm]

theorem covMat_symm (E : H →ₗ[ℝ] H →ₗ[ℝ] ℝ) (h : ∀ u v, E u v = E v u) (X : Fin a → H) (Y : Fin b → H) : covMat E X Y = (covMat E Y X)ᵀ := by
  ext i j; simp [covMat, h (X i)]

theorem cov_step {E : H →ₗ[ℝ] H →ₗ[ℝ] ℝ} {T : Mat n n} {R : Mat n k} {Q : Mat k k} {x : ℕ → Fin n → H} {e : ℕ → Fin k → H}
    (h : LinearProcess E T R Q x e) (t : ℕ) : covMat E (x (t + 1)) (x (t + 1)) = T * covMat E (x t) (x t) * Tᵀ + R * Q * Rᵀ := by
  have h0 : covMat E (e (t + 1)) (x t) = 0 := h.future _ _ (Nat.lt_succ_self t)
  have h1 : covMat E (x t) (e (t + 1)) = 0 := by rw [covMat_symm E h.symm, h0, Matrix.transpose_zero]
  rw [h.step]
  simp only [covMat_add_left, covMat_add_right, covMat_apply_left, covMat_apply_right, h.variance, h0, h1]
  simp [Matrix.mul_assoc]

theorem cov_lag {E : H →ₗ[ℝ] H →ₗ[ℝ] ℝ} {T : Mat n n} {R : Mat n k} {Q : Mat k k} {x : ℕ → Fin n → H} {e : ℕ → Fin k → H}
    (h : LinearProcess E T R Q x e) (t l : ℕ) : covMat E (x (t + l)) (x t) = T ^ l * covMat E (x t) (x t) := by
  induction l with
  | zero => simp
  | succ l ih =>
    rw [← Nat.add_assoc, h.step, covMat_add_left, covMat_apply_left, covMat_apply_left, h.future _ _ (by omega), ih, pow_succ']
    simp [Matrix.mul_assoc]

end

theorem index_find {k : ℕ} (names : Fin k → Str) (hinj : Function.Injective names) (i : Fin k) : indexOf? names (names i) = some i := by
  unfold indexOf?
  rw [List.find?_eq_some_iff_append]
  refine ⟨by simp, ?_⟩
  obtain ⟨l1, l2, hl⟩ := List.append_of_mem (List.mem_finRange i)
  refine ⟨l1, l2, hl, ?_⟩
  intro j hj
  have hnd := List.nodup_finRange k
  rw [hl] at hnd
  have : j ≠ i := by
    rintro rfl
    exact (List.nodup_append.mp hnd).2.2 j hj j List.mem_cons_self rfl
  simp only [Bool.not_eq_true', decide_eq_false_iff_not]
  exact fun h => this (hinj h)

theorem dictQ_spec {k : ℕ} (names : Fin k → Str) (hinj : Function.Injective names) (d : List (Str × ℝ)) (hnd : (dkeys d).Nodup)
    (hk : ∀ x ∈ dkeys d, ∃ i, names i = x) (q : Fin k → ℝ) (i : Fin k) :
    dictQ names d q i = match dget d (names i) with
      | some v => v ^ 2
      | none => q i := by
  induction d generalizing q with
  | nil => rfl
  | cons p d ih =>
    obtain ⟨x, v⟩ := p
    simp only [dkeys, List.map_cons, List.nodup_cons] at hnd
    obtain ⟨i0, hi0⟩ := hk x (by simp [dkeys])
    subst hi0
    have hk' : ∀ x ∈ dkeys d, ∃ i, names i = x := fun y hy => hk y (by simp only [dkeys, List.map_cons, List.mem_cons]; right; exact hy)
    simp only [dictQ, index_find names hinj, dget]
    rw [ih hnd.2 hk']
    by_cases hi : names i0 = names i
    · have : i0 = i := hinj hi
      subst this
      have hn : dget d (names i0) = none := (dget_eq_none _ _).mpr hnd.1
      simp [hn]
    · have : i ≠ i0 := fun h => hi (by rw [h])
      simp only [hi, if_false, Function.update_of_ne this]

end Stat

open Stat

/-! ## C47 -/

/-- C47: the shock covariance matrix is exactly the one the caller's options describe, and every other combination of options raises -/
theorem C47_Q {k : ℕ} (names : Fin k → Str) (hinj : Function.Injective names) (o : ShockOptions)
    (hd : ∀ d, o.stdDict = some d → (dkeys d).Nodup) (Q : Mat k k) : buildQ names o = .ok Q ↔ DescribesQ names o Q := by
  obtain ⟨sd, cv, st⟩ := o
  rcases sd with _ | d <;> rcases cv with _ | ⟨m, p, C⟩ <;> rcases st with _ | s
  · simp [buildQ, validateShockOptions, ShockOptions.nProvided, DescribesQ]
  · -- a standard deviation
    rcases s with r | l | l
    · simp only [buildQ, validateShockOptions, ShockOptions.nProvided, validateCov, validateDict, validateStd]
      by_cases hr : r < 0
      · simp [hr, DescribesQ]
      · simp only [hr, if_false]
        simp [DescribesQ, stdVariance, Matrix.diagonal]
        constructor
        · rintro rfl
          exact ⟨not_lt.mp hr, fun i j => rfl⟩
        · rintro ⟨_, h⟩
          ext i j
          rw [h i j]
          rfl
    · simp only [buildQ, validateShockOptions, ShockOptions.nProvided, validateCov, validateDict, validateStd, List.length_ofFn]
      by_cases hl : l.length = k
      · by_cases hp : ∀ x ∈ l, 0 < x
        · simp [hl, if_pos hp, DescribesQ, stdVariance, Matrix.diagonal]
          constructor
          · rintro rfl
            exact ⟨hp, fun i j => rfl⟩
          · rintro ⟨_, h⟩
            ext i j
            rw [h i j]
            rfl
        · simp [hl, if_neg hp, DescribesQ]
          intro h
          exact absurd h hp
      · simp [hl, DescribesQ]
    · simp only [buildQ, validateShockOptions, ShockOptions.nProvided, validateCov, validateDict, validateStd, List.length_ofFn]
      by_cases hl : l.length = k <;> simp [hl, DescribesQ]
  · -- a covariance matrix
    simp only [buildQ, validateShockOptions, ShockOptions.nProvided, validateCov, validateDict, validateStd, List.length_ofFn]
    by_cases hm : m = k
    · by_cases hp : p = k
      · subst hm
        subst hp
        simp [DescribesQ]
        constructor
        · intro h; exact Except.ok.inj h
        · intro h; subst h; rfl
      · subst hm
        simp [hp, DescribesQ]
    · simp [hm, DescribesQ]
  · simp [buildQ, validateShockOptions, ShockOptions.nProvided, DescribesQ]
  · -- a dictionary
    simp only [buildQ, validateShockOptions, ShockOptions.nProvided, validateCov, validateDict, validateStd]
    have hnd := hd d rfl
    by_cases h1 : (dkeys d).filter (fun x => decide (x ∉ List.ofFn names)) = []
    · have h1' : ∀ x ∈ dkeys d, ∃ i, names i = x := by
        intro x hx
        have := (List.filter_eq_nil_iff.mp h1) x hx
        simpa using this
      by_cases h2 : (List.ofFn names).filter (fun x => decide (x ∉ dkeys d)) = []
      · have h2' : ∀ i, ∃ v, dget d (names i) = some v := by
          intro i
          have := (List.filter_eq_nil_iff.mp h2) (names i) (List.mem_ofFn.mpr ⟨i, rfl⟩)
          have hmem : names i ∈ dkeys d := by simpa using this
          exact Option.isSome_iff_exists.mp ((dget_isSome d _).mpr hmem)
        choose v hv using h2'
        have hq : ∀ i, dictQ names d 0 i = v i ^ 2 := fun i => by rw [dictQ_spec names hinj d hnd h1', hv i]
        simp only [h1, h2, ne_eq, not_true_eq_false, if_false]
        simp only [Option.isSome_some, Option.isSome_none, Bool.toNat_true, Bool.toNat_false, Nat.add_zero, if_neg (by omega : ¬(1 < 1 ∨ 1 = 0)), Except.ok.injEq]
        constructor
        · rintro rfl
          right; left
          exact ⟨d, rfl, h1', v, hv, fun i j => by simp only [Matrix.diagonal, Matrix.of_apply, hq]⟩
        · rintro (⟨C, h, _⟩ | ⟨d', h, _, w, hw, hQ⟩ | ⟨r, h, _⟩ | ⟨l, h, _⟩)
          · simp at h
          · simp only [ShockOptions.mk.injEq, Option.some.injEq, and_true] at h
            subst h
            have : w = v := funext fun i => Option.some.inj ((hw i).symm.trans (hv i))
            subst this
            ext i j
            rw [hQ i j]
            simp only [Matrix.diagonal, Matrix.of_apply, hq]
          · simp at h
          · simp at h
      · simp only [h1, h2, ne_eq, not_true_eq_false, not_false_eq_true, if_false, if_true]
        simp only [Option.isSome_some, Option.isSome_none, Bool.toNat_true, Bool.toNat_false, Nat.add_zero, Nat.lt_irrefl, one_ne_zero, or_false, if_false, reduceCtorEq, false_iff]
        rintro (⟨C, h, _⟩ | ⟨d', h, _, w, hw, hQ⟩ | ⟨r, h, _⟩ | ⟨l, h, _⟩)
        · simp at h
        · simp only [ShockOptions.mk.injEq, Option.some.injEq, and_true] at h
          subst h
          apply h2
          rw [List.filter_eq_nil_iff]
          intro x hx
          obtain ⟨i, rfl⟩ := List.mem_ofFn.mp hx
          have : names i ∈ dkeys d := (dget_isSome d _).mp (by rw [hw i]; rfl)
          simpa using this
        · simp at h
        · simp at h
    · simp only [h1, ne_eq, not_false_eq_true, if_true]
      simp only [Option.isSome_some, Option.isSome_none, Bool.toNat_true, Bool.toNat_false, Nat.add_zero, Nat.lt_irrefl, one_ne_zero, or_false, if_false, reduceCtorEq, false_iff]
      rintro (⟨C, h, _⟩ | ⟨d', h, hk, _⟩ | ⟨r, h, _⟩ | ⟨l, h, _⟩)
      · simp at h
      · simp only [ShockOptions.mk.injEq, Option.some.injEq, and_true] at h
        subst h
        apply h1
        rw [List.filter_eq_nil_iff]
        intro x hx
        simpa using hk x hx
      · simp at h
      · simp at h
  · simp [buildQ, validateShockOptions, ShockOptions.nProvided, DescribesQ]
  · simp [buildQ, validateShockOptions, ShockOptions.nProvided, DescribesQ]
  · simp [buildQ, validateShockOptions, ShockOptions.nProvided, DescribesQ]

/-- C47: the returned covariance matrix is the stationary covariance of the model driven by shocks with the described covariance: a process of
the model that starts with it keeps it for ever, and it satisfies `Σ = T Σ T' + R Q R'` -/
theorem C47_stationary {n k : ℕ} (lyap : Mat n n → Mat n n → Option (Mat n n)) (hlyap : LyapSpec lyap) (names : Fin k → Str)
    (hinj : Function.Injective names) (T : Mat n n) (R : Mat n k) (o : ShockOptions) (hd : ∀ d, o.stdDict = some d → (dkeys d).Nodup)
    (S : Mat n n) (h : stationaryCov lyap names T R o = .ok S) :
    ∃ Q, DescribesQ names o Q ∧ S = T * S * Tᵀ + R * Q * Rᵀ ∧
      ∀ (H : Type) [AddCommGroup H] [Module ℝ H] (E : H →ₗ[ℝ] H →ₗ[ℝ] ℝ) (x : ℕ → Fin n → H) (e : ℕ → Fin k → H),
        LinearProcess E T R Q x e → covMat E (x 0) (x 0) = S → ∀ t, covMat E (x t) (x t) = S := by
  unfold stationaryCov at h
  cases hv : validateShockOptions o (List.ofFn names) with
  | error e => rw [hv] at h; cases h
  | ok u =>
    rw [hv] at h
    simp only at h
    cases hq : buildQ names o with
    | error e => rw [hq] at h; cases h
    | ok Q =>
      rw [hq] at h
      simp only at h
      cases hl : lyap T (R * Q * Rᵀ) with
      | none => rw [hl] at h; cases h
      | some S' =>
        rw [hl] at h
        cases h
        have heq : S = T * S * Tᵀ + R * Q * Rᵀ := by
          have := hlyap _ _ _ hl
          rw [eq_comm, ← sub_eq_zero]
          rw [← this]
          abel
        refine ⟨Q, (C47_Q names hinj o hd Q).mp hq, heq, ?_⟩
        intro H _ _ E x e hp h0 t
        induction t with
        | zero => exact h0
        | succ t ih => rw [cov_step hp, ih, ← heq]

/-- C47 (for the options that work): the entry for lag `l` is the covariance of `x_{t+l}` with `x_t` in the stationary process of the model whose
shocks have the covariance the caller described. Missing: dictionaries and lists of standard deviations, see `C47_dict_violated` and
`C47_list_violated`. -/
theorem C47_autocovariance_partial {n k : ℕ} (lyap : Mat n n → Mat n n → Option (Mat n n)) (hlyap : LyapSpec lyap) (names : Fin k → Str)
    (hinj : Function.Injective names) (T : Mat n n) (R : Mat n k) (o : ShockOptions) (ho : o.stdDict = none) (nLags : ℕ)
    (L : List (Mat n n)) (h : autocovarianceMatrix lyap names T R o nLags false = .ok L) :
    ∃ Q S, DescribesQ names o Q ∧ stationaryCov lyap names T R o = .ok S ∧ L.length = nLags ∧
      ∀ (H : Type) [AddCommGroup H] [Module ℝ H] (E : H →ₗ[ℝ] H →ₗ[ℝ] ℝ) (x : ℕ → Fin n → H) (e : ℕ → Fin k → H),
        LinearProcess E T R Q x e → covMat E (x 0) (x 0) = S → ∀ l, l < nLags → ∀ t, L[l]? = some (covMat E (x (t + l)) (x t)) := by
  have hoe : { o with stdDict := none } = o := by
    obtain ⟨a, b, c⟩ := o
    simp only at ho
    subst ho
    rfl
  unfold autocovarianceMatrix at h
  rw [hoe] at h
  cases hs : stationaryCov lyap names T R o with
  | error e => rw [hs] at h; cases h
  | ok S =>
    rw [hs] at h
    simp only [Except.ok.injEq] at h
    subst h
    obtain ⟨Q, hQ, _, hst⟩ := C47_stationary lyap hlyap names hinj T R o (fun d hd => by rw [ho] at hd; cases hd) S hs
    refine ⟨Q, S, hQ, rfl, by simp [computeAutocov], ?_⟩
    intro H _ _ E x e hp h0 l hl t
    rw [cov_lag hp, hst H E x e hp h0 t]
    simp only [computeAutocov, List.getElem?_map, List.getElem?_range hl, Option.map_some, Option.some.injEq]
    ext i j
    simp

/-- C47: autocorrelations are the autocovariances divided by the two standard deviations; the own correlation at lag zero is one -/
theorem C47_autocorrelation {n : ℕ} (T S : Mat n n) (nLags l : ℕ) (hl : l < nLags) (i j : Fin n) :
    ∃ M N : Mat n n, (computeAutocov T S nLags true)[l]? = some M ∧ (computeAutocov T S nLags false)[l]? = some N ∧
      (0 < S i i → 0 < S j j → M i j * (Real.sqrt (S i i) * Real.sqrt (S j j)) = N i j) ∧ (l = 0 → 0 < S i i → M i i = 1) := by
  refine ⟨_, _, by simp only [computeAutocov, List.getElem?_map, List.getElem?_range hl, Option.map_some]; rfl,
    by simp only [computeAutocov, List.getElem?_map, List.getElem?_range hl, Option.map_some]; rfl, ?_, ?_⟩
  · intro hi hj
    have h1 := Real.sqrt_pos.mpr hi
    have h2 := Real.sqrt_pos.mpr hj
    simp only [if_true, Bool.false_eq_true, if_false, div_one]
    exact div_mul_cancel₀ _ (mul_pos h1 h2).ne'
  · rintro rfl hi
    simp only [if_true, pow_zero, Matrix.one_mul]
    show S i i / (√(S i i) * √(S i i)) = 1
    rw [Real.mul_self_sqrt hi.le]
    exact div_self hi.ne'

/-- C47, violated: the standard deviations given as a dictionary never reach the computation. Given alone they always raise "you passed 0",
although `stationary_covariance_matrix` accepts the same options; given with another option, which `stationary_covariance_matrix` rejects, they
are silently ignored. -/
theorem C47_dict_violated {n k : ℕ} (lyap : Mat n n → Mat n n → Option (Mat n n)) (names : Fin k → Str) (T : Mat n n) (R : Mat n k)
    (d : List (Str × ℝ)) (o : ShockOptions) (nLags : ℕ) (corr : Bool) :
    autocovarianceMatrix lyap names T R { stdDict := some d } nLags corr = .error (.exactlyOne 0) ∧
    autocovarianceMatrix lyap names T R { o with stdDict := some d } nLags corr = autocovarianceMatrix lyap names T R { o with stdDict := none } nLags corr ∧
    (o.nProvided = 1 → o.stdDict = none → stationaryCov lyap names T R { o with stdDict := some d } = .error (.exactlyOne 2)) := by
  refine ⟨?_, rfl, ?_⟩
  · simp [autocovarianceMatrix, stationaryCov, validateShockOptions, ShockOptions.nProvided]
  · intro h1 h2
    have : ({ o with stdDict := some d } : ShockOptions).nProvided = 2 := by
      simp only [ShockOptions.nProvided, h2, Option.isSome_none, Bool.toNat_false, Option.isSome_some, Bool.toNat_true] at h1 ⊢
      omega
    simp only [stationaryCov, validateShockOptions, this]
    rfl

/-- C47, violated: standard deviations given as a list (documented) always raise -/
theorem C47_list_violated {n k : ℕ} (lyap : Mat n n → Mat n n → Option (Mat n n)) (names : Fin k → Str) (T : Mat n n) (R : Mat n k)
    (l : List ℝ) (nLags : ℕ) (corr : Bool) :
    ∃ e, buildQ names { std := some (.list l) } = .error e ∧ stationaryCov lyap names T R { std := some (.list l) } = .error e ∧
      autocovarianceMatrix lyap names T R { std := some (.list l) } nLags corr = .error e ∧ (l.length = k → e = .listCompare) := by
  by_cases hl : l.length = k
  · exact ⟨.listCompare, by simp [buildQ, validateShockOptions, ShockOptions.nProvided, validateCov, validateDict, validateStd, hl],
      by simp [stationaryCov, validateShockOptions, ShockOptions.nProvided, validateCov, validateDict, validateStd, hl],
      by simp [autocovarianceMatrix, stationaryCov, validateShockOptions, ShockOptions.nProvided, validateCov, validateDict, validateStd, hl], fun _ => rfl⟩
  · exact ⟨.stdLength, by simp [buildQ, validateShockOptions, ShockOptions.nProvided, validateCov, validateDict, validateStd, hl],
      by simp [stationaryCov, validateShockOptions, ShockOptions.nProvided, validateCov, validateDict, validateStd, hl],
      by simp [autocovarianceMatrix, stationaryCov, validateShockOptions, ShockOptions.nProvided, validateCov, validateDict, validateStd, hl], fun h => absurd h hl⟩

/-- C47, finding: the two messages about dictionary keys are swapped. "Not found among the provided keys" lists provided keys that are not shocks;
"unexpected, not found among the model shocks" lists model shocks that have no entry. -/
theorem C47_messages_swapped (shocks : List Str) (d : List (Str × ℝ)) :
    (∀ ns, validateDict shocks (some d) = .error (.mustGiveAll ns) → ns ≠ [] ∧ ∀ x ∈ ns, x ∈ dkeys d ∧ x ∉ shocks) ∧
    (∀ ns, validateDict shocks (some d) = .error (.unexpected ns) → ns ≠ [] ∧ ∀ x ∈ ns, x ∈ shocks ∧ x ∉ dkeys d) := by
  simp only [validateDict]
  constructor
  · intro ns h
    by_cases h1 : (dkeys d).filter (fun x => decide (x ∉ shocks)) = []
    · rw [if_neg (by simpa using h1)] at h
      split at h <;> simp at h
    · rw [if_pos h1] at h
      simp only [Except.error.injEq, StatErr.mustGiveAll.injEq] at h
      subst h
      exact ⟨h1, fun x hx => by simpa using hx⟩
  · intro ns h
    by_cases h1 : (dkeys d).filter (fun x => decide (x ∉ shocks)) = []
    · rw [if_neg (by simpa using h1)] at h
      by_cases h2 : shocks.filter (fun x => decide (x ∉ dkeys d)) = []
      · rw [if_neg (by simpa using h2)] at h
        cases h
      · rw [if_pos h2] at h
        simp only [Except.error.injEq, StatErr.unexpected.injEq] at h
        subst h
        exact ⟨h2, fun x hx => by simpa using hx⟩
    · rw [if_pos h1] at h
      simp at h

/-! ### The stationary covariance as a limit -/

/-- the covariance after `t` periods of a process that starts at zero -/
noncomputable def covAfter {n k : ℕ} (T : Mat n n) (R : Mat n k) (Q : Mat k k) : ℕ → Mat n n
  | 0 => 0
  | t + 1 => T * covAfter T R Q t * Tᵀ + R * Q * Rᵀ

namespace Stat

theorem covAfter_process {H : Type} [AddCommGroup H] [Module ℝ H] {n k : ℕ} {E : H →ₗ[ℝ] H →ₗ[ℝ] ℝ} {T : Mat n n} {R : Mat n k} {Q : Mat k k}
    {x : ℕ → Fin n → H} {e : ℕ → Fin k → H} (h : LinearProcess E T R Q x e) (h0 : x 0 = 0) (t : ℕ) : covMat E (x t) (x t) = covAfter T R Q t := by
  induction t with
  | zero => rw [h0]; ext i j; simp [covMat, covAfter]
  | succ t ih => rw [cov_step h, ih]; rfl

theorem gap {n k : ℕ} (T : Mat n n) (R : Mat n k) (Q : Mat k k) (S : Mat n n) (h : S = T * S * Tᵀ + R * Q * Rᵀ) (t : ℕ) :
    covAfter T R Q t = S - T ^ t * S * (T ^ t)ᵀ := by
  induction t with
  | zero => simp [covAfter]
  | succ t ih =>
    rw [covAfter, ih]
    have e1 : T ^ (t + 1) * S * (T ^ (t + 1))ᵀ = T * (T ^ t * S * (T ^ t)ᵀ) * Tᵀ := by
      rw [pow_succ', Matrix.transpose_mul]
      simp only [Matrix.mul_assoc]
    rw [e1]
    rw [Matrix.mul_sub, Matrix.sub_mul]
    generalize T * (T ^ t * S * (T ^ t)ᵀ) * Tᵀ = G
    conv_rhs => rw [h]
    abel

end Stat

/-- C47: in a stable model (powers of `T` vanish) the returned matrix is the only one with `Σ = T Σ T' + R Q R'`, it is the limit of the covariances
of a process that starts at zero, and it is symmetric and positive semidefinite when `Q` is -/
theorem C47_limit {n k : ℕ} (T : Mat n n) (R : Mat n k) (Q : Mat k k) (S : Mat n n) (h : S = T * S * Tᵀ + R * Q * Rᵀ)
    (hT : Filter.Tendsto (fun t : ℕ => T ^ t) Filter.atTop (nhds 0)) :
    (∀ S', S' = T * S' * Tᵀ + R * Q * Rᵀ → S' = S) ∧
    Filter.Tendsto (covAfter T R Q) Filter.atTop (nhds S) ∧
    (Qᵀ = Q → Sᵀ = S) ∧
    ((∀ v : Fin k → ℝ, 0 ≤ v ⬝ᵥ Q *ᵥ v) → ∀ v : Fin n → ℝ, 0 ≤ v ⬝ᵥ S *ᵥ v) := by
  have hlim : ∀ S', S' = T * S' * Tᵀ + R * Q * Rᵀ → Filter.Tendsto (covAfter T R Q) Filter.atTop (nhds S') := by
    intro S' h'
    have h1 : Filter.Tendsto (fun t : ℕ => S' - T ^ t * S' * (T ^ t)ᵀ) Filter.atTop (nhds (S' - 0 * S' * (0 : Mat n n)ᵀ)) := by
      have hc : Continuous fun M : Mat n n => S' - M * S' * Mᵀ := by fun_prop
      exact (hc.tendsto 0).comp hT
    simp only [Matrix.zero_mul, sub_zero] at h1
    exact h1.congr fun t => (gap T R Q S' h' t).symm
  have hS := hlim S h
  refine ⟨fun S' h' => tendsto_nhds_unique (hlim S' h') hS, hS, ?_, ?_⟩
  · intro hQ
    have hsym : ∀ t, (covAfter T R Q t)ᵀ = covAfter T R Q t := by
      intro t
      induction t with
      | zero => simp [covAfter]
      | succ t ih =>
        rw [covAfter, Matrix.transpose_add, Matrix.transpose_mul, Matrix.transpose_mul, Matrix.transpose_mul, Matrix.transpose_mul, ih, hQ]
        simp only [Matrix.transpose_transpose, Matrix.mul_assoc]
    have h1 : Filter.Tendsto (fun t => (covAfter T R Q t)ᵀ) Filter.atTop (nhds Sᵀ) :=
      ((Continuous.matrix_transpose continuous_id).tendsto S).comp hS
    simp only [hsym] at h1
    exact tendsto_nhds_unique h1 hS
  · intro hQ v
    have quad : ∀ {p q : ℕ} (M : Mat p q) (P : Mat q q) (w : Fin p → ℝ), w ⬝ᵥ (M * P * Mᵀ) *ᵥ w = (Mᵀ *ᵥ w) ⬝ᵥ P *ᵥ (Mᵀ *ᵥ w) := by
      intro p q M P w
      rw [← Matrix.mulVec_mulVec, ← Matrix.mulVec_mulVec, Matrix.dotProduct_mulVec, ← Matrix.mulVec_transpose]
    have hpos : ∀ t w, 0 ≤ w ⬝ᵥ covAfter T R Q t *ᵥ w := by
      intro t
      induction t with
      | zero => intro w; simp [covAfter]
      | succ t ih =>
        intro w
        rw [covAfter, Matrix.add_mulVec, dotProduct_add, quad, quad]
        exact add_nonneg (ih _) (hQ _)
    have hc : Continuous fun M : Mat n n => v ⬝ᵥ M *ᵥ v :=
      Continuous.dotProduct continuous_const (Continuous.matrix_mulVec continuous_id continuous_const)
    exact ge_of_tendsto' ((hc.tendsto S).comp hS) fun t => hpos t v

/-- C47: a process of the model that starts at zero has covariance `covAfter t` after `t` periods -/
theorem C47_from_zero {H : Type} [AddCommGroup H] [Module ℝ H] {n k : ℕ} (E : H →ₗ[ℝ] H →ₗ[ℝ] ℝ) (T : Mat n n) (R : Mat n k) (Q : Mat k k)
    (x : ℕ → Fin n → H) (e : ℕ → Fin k → H) (h : LinearProcess E T R Q x e) (h0 : x 0 = 0) (t : ℕ) :
    covMat E (x t) (x t) = covAfter T R Q t := covAfter_process h h0 t

/-! ## C63 -/

/-- C63 (policy matrices): supplied matrices are used exactly when both are supplied, otherwise the model's own solution is used -/
theorem C63_maybe_solve {α β : Type} (solved : α × β) (T : Option α) (R : Option β) :
    (∀ t r, T = some t → R = some r → maybeSolve solved T R = (some t, some r)) ∧
    ((T = none ∨ R = none) → maybeSolve solved T R = (some solved.1, some solved.2)) := by
  rcases T with _ | t <;> rcases R with _ | r <;> simp [maybeSolve]

/-- C63 (Jacobians, the part that holds): all four supplied are used as they are; with none, or with some and `verbose` left on, the model's own
linearisation is used. Missing: `verbose=False`, see `C63_linearize_violated`. -/
theorem C63_maybe_linearize_partial {α : Type} (lin : α × α × α × α) (verbose : Bool) (A B C D : Option α) :
    (∀ a b c d, A = some a → B = some b → C = some c → D = some d → maybeLinearize lin verbose A B C D = (some a, some b, some c, some d)) ∧
    ((A = none ∧ B = none ∧ C = none ∧ D = none) ∨ ((A = none ∨ B = none ∨ C = none ∨ D = none) ∧ verbose = true) →
      maybeLinearize lin verbose A B C D = (some lin.1, some lin.2.1, some lin.2.2.1, some lin.2.2.2)) := by
  rcases A with _ | a <;> rcases B with _ | b <;> rcases C with _ | c <;> rcases D with _ | d <;> cases verbose <;>
    simp +contextual [maybeLinearize]

/-- C63, violated: with `verbose=False` an incomplete set of Jacobians is returned as it is, missing matrices included -/
theorem C63_linearize_violated {α : Type} (lin : α × α × α × α) (A B C D : Option α)
    (hsome : A.isSome ∨ B.isSome ∨ C.isSome ∨ D.isSome) : maybeLinearize lin false A B C D = (A, B, C, D) := by
  rcases A with _ | a <;> rcases B with _ | b <;> rcases C with _ | c <;> rcases D with _ | d <;> simp [maybeLinearize] at hsome ⊢

/-! ## C64 -/

/-- C64 (the part that holds): without explicit names, each dimension of a matrix of the model is labelled with the variables or the shocks
according to its size, provided the model does not have as many shocks as variables; a matrix of any other shape is refused -/
theorem C64_labels_partial (vars shocks : List Str) (nEqs r c : ℕ) (hne : vars.length ≠ shocks.length) :
    (r = vars.length → c = vars.length → matrixLabels vars shocks nEqs r c none none = some (vars, vars)) ∧
    (r = vars.length → c = shocks.length → matrixLabels vars shocks nEqs r c none none = some (vars, shocks)) ∧
    (r = shocks.length → c = shocks.length → matrixLabels vars shocks nEqs r c none none = some (shocks, shocks)) ∧
    (r = shocks.length → c = vars.length → matrixLabels vars shocks nEqs r c none none = some (shocks, vars)) ∧
    ∀ d1 d2, (matrixLabels vars shocks nEqs r c d1 d2).isSome → (r = vars.length ∨ r = shocks.length) ∧ (c = vars.length ∨ c = shocks.length) := by
  refine ⟨?_, ?_, ?_, ?_, ?_⟩
  · rintro rfl rfl; simp [matrixLabels, dimSizeOk, inferDim, dimLabels]
  · rintro rfl rfl; simp [matrixLabels, dimSizeOk, inferDim, dimLabels, Ne.symm hne]
  · rintro rfl rfl; simp [matrixLabels, dimSizeOk, inferDim, dimLabels, Ne.symm hne]
  · rintro rfl rfl; simp [matrixLabels, dimSizeOk, inferDim, dimLabels, Ne.symm hne]
  · intro d1 d2 h
    unfold matrixLabels at h
    split at h
    · rename_i hs
      simpa [dimSizeOk] using hs
    · simp at h

/-- C64, violated: when a model has as many shocks as variables the columns of the shock-impact matrix (variables by shocks) are labelled with
*variable* names -/
theorem C64_equal_sizes_violated (vars shocks : List Str) (nEqs : ℕ) (h : shocks.length = vars.length) :
    matrixLabels vars shocks nEqs vars.length shocks.length none none = some (vars, vars) := by
  simp [matrixLabels, dimSizeOk, inferDim, dimLabels, h]

/-- C64: rows asked for as equations are labelled `Equation 0`, `Equation 1`, ... -/
theorem C64_equations (vars shocks : List Str) (nEqs r c : ℕ) (d2 : DimName) (l1 l2 : List Str)
    (h : matrixLabels vars shocks nEqs r c (some .equation) (some d2) = some (l1, l2)) :
    l1.length = nEqs ∧ ∀ (i : ℕ), i < nEqs → l1[i]? = some ("Equation ".toList ++ (toString i).toList) := by
  unfold matrixLabels at h
  split at h
  · dsimp only at h
    split at h
    · simp only [Option.some.injEq, Prod.mk.injEq] at h
      obtain ⟨rfl, _⟩ := h
      refine ⟨by simp [inferDim, dimLabels], fun i hi => ?_⟩
      simp [inferDim, dimLabels, hi, natStr]
    · cases h
  · cases h

/-- C64: labels asked for by name are the ones used, and are refused when their number does not fit -/
theorem C64_explicit (vars shocks : List Str) (nEqs r c : ℕ) (d1 d2 : DimName) (l1 l2 : List Str)
    (h : matrixLabels vars shocks nEqs r c (some d1) (some d2) = some (l1, l2)) :
    l1 = dimLabels vars shocks nEqs d1 ∧ l2 = dimLabels vars shocks nEqs d2 ∧ l1.length = r ∧ l2.length = c := by
  unfold matrixLabels at h
  split at h
  · dsimp only at h
    split at h
    · rename_i hl
      simp only [Option.some.injEq, Prod.mk.injEq] at h
      obtain ⟨rfl, rfl⟩ := h
      exact ⟨rfl, rfl, hl.1, hl.2⟩
    · cases h
  · cases h

/-! ## C65 -/

/-- C65 (the part that holds): a supplied steady state is accepted exactly when no equation has a residual above 1e-8, and otherwise exactly the
equations with such a residual are named. Missing: residuals that are not numbers, see `C65_nan_violated`. -/
theorem C65_given_steady_state_partial (resid : List ℝ) :
    (checkGivenSteadyState (resid.map some) = .ok () ↔ ∀ x ∈ resid, |x| ≤ 1 / 100000000) ∧
    ∀ bad, checkGivenSteadyState (resid.map some) = .error bad → bad ≠ [] ∧ ∀ i, i ∈ bad ↔ ∃ x, resid[i]? = some x ∧ 1 / 100000000 < |x| := by
  have hu : ∀ x : ℝ, unsatisfied (some x) = true ↔ 1 / 100000000 < |x| := by intro x; simp [unsatisfied]
  have hany : (resid.map some).any unsatisfied = true ↔ ∃ x ∈ resid, 1 / 100000000 < |x| := by
    rw [List.any_eq_true]
    constructor
    · rintro ⟨y, hy, h⟩
      obtain ⟨x, hx, rfl⟩ := List.mem_map.mp hy
      exact ⟨x, hx, (hu x).mp h⟩
    · rintro ⟨x, hx, h⟩
      exact ⟨some x, List.mem_map.mpr ⟨x, hx, rfl⟩, (hu x).mpr h⟩
  have hmem : ∀ i, i ∈ (List.range (resid.map some).length).filter (fun i => unsatisfied ((resid.map some).getD i none)) ↔
      ∃ x, resid[i]? = some x ∧ 1 / 100000000 < |x| := by
    intro i
    rw [List.mem_filter, List.mem_range, List.length_map]
    constructor
    · rintro ⟨hi, h⟩
      rw [List.getD_eq_getElem?_getD, List.getElem?_map, List.getElem?_eq_getElem hi] at h
      exact ⟨resid[i], List.getElem?_eq_getElem hi, (hu _).mp h⟩
    · rintro ⟨x, hx, h⟩
      obtain ⟨hi, rfl⟩ := List.getElem?_eq_some_iff.mp hx
      refine ⟨hi, ?_⟩
      rw [List.getD_eq_getElem?_getD, List.getElem?_map, List.getElem?_eq_getElem hi]
      exact (hu _).mpr h
  unfold checkGivenSteadyState
  by_cases ha : (resid.map some).any unsatisfied = true
  · simp only [if_pos ha, reduceCtorEq, false_iff, Except.error.injEq]
    obtain ⟨x, hx, hbig⟩ := hany.mp ha
    refine ⟨fun h => absurd (h x hx) (not_le.mpr hbig), ?_⟩
    rintro bad rfl
    refine ⟨?_, hmem⟩
    obtain ⟨i, hi, rfl⟩ := List.getElem_of_mem hx
    intro he
    have := (hmem i).mpr ⟨_, List.getElem?_eq_getElem hi, hbig⟩
    rw [he] at this
    exact absurd this List.not_mem_nil
  · simp only [if_neg ha, true_iff, reduceCtorEq, false_implies, implies_true, and_true]
    intro x hx
    rw [hany] at ha
    push Not at ha
    exact ha x hx

/-- C65, violated: a steady state at which every equation evaluates to NaN is accepted -/
theorem C65_nan_violated (n : ℕ) : checkGivenSteadyState (List.replicate n none) = .ok () := by
  unfold checkGivenSteadyState
  have : (List.replicate n (none : Option ℝ)).any unsatisfied = false := by
    rw [List.any_eq_false]
    intro x hx
    rw [List.eq_of_mem_replicate hx]
    simp [unsatisfied]
  simp [this]

/-! ## The hypotheses are met -/

-- an AR(1): `Σ = ρ² Σ + σ²`, with `ρ = 1/2`, `σ² = 3/4`, `Σ = 1`
example : (!![1] : Mat 1 1) = !![1/2] * !![1] * (!![1/2] : Mat 1 1)ᵀ + !![1] * !![3/4] * (!![1] : Mat 1 1)ᵀ := by
  ext i j
  fin_cases i
  fin_cases j
  simp [Matrix.vecMul, dotProduct]
  norm_num

-- a linear process with non-trivial shocks exists: white noise, for the covariance form that makes the coordinates uncorrelated with unit variance
example : ∃ E : (ℕ →₀ ℝ) →ₗ[ℝ] (ℕ →₀ ℝ) →ₗ[ℝ] ℝ,
    LinearProcess (n := 1) (k := 1) E !![0] !![1] !![1] (fun t _ => Finsupp.single t 1) (fun t _ => Finsupp.single t 1) := by
  refine ⟨LinearMap.mk₂ ℝ (fun u v => u.sum fun i a => a * v i) ?_ ?_ ?_ ?_, ?_, ?_, ?_, ?_⟩
  · intro u u' v
    exact Finsupp.sum_add_index' (by simp) (by intros; ring)
  · intro c u v
    rw [Finsupp.sum_smul_index (by simp), smul_eq_mul, Finsupp.mul_sum]
    exact Finsupp.sum_congr fun i _ => by ring
  · intro u v v'
    simp only [Finsupp.add_apply, mul_add]
    exact Finsupp.sum_add
  · intro c u v
    simp only [Finsupp.smul_apply, smul_eq_mul]
    rw [Finsupp.mul_sum]
    exact Finsupp.sum_congr fun i _ => by ring
  · intro u v
    simp only [LinearMap.mk₂_apply]
    rw [Finsupp.sum_of_support_subset u (s := u.support ∪ v.support) Finset.subset_union_left _ (by simp),
      Finsupp.sum_of_support_subset v (s := u.support ∪ v.support) Finset.subset_union_right _ (by simp)]
    exact Finset.sum_congr rfl fun i _ => mul_comm _ _
  · intro t
    ext i
    simp [applyMat]
  · intro t
    ext i j
    fin_cases i
    fin_cases j
    simp [covMat]
  · intro s t hst
    ext i j
    simp [covMat, Finsupp.single_apply, hst.ne]

-- the options of the positive theorems are accepted
example : DescribesQ ![['a'], ['b']] { stdDict := some [(['b'], 2), (['a'], 3)] } !![9, 0; 0, 4] := by
  right; left
  refine ⟨_, rfl, by decide, ![3, 2], ?_, ?_⟩
  · intro i
    fin_cases i <;> simp [dget]
  · intro i j
    fin_cases i <;> fin_cases j <;> norm_num

example : checkGivenSteadyState ([0, 1].map some) = .error [1] := by
  have h := C65_given_steady_state_partial [0, 1]
  have hb : ¬ checkGivenSteadyState ([(0 : ℝ), 1].map some) = .ok () := by
    rw [h.1]
    intro hh
    have := hh 1 (by simp)
    norm_num at this
  cases hc : checkGivenSteadyState ([(0 : ℝ), 1].map some) with
  | ok u => exact absurd hc hb
  | error bad =>
    unfold checkGivenSteadyState at hc
    simp [unsatisfied, List.range_succ] at hc
    norm_num at hc
    rw [hc]

end GE
