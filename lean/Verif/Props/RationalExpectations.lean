import Verif.Props.GensysExample
import Verif.Props.SolveModel
import Verif.Props.Statistics
import Mathlib.LinearAlgebra.Finsupp.LinearCombination
/-! # C138: the solution of `solve_model` is the model's only stable rational-expectations equilibrium, and the reported moments are its moments -/

open Matrix Filter Topology

namespace GE

/-! ## specification -/

section Spec
variable {H : Type} [AddCommGroup H] [Module ℝ H] {n k : ℕ}

/-- mean-zero random variables (the elements of `H`, equal when their difference is uncorrelated with everything) with their covariance `E`, and
the conditional expectations `know t` given what is known at date `t`: known things stay known, and expectations are projections -/
structure Expectations (E : H →ₗ[ℝ] H →ₗ[ℝ] ℝ) (know : ℕ → H →ₗ[ℝ] H) : Prop where
  symm : ∀ u v, E u v = E v u
  sure : ∀ u, (∀ v, E u v = 0) → u = 0
  tower : ∀ s t, s ≤ t → ∀ u, know s (know t u) = know s u
  memory : ∀ s t, s ≤ t → ∀ u, know t (know s u) = know s u
  projection : ∀ t u v, E (know t u) v = E u (know t v)

/-- shocks: known when they hit, unforeseeable before, with covariance `Q` -/
structure Innovations (E : H →ₗ[ℝ] H →ₗ[ℝ] ℝ) (know : ℕ → H →ₗ[ℝ] H) (Q : Mat k k) (e : ℕ → Fin k → H) : Prop where
  known : ∀ t i, know t (e t i) = e t i
  unforeseen : ∀ t i, know t (e (t + 1) i) = 0
  variance : ∀ t, covMat E (e t) (e t) = Q

/-- a rational-expectations equilibrium of the linearised model that does not explode: `A x(t-1) + B x(t) + C E_t x(t+1) + D e(t) = 0` at every date,
`x(t)` is known at date `t`, and at every date the expectation of the far future vanishes -/
structure Equilibrium (E : H →ₗ[ℝ] H →ₗ[ℝ] ℝ) (know : ℕ → H →ₗ[ℝ] H) (A B C : Mat n n) (D : Mat n k) (x : ℕ → Fin n → H) (e : ℕ → Fin k → H) :
    Prop where
  known : ∀ t i, know t (x t i) = x t i
  holds : ∀ t, applyMat A (x t) + applyMat B (x (t + 1)) + applyMat C (fun i => know (t + 1) (x (t + 2) i)) + applyMat D (e (t + 1)) = 0
  stable : ∀ t i v, Tendsto (fun h => E (know t (x (t + h) i)) v) atTop (𝓝 0)

end Spec

namespace REx

variable {H : Type} [AddCommGroup H] [Module ℝ H] {n k : ℕ} {E : H →ₗ[ℝ] H →ₗ[ℝ] ℝ} {know : ℕ → H →ₗ[ℝ] H}

/-- pairing a vector of random variables with one random variable -/
def pair (E : H →ₗ[ℝ] H →ₗ[ℝ] ℝ) {a : ℕ} (X : Fin a → H) (v : H) : Fin a → ℝ := fun i => E (X i) v

theorem pair_apply {a b : ℕ} (M : Mat a b) (X : Fin b → H) (v : H) : pair E (applyMat M X) v = M *ᵥ pair E X v := by
  funext i
  simp [pair, applyMat, mulVec, dotProduct, map_sum]

theorem pair_add {a : ℕ} (X Y : Fin a → H) (v : H) : pair E (X + Y) v = pair E X v + pair E Y v := by
  funext i; simp [pair]

theorem know_apply {a b : ℕ} (K : H →ₗ[ℝ] H) (M : Mat a b) (X : Fin b → H) : (fun i => K (applyMat M X i)) = applyMat M (fun i => K (X i)) := by
  funext i
  simp [applyMat, map_sum]

theorem ext_pair {a : ℕ} (hE : Expectations E know) {X Y : Fin a → H} (h : ∀ v, pair E X v = pair E Y v) : X = Y := by
  funext i
  refine sub_eq_zero.1 (hE.sure _ fun v => ?_)
  have := congrFun (h v) i
  simp only [pair] at this
  simp [this]

theorem unforeseen (hE : Expectations E know) {Q : Mat k k} {e : ℕ → Fin k → H} (he : Innovations E know Q e) (t s : ℕ) (h : t < s) (i : Fin k) :
    know t (e s i) = 0 := by
  obtain ⟨s, rfl⟩ : ∃ m, s = m + 1 := ⟨s - 1, by omega⟩
  rw [← hE.tower t s (by omega), he.unforeseen, map_zero]

end REx
open REx

variable {H : Type} [AddCommGroup H] [Module ℝ H] {n k : ℕ} {E : H →ₗ[ℝ] H →ₗ[ℝ] ℝ} {know : ℕ → H →ₗ[ℝ] H}
  {A B C : Mat n n} {D : Mat n k} {tol : ℝ}

/-- **C138**: what gensys returns is the model's only equilibrium. When it returns `T` and `R`, a process, with given initial values, is a
rational-expectations equilibrium of the linearised model that does not explode if and only if it moves by `x(t) = T x(t-1) + R e(t)`, whatever
the shocks are -/
theorem C138_equilibrium (h0 : 0 < tol) (hC : CleanLeads C tol) (o : GensysOracle A B C tol) {T : Mat n n} {R : Mat n k} {f : Bool}
    (h : modelSolveGensys D o f = .solved T R) (hE : Expectations E know) {Q : Mat k k} {e : ℕ → Fin k → H} (he : Innovations E know Q e)
    (x : ℕ → Fin n → H) :
    Equilibrium E know A B C D x e ↔ (∀ i, know 0 (x 0 i) = x 0 i) ∧ ∀ t, x (t + 1) = applyMat T (x t) + applyMat R (e (t + 1)) := by
  obtain ⟨hq, hr, -, hv⟩ := C68_solution h0 hC h
  have hqv : ∀ z, A *ᵥ z + B *ᵥ (T *ᵥ z) + C *ᵥ (T *ᵥ (T *ᵥ z)) = 0 := fun z => by
    have := congrArg (· *ᵥ z) (show A + B * T + C * T * T = 0 from hq)
    simp only [add_mulVec, zero_mulVec] at this
    simpa only [mulVec_mulVec, Matrix.mul_assoc] using this
  have hrv : ∀ z, B *ᵥ (R *ᵥ z) + C *ᵥ (T *ᵥ (R *ᵥ z)) + D *ᵥ z = 0 := fun z => by
    have := congrArg (· *ᵥ z) hr
    simp only [add_mulVec, zero_mulVec] at this
    simpa only [mulVec_mulVec, Matrix.mul_assoc] using this
  constructor
  · intro hx
    refine ⟨hx.known 0, fun t => ext_pair hE fun v => ?_⟩
    obtain ⟨hz, hr', hl, hT, -⟩ := Gen.solved_data h
    have hT' : T = Gen.Treal o := hT
    -- the expected path from date `s` on
    have path : ∀ s, VanishingPath A B C (fun m => pair E (fun i => know s (x (s + m) i)) v) := by
      intro s
      refine ⟨fun m => ?_, tendsto_pi_nhds.2 fun i => hx.stable s i v⟩
      have h1 := hx.holds (s + m)
      have h2 : (fun i => know s ((applyMat A (x (s + m)) + applyMat B (x (s + m + 1)) + applyMat C (fun i => know (s + m + 1) (x (s + m + 2) i)) +
          applyMat D (e (s + m + 1))) i)) = 0 := by rw [h1]; funext i; exact map_zero _
      have h3 : applyMat A (fun i => know s (x (s + m) i)) + applyMat B (fun i => know s (x (s + m + 1) i)) +
          applyMat C (fun i => know s (x (s + m + 2) i)) + applyMat D (fun i => know s (e (s + m + 1) i)) = 0 := by
        have : applyMat C (fun i => know s (x (s + m + 2) i)) = fun i => know s (applyMat C (fun i => know (s + m + 1) (x (s + m + 2) i)) i) := by
          rw [know_apply]
          congr 1
          funext i
          rw [hE.tower s _ (by omega)]
        rw [this, ← know_apply (know s) A, ← know_apply (know s) B, ← know_apply (know s) D, ← h2]
        funext i
        simp [map_add]
      have h4 : (fun i => know s (e (s + m + 1) i)) = 0 := by funext i; exact unforeseen hE he s _ (by omega) i
      have h5 := congrArg (fun X => pair E X v) h3
      simp only [pair_add, pair_apply, h4] at h5
      have h6 : pair E (0 : Fin k → H) v = 0 := by funext i; simp [pair]
      have h7 : pair E (0 : Fin n → H) v = 0 := by funext i; simp [pair]
      rw [h6, mulVec_zero, add_zero, h7] at h5
      exact h5
    have expect : pair E (fun i => know (t + 1) (x (t + 2) i)) v = T *ᵥ pair E (x (t + 1)) v := by
      have hp := path (t + 1)
      have h2 : (fun i => know (t + 1) (x (t + 1 + 0) i)) = x (t + 1) := by funext i; exact hx.known _ _
      have hu := (Gen.unique_iff hC hz h0).1 hl _ _ hp (Gen.T_path hC hz h0 hr' hl (pair E (x (t + 1)) v)) (by
        simp only [h2, pow_zero, one_mulVec])
      have h1 := congrFun hu 1
      simp only [pow_one, ← hT'] at h1
      exact h1
    have h1 := congrArg (fun X => pair E X v) (hx.holds t)
    simp only [pair_add, pair_apply, expect] at h1
    have h7 : pair E (0 : Fin n → H) v = 0 := by funext i; simp [pair]
    rw [h7] at h1
    rw [pair_add, pair_apply, pair_apply]
    refine sub_eq_zero.1 (Gen.inj_BCT (o := o) hC hz h0 hr' hl _ ?_)
    rw [← hT']
    have h2 := hqv (pair E (x t) v)
    have h3 := hrv (pair E (e (t + 1)) v)
    rw [mulVec_sub, mulVec_sub, mulVec_sub, mulVec_add, mulVec_add, mulVec_add]
    have h4 : ∀ a b c d p q r s u : Fin n → ℝ, a + b + c + d = 0 → a + p + q = 0 → r + s + d = 0 → b - (p + r) + (c - (q + s)) = 0 := by
      intro a b c d p q r s u h1 h2 h3
      have : b - (p + r) + (c - (q + s)) = (a + b + c + d) - (a + p + q) - (r + s + d) := by abel
      rw [this, h1, h2, h3]; simp
    exact h4 _ _ _ _ _ _ _ _ 0 h1 h2 h3
  · rintro ⟨hk, hstep⟩
    have known : ∀ t i, know t (x t i) = x t i := by
      intro t
      induction t with
      | zero => exact hk
      | succ t ih =>
        intro i
        have hxt : ∀ j, know (t + 1) (x t j) = x t j := fun j => by
          have := hE.memory t (t + 1) (by omega) (x t j)
          rwa [ih j] at this
        have h1 : (fun i => know (t + 1) (x (t + 1) i)) = x (t + 1) := by
          rw [hstep t]
          have : (fun i => know (t + 1) ((applyMat T (x t) + applyMat R (e (t + 1))) i)) =
              (fun i => know (t + 1) (applyMat T (x t) i)) + fun i => know (t + 1) (applyMat R (e (t + 1)) i) := by
            funext i; simp [map_add]
          rw [this, know_apply, know_apply]
          congr 2
          · funext j; exact hxt j
          · funext j; exact he.known _ j
        exact congrFun h1 i
    have ahead : ∀ s m, pair E (fun i => know s (x (s + m) i)) = fun v => (T ^ m) *ᵥ pair E (x s) v := by
      intro s m
      funext v
      induction m with
      | zero =>
        have : (fun i => know s (x (s + 0) i)) = x s := by funext i; exact known s i
        rw [this]; simp
      | succ m ih =>
        have h1 : (fun i => know s (x (s + (m + 1)) i)) = applyMat T (fun i => know s (x (s + m) i)) := by
          rw [← Nat.add_assoc, hstep]
          have : (fun i => know s ((applyMat T (x (s + m)) + applyMat R (e (s + m + 1))) i)) =
              (fun i => know s (applyMat T (x (s + m)) i)) + fun i => know s (applyMat R (e (s + m + 1)) i) := by
            funext i; simp [map_add]
          rw [this, know_apply, know_apply]
          have h4 : (fun i => know s (e (s + m + 1) i)) = 0 := by funext i; exact unforeseen hE he s _ (by omega) i
          rw [h4]
          have : applyMat R (0 : Fin k → H) = 0 := by funext i; simp [applyMat]
          rw [this, add_zero]
        rw [h1, pair_apply, ih, mulVec_mulVec, pow_succ']
    refine ⟨known, fun t => ext_pair hE fun v => ?_, fun t i v => ?_⟩
    · have h1 := congrFun (ahead (t + 1) 1) v
      rw [pow_one] at h1
      simp only [pair_add, pair_apply]
      rw [show t + 2 = t + 1 + 1 from rfl, h1, hstep t]
      simp only [pair_add, pair_apply]
      have h2 := hqv (pair E (x t) v)
      have h3 := hrv (pair E (e (t + 1)) v)
      have h7 : pair E (0 : Fin n → H) v = 0 := by funext i; simp [pair]
      rw [h7]
      simp only [mulVec_add]
      have : ∀ a p q r s d : Fin n → ℝ, a + p + q = 0 → r + s + d = 0 → a + (p + r) + (q + s) + d = 0 := by
        intro a p q r s d h1 h2
        have : a + (p + r) + (q + s) + d = (a + p + q) + (r + s + d) := by abel
        rw [this, h1, h2, add_zero]
      exact this _ _ _ _ _ _ h2 h3
    · have h1 := tendsto_pi_nhds.1 (hv (pair E (x t) v)) i
      have : (fun m => E (know t (x (t + m) i)) v) = fun m => ((T ^ m) *ᵥ pair E (x t) v) i := by
        funext m
        exact congrFun (congrFun (ahead t m) v) i
      rw [this]
      simpa using h1

/-- **C138**: `stationary_covariance_matrix` and `autocovariance_matrix` report the moments of that equilibrium. For the solution of gensys and the
covariance of the shocks the caller's options describe, the returned covariance matrix is the only one that reproduces itself, the covariance of
every equilibrium tends to it whatever the initial values, and the covariances of `x(t+l)` with `x(t)` tend to the returned matrix for lag `l` -/
theorem C138_moments (h0 : 0 < tol) (hC : CleanLeads C tol) (o : GensysOracle A B C tol) {T : Mat n n} {R : Mat n k} {f : Bool}
    (h : modelSolveGensys D o f = .solved T R) (hE : Expectations E know) {Q : Mat k k} {e : ℕ → Fin k → H} (he : Innovations E know Q e)
    (x : ℕ → Fin n → H) (hx : Equilibrium E know A B C D x e)
    (lyap : Mat n n → Mat n n → Option (Mat n n)) (hlyap : LyapSpec lyap) (names : Fin k → Str) (hinj : Function.Injective names)
    (opt : ShockOptions) (hd : ∀ d, opt.stdDict = some d → (dkeys d).Nodup) (hQ : DescribesQ names opt Q)
    (S : Mat n n) (hS : stationaryCov lyap names T R opt = .ok S) :
    Tendsto (fun t => covMat E (x t) (x t)) atTop (𝓝 S) ∧
    (∀ S', S' = T * S' * Tᵀ + R * Q * Rᵀ → S' = S) ∧
    (covMat E (x 0) (x 0) = S → ∀ t, covMat E (x t) (x t) = S) ∧
    ∀ l, Tendsto (fun t => covMat E (x (t + l)) (x t)) atTop (𝓝 (T ^ l * S)) ∧
      ∀ nLags L, opt.stdDict = none → autocovarianceMatrix lyap names T R opt nLags false = .ok L → l < nLags → L[l]? = some (T ^ l * S) := by
  obtain ⟨-, hstep⟩ := (C138_equilibrium h0 hC o h hE he x).1 hx
  obtain ⟨-, -, -, hv⟩ := C68_solution h0 hC h
  have hT : Tendsto (fun t : ℕ => T ^ t) atTop (𝓝 0) := by
    refine tendsto_pi_nhds.2 fun i => tendsto_pi_nhds.2 fun j => ?_
    have := tendsto_pi_nhds.1 (hv (Pi.single j 1)) i
    simpa using this
  have hp : LinearProcess E T R Q x e := by
    refine ⟨hE.symm, hstep, he.variance, fun s t hst => ?_⟩
    ext i j
    show E (e s i) (x t j) = 0
    rw [← hx.known t j, ← hE.projection, unforeseen hE he t s hst, map_zero, LinearMap.zero_apply]
  obtain ⟨Q', hQ', hfix, hst⟩ := C47_stationary lyap hlyap names hinj T R opt hd S hS
  have hQQ : Q' = Q := by
    have h1 := (C47_Q names hinj opt hd Q').2 hQ'
    have h2 := (C47_Q names hinj opt hd Q).2 hQ
    exact Except.ok.inj (h1.symm.trans h2)
  subst hQQ
  have hgap : ∀ t, covMat E (x t) (x t) = S + T ^ t * (covMat E (x 0) (x 0) - S) * (T ^ t)ᵀ := by
    intro t
    induction t with
    | zero => simp
    | succ t ih =>
      rw [Stat.cov_step hp, ih]
      have e1 : ∀ X, T ^ (t + 1) * X * (T ^ (t + 1))ᵀ = T * (T ^ t * X * (T ^ t)ᵀ) * Tᵀ := by
        intro X
        rw [pow_succ', Matrix.transpose_mul]
        simp only [Matrix.mul_assoc]
      rw [e1, Matrix.mul_add, Matrix.add_mul]
      generalize T * (T ^ t * (covMat E (x 0) (x 0) - S) * (T ^ t)ᵀ) * Tᵀ = G
      conv_rhs => rw [hfix]
      abel
  have hlim : Tendsto (fun t => covMat E (x t) (x t)) atTop (𝓝 S) := by
    have hc : Continuous fun M : Mat n n => S + M * (covMat E (x 0) (x 0) - S) * Mᵀ := by fun_prop
    have h1 := (hc.tendsto 0).comp hT
    simp only [Matrix.zero_mul, add_zero] at h1
    exact h1.congr fun t => (hgap t).symm
  refine ⟨hlim, (C47_limit T R Q' S hfix hT).1, hst H E x e hp, fun l => ⟨?_, ?_⟩⟩
  · have hc : Continuous fun M : Mat n n => T ^ l * M := by fun_prop
    exact ((hc.tendsto S).comp hlim).congr fun t => (Stat.cov_lag hp t l).symm
  · intro nLags L hn hL hl
    have hoe : { opt with stdDict := none } = opt := by
      obtain ⟨a, b, c⟩ := opt
      simp only at hn
      subst hn
      rfl
    unfold autocovarianceMatrix at hL
    rw [hoe, hS] at hL
    simp only [Except.ok.injEq] at hL
    subst hL
    simp only [computeAutocov, List.getElem?_map, List.getElem?_range hl, Option.map_some, Option.some.injEq]
    ext i j
    simp

/-- **C138**: the same for `solve_model` with `solver="gensys"`: when it returns `T` and `R`, the stable rational-expectations equilibria of the
linearised model are exactly the processes they describe -/
theorem C138_solve_model {n k : ℕ} {S : Type} (steady : Option (S × Bool)) (linearize : S → Option (LinMats n k)) (tol : ℝ) (gen : GenOracle n tol)
    (maxIter : ℕ) (onFailure : Str) (T : Mat n n) (R : Mat n k) (htol : 0 < tol) (hclean : ∀ ss m, linearize ss = some m → CleanLeads m.C tol)
    (h : solveModel steady linearize tol gen maxIter false "gensys".toList onFailure = .ok (some (T, R))) :
    ∃ ss b m, steady = some (ss, b) ∧ linearize ss = some m ∧
      ∀ {H : Type} [AddCommGroup H] [Module ℝ H] (E : H →ₗ[ℝ] H →ₗ[ℝ] ℝ) (know : ℕ → H →ₗ[ℝ] H) (Q : Mat k k) (e : ℕ → Fin k → H) (x : ℕ → Fin n → H),
        Expectations E know → Innovations E know Q e →
        (Equilibrium E know m.A m.B m.C m.D x e ↔ (∀ i, know 0 (x 0 i) = x 0 i) ∧ ∀ t, x (t + 1) = applyMat T (x t) + applyMat R (e (t + 1))) := by
  obtain ⟨-, ss, b, m, hs, hl, hr⟩ := SlvM.inv h
  refine ⟨ss, b, m, hs, hl, ?_⟩
  intro H _ _ E know Q e x hE he
  rcases SlvM.sol_cases hr with ⟨hb, -⟩ | ⟨-, -, o, -, ⟨T', R', hm, hTR⟩ | ⟨-, h0⟩⟩ | ⟨-, hsol, -⟩
  · cases hb
  · cases hTR
    exact C138_equilibrium htol (hclean ss m hl) o hm hE he x
  · cases h0
  · exact absurd hsol (by decide)

/-! ## the hypotheses are met -/

namespace REx

/-- finite combinations of independent unit shocks, one per date -/
abbrev Sp := ℕ →₀ ℝ

noncomputable def dotE : Sp →ₗ[ℝ] Sp →ₗ[ℝ] ℝ :=
  LinearMap.mk₂ ℝ (fun u v => u.sum fun i a => a * v i)
    (fun _ _ _ => Finsupp.sum_add_index' (by simp) (by intros; ring))
    (fun c u v => by
      rw [Finsupp.sum_smul_index (by simp), smul_eq_mul, Finsupp.mul_sum]
      exact Finsupp.sum_congr fun i _ => by ring)
    (fun u v v' => by
      simp only [Finsupp.add_apply, mul_add]
      exact Finsupp.sum_add)
    (fun c u v => by
      simp only [Finsupp.smul_apply, smul_eq_mul]
      rw [Finsupp.mul_sum]
      exact Finsupp.sum_congr fun i _ => by ring)

theorem dotE_single (u : Sp) (i : ℕ) (a : ℝ) : dotE u (Finsupp.single i a) = u i * a := by
  simp only [dotE, LinearMap.mk₂_apply]
  rw [Finsupp.sum_of_support_subset u (s := insert i u.support) (Finset.subset_insert _ _) _ (by simp)]
  rw [Finset.sum_eq_single i]
  · simp
  · intro b _ hb; simp [Finsupp.single_apply, Ne.symm hb]
  · simp

theorem dotE_symm (u v : Sp) : dotE u v = dotE v u := by
  simp only [dotE, LinearMap.mk₂_apply]
  rw [Finsupp.sum_of_support_subset u (s := u.support ∪ v.support) Finset.subset_union_left _ (by simp),
    Finsupp.sum_of_support_subset v (s := u.support ∪ v.support) Finset.subset_union_right _ (by simp)]
  exact Finset.sum_congr rfl fun i _ => mul_comm _ _

/-- the shocks up to date `t` are known -/
noncomputable def upTo (t : ℕ) : Sp →ₗ[ℝ] Sp where
  toFun u := u.filter (· ≤ t)
  map_add' u v := Finsupp.filter_add
  map_smul' c u := Finsupp.filter_smul

theorem upTo_apply (t : ℕ) (u : Sp) (i : ℕ) : upTo t u i = if i ≤ t then u i else 0 := by
  simp [upTo, Finsupp.filter_apply]

theorem expectations : Expectations dotE upTo where
  symm := dotE_symm
  sure u h := by
    ext i
    have := h (Finsupp.single i 1)
    rwa [dotE_single, mul_one] at this
  tower s t hst u := by
    ext i
    simp only [upTo_apply]
    by_cases h : i ≤ s
    · rw [if_pos h, if_pos (le_trans h hst), if_pos h]
    · rw [if_neg h, if_neg h]
  memory s t hst u := by
    ext i
    simp only [upTo_apply]
    by_cases h : i ≤ s
    · rw [if_pos (le_trans h hst), if_pos h]
    · rw [if_neg h, ite_self]
  projection t u v := by
    simp only [dotE, LinearMap.mk₂_apply]
    rw [Finsupp.sum_of_support_subset (upTo t u) (s := u.support) (Finset.filter_subset _ _) _ (by simp), Finsupp.sum]
    refine Finset.sum_congr rfl fun i _ => ?_
    rw [upTo_apply, upTo_apply]
    by_cases h : i ≤ t
    · rw [if_pos h, if_pos h]
    · rw [if_neg h, if_neg h]; ring

noncomputable def shock (t : ℕ) : Fin 1 → Sp := fun _ => Finsupp.single t 1

theorem innovations : Innovations dotE upTo (!![1] : Mat 1 1) shock where
  known t i := by
    ext j
    rw [upTo_apply]
    by_cases h : j ≤ t
    · rw [if_pos h]
    · rw [if_neg h]; simp [shock, show t ≠ j by omega]
  unforeseen t i := by
    ext j
    rw [upTo_apply]
    by_cases h : j ≤ t
    · rw [if_pos h]; simp [shock, show t + 1 ≠ j by omega]
    · rw [if_neg h]; rfl
  variance t := by
    ext i j
    fin_cases i; fin_cases j
    simp [covMat, shock, dotE_single]

/-- the process the solution describes, from the steady state -/
noncomputable def from0 (T R : Mat 1 1) : ℕ → Fin 1 → Sp
  | 0 => 0
  | t + 1 => applyMat T (from0 T R t) + applyMat R (shock (t + 1))

end REx

namespace REx

open Classical in
/-- a solver of the Lyapunov equation in one variable -/
noncomputable def lyap1 (A Q : Mat 1 1) : Option (Mat 1 1) :=
  if A 0 0 ^ 2 = 1 then none else some fun _ _ => Q 0 0 / (1 - A 0 0 ^ 2)

theorem lyap1_spec : LyapSpec lyap1 := by
  intro A Q X h
  unfold lyap1 at h
  split at h
  · cases h
  · rename_i h1
    cases h
    have h2 : 1 - A 0 0 ^ 2 ≠ 0 := fun h => h1 (by linarith)
    ext i j
    fin_cases i; fin_cases j
    have key : ∀ X : Mat 1 1, X 0 0 = Q 0 0 / (1 - A 0 0 ^ 2) → (A * X * Aᵀ - X + Q) 0 0 = 0 := by
      intro X hX
      simp [Matrix.mul_apply, hX]
      field_simp
      ring
    exact key _ rfl

end REx

open GenEx in
/-- `x(t-1) - 11/6 x(t) + 2/3 E_t x(t+1) + e(t) = 0`: gensys solves it, an equilibrium exists from the steady state, and the reported
variance is 9/7 -/
example : ∃ T R S, modelSolveGensys eD eO true = .solved T R ∧ Equilibrium dotE upTo eA eB eC eD (from0 T R) shock ∧
    stationaryCov lyap1 (fun _ => "e".toList) T R { std := some (.scalar 1) } = .ok S ∧ S 0 0 = 9 / 7 ∧
    DescribesQ (fun _ : Fin 1 => "e".toList) { std := some (.scalar 1) } !![1] := by
  obtain ⟨T, R, h, hT, hR⟩ := GenEx.solved
  have h0 : 0 < eTol := by norm_num [eTol]
  have hQ : DescribesQ (fun _ : Fin 1 => "e".toList) { std := some (.scalar 1) } !![1] := by
    refine .inr (.inr (.inl ⟨1, rfl, by norm_num, fun i j => ?_⟩))
    fin_cases i; fin_cases j
    simp
  have hq := (C47_Q (fun _ : Fin 1 => "e".toList) (fun _ _ _ => Subsingleton.elim _ _) { std := some (.scalar 1) } (by simp) !![1]).2 hQ
  refine ⟨T, R, fun _ _ => 9 / 7, h, (C138_equilibrium h0 eClean eO h expectations innovations _).2 ⟨fun i => map_zero _, fun t => rfl⟩, ?_, rfl, hQ⟩
  unfold stationaryCov
  have hv : validateShockOptions { std := some (.scalar 1) } (List.ofFn fun _ : Fin 1 => "e".toList) = .ok () := by
    simp [validateShockOptions, ShockOptions.nProvided, validateCov, validateDict, validateStd]
  rw [hv, hq]
  have e1 : (R * !![1] * Rᵀ : Mat 1 1) 0 0 = 9 / 16 := by
    simp [Matrix.mul_apply, hR]; norm_num
  have e2 : lyap1 T (R * !![1] * Rᵀ) = some fun _ _ => 9 / 7 := by
    unfold lyap1
    rw [if_neg (by rw [hT]; norm_num), e1, hT]
    congr 1
    funext i j
    norm_num
  simp only [e2]

end GE
