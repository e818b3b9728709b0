import Verif.Props.Statistics
import Verif.Props.Simulate
import Verif.Props.RationalExpectations
import Mathlib.Algebra.QuadraticDiscriminant
/-! # C143: the reported moments are moments, and impulse responses account for them -/

open Matrix Filter Topology

namespace GE

/-! ## specification -/

/-- the transition matrix is stable: whatever the deviation today, it vanishes -/
def VanishesUnder {n : ℕ} (T : Mat n n) : Prop := Tendsto (fun t : ℕ => T ^ t) atTop (𝓝 0)

/-- a covariance matrix given by the user is one: symmetric, and no combination of the shocks has a negative variance -/
def GivenCovariance {k : ℕ} (o : ShockOptions) : Prop :=
  ∀ C : Mat k k, o.cov = some ⟨k, k, C⟩ → Cᵀ = C ∧ ∀ v : Fin k → ℝ, 0 ≤ v ⬝ᵥ C *ᵥ v

/-- the same standard deviations, as `impulse_response_function(shock_size=...)` and as `stationary_covariance_matrix` take them -/
def SameSizes : ShockSize → ShockOptions → Prop
  | .scalar r, o => o = { std := some (.scalar r) }
  | .arr l, o => o = { std := some (.ndarray l) }
  | .dict d, o => o = { stdDict := some d }

namespace Mom

variable {n k : ℕ}

theorem q_good {names : Fin k → Str} {o : ShockOptions} {Q : Mat k k} (h : DescribesQ names o Q) (hc : GivenCovariance (k := k) o) :
    Qᵀ = Q ∧ ∀ v : Fin k → ℝ, 0 ≤ v ⬝ᵥ Q *ᵥ v := by
  have diag : ∀ w : Fin k → ℝ, (∀ i j, Q i j = if i = j then w i ^ 2 else 0) → Qᵀ = Q ∧ ∀ v : Fin k → ℝ, 0 ≤ v ⬝ᵥ Q *ᵥ v := by
    intro w hw
    have hQ : Q = diagonal fun i => w i ^ 2 := by
      ext i j
      rw [hw, diagonal_apply]
    subst hQ
    refine ⟨diagonal_transpose _, fun v => ?_⟩
    simp only [dotProduct, mulVec_diagonal]
    exact Finset.sum_nonneg fun i _ => by nlinarith [sq_nonneg (v i * w i)]
  rcases h with ⟨C, ho, rfl⟩ | ⟨d, -, -, v, -, hv⟩ | ⟨r, -, -, hr⟩ | ⟨l, -, -, -, hl⟩
  · exact hc Q (by rw [ho])
  · exact diag v hv
  · exact diag (fun _ => r) hr
  · exact diag (fun i => l.getD i 0) hl

/-- the Cauchy-Schwarz inequality for a covariance matrix -/
theorem cauchy {S : Mat n n} (hs : Sᵀ = S) (hp : ∀ v : Fin n → ℝ, 0 ≤ v ⬝ᵥ S *ᵥ v) (x y : Fin n → ℝ) :
    (x ⬝ᵥ S *ᵥ y) ^ 2 ≤ (x ⬝ᵥ S *ᵥ x) * (y ⬝ᵥ S *ᵥ y) := by
  have hxy : y ⬝ᵥ S *ᵥ x = x ⬝ᵥ S *ᵥ y := by
    rw [dotProduct_mulVec, ← mulVec_transpose, hs, dotProduct_comm]
  have hq : ∀ r : ℝ, 0 ≤ (y ⬝ᵥ S *ᵥ y) * (r * r) + (2 * (x ⬝ᵥ S *ᵥ y)) * r + x ⬝ᵥ S *ᵥ x := by
    intro r
    have := hp (x + r • y)
    simp only [mulVec_add, mulVec_smul, dotProduct_add, add_dotProduct, smul_dotProduct, dotProduct_smul, smul_eq_mul, hxy] at this
    linarith
  have hd := discrim_le_zero hq
  rw [discrim] at hd
  linarith

theorem entry (M : Mat n n) (i j : Fin n) : M i j = (Pi.single i 1 : Fin n → ℝ) ⬝ᵥ M *ᵥ Pi.single j 1 := by
  simp

theorem row_entry (M S : Mat n n) (i j : Fin n) : (M * S) i j = M i ⬝ᵥ S *ᵥ Pi.single j 1 := by
  rw [mul_apply']
  simp [mulVec_single, dotProduct, Matrix.col_apply]

theorem quad_entry (M S : Mat n n) (i : Fin n) : (M * S * Mᵀ) i i = M i ⬝ᵥ S *ᵥ M i := by
  rw [Matrix.mul_assoc, mul_apply']
  congr 1

/-- the covariance between a variable and the value of another `l` periods earlier is at most the product of their standard deviations -/
theorem lag_bound {T : Mat n n} {R : Mat n k} {Q : Mat k k} {S : Mat n n} (h : S = T * S * Tᵀ + R * Q * Rᵀ)
    (hs : Sᵀ = S) (hp : ∀ v : Fin n → ℝ, 0 ≤ v ⬝ᵥ S *ᵥ v) (hc : ∀ t, ∀ v : Fin n → ℝ, 0 ≤ v ⬝ᵥ covAfter T R Q t *ᵥ v) (l : ℕ) (i j : Fin n) :
    ((T ^ l * S) i j) ^ 2 ≤ S i i * S j j := by
  have h1 := cauchy hs hp ((T ^ l) i) (Pi.single j 1)
  rw [← row_entry, ← entry] at h1
  have h2 : (T ^ l * S * (T ^ l)ᵀ) i i ≤ S i i := by
    have := hc l (Pi.single i 1)
    rw [← entry, Stat.gap T R Q S h l, Matrix.sub_apply] at this
    linarith
  rw [quad_entry] at h2
  have h3 : 0 ≤ S j j := by rw [entry S]; exact hp _
  nlinarith

theorem covAfter_nonneg (T : Mat n n) (R : Mat n k) {Q : Mat k k} (hQ : ∀ v : Fin k → ℝ, 0 ≤ v ⬝ᵥ Q *ᵥ v) (t : ℕ) :
    ∀ v : Fin n → ℝ, 0 ≤ v ⬝ᵥ covAfter T R Q t *ᵥ v := by
  have quad : ∀ {p q : ℕ} (M : Mat p q) (P : Mat q q) (w : Fin p → ℝ), w ⬝ᵥ (M * P * Mᵀ) *ᵥ w = (Mᵀ *ᵥ w) ⬝ᵥ P *ᵥ (Mᵀ *ᵥ w) := by
    intro p q M P w
    rw [← Matrix.mulVec_mulVec, ← Matrix.mulVec_mulVec, Matrix.dotProduct_mulVec, ← Matrix.mulVec_transpose]
  induction t with
  | zero => intro w; simp [covAfter]
  | succ t ih =>
    intro w
    rw [covAfter, Matrix.add_mulVec, dotProduct_add, quad, quad]
    exact add_nonneg (ih _) (hQ _)

/-- the covariance after `t` periods adds up the squared responses -/
theorem covAfter_sum (T : Mat n n) (R : Mat n k) (Q : Mat k k) (t : ℕ) :
    covAfter T R Q t = ∑ u ∈ Finset.range t, T ^ u * R * Q * (T ^ u * R)ᵀ := by
  induction t with
  | zero => simp [covAfter]
  | succ t ih =>
    rw [covAfter, ih, Finset.sum_range_succ', Matrix.mul_sum, Matrix.sum_mul]
    congr 1
    · refine Finset.sum_congr rfl fun u _ => ?_
      rw [pow_succ']
      simp only [transpose_mul, Matrix.mul_assoc]
    · simp

end Mom

/-- **C143** in a stable model the reported covariance matrix is one: symmetric, no variance is negative, and no covariance exceeds the product of
the standard deviations -/
theorem C143_covariance {n k : ℕ} (lyap : Mat n n → Mat n n → Option (Mat n n)) (hlyap : LyapSpec lyap) (names : Fin k → Str)
    (hinj : Function.Injective names) (T : Mat n n) (R : Mat n k) (hT : VanishesUnder T) (o : ShockOptions)
    (hd : ∀ d, o.stdDict = some d → (dkeys d).Nodup) (hc : GivenCovariance (k := k) o)
    (S : Mat n n) (h : stationaryCov lyap names T R o = .ok S) :
    (∀ i j, S i j = S j i) ∧ (∀ i, 0 ≤ S i i) ∧ (∀ v : Fin n → ℝ, 0 ≤ v ⬝ᵥ S *ᵥ v) ∧ ∀ i j, |S i j| ≤ √(S i i) * √(S j j) := by
  obtain ⟨Q, hQ, hfix, -⟩ := C47_stationary lyap hlyap names hinj T R o hd S h
  obtain ⟨q1, q2⟩ := Mom.q_good hQ hc
  obtain ⟨-, -, h1, h2⟩ := C47_limit T R Q S hfix hT
  have hs := h1 q1
  have hp := h2 q2
  have hn : ∀ i, 0 ≤ S i i := fun i => by rw [Mom.entry S]; exact hp _
  refine ⟨fun i j => congrFun (congrFun hs.symm i) j, hn, hp, fun i j => ?_⟩
  have := Mom.lag_bound hfix hs hp (Mom.covAfter_nonneg T R q2) 0 i j
  rw [pow_zero, Matrix.one_mul] at this
  rw [← Real.sqrt_mul (hn i), ← Real.sqrt_sq_eq_abs]
  exact Real.sqrt_le_sqrt this

/-- **C143** in a stable model every reported autocorrelation, at every lag and between any two variables, lies between -1 and 1, and at lag zero a
variable that moves is perfectly correlated with itself -/
theorem C143_correlations {n k : ℕ} (lyap : Mat n n → Mat n n → Option (Mat n n)) (hlyap : LyapSpec lyap) (names : Fin k → Str)
    (hinj : Function.Injective names) (T : Mat n n) (R : Mat n k) (hT : VanishesUnder T) (o : ShockOptions) (hc : GivenCovariance (k := k) o)
    (nLags : ℕ) (L : List (Mat n n)) (h : autocovarianceMatrix lyap names T R o nLags true = .ok L) :
    L.length = nLags ∧ (∀ M ∈ L, ∀ i j, |M i j| ≤ 1) ∧
    ∃ S, stationaryCov lyap names T R { o with stdDict := none } = .ok S ∧
      ∀ M, L[0]? = some M → (∀ i, 0 < S i i → M i i = 1) ∧ ∀ i j, M i j = M j i := by
  unfold autocovarianceMatrix at h
  cases hS : stationaryCov lyap names T R { o with stdDict := none } with
  | error e => rw [hS] at h; cases h
  | ok S =>
    rw [hS] at h
    simp only [Except.ok.injEq] at h
    obtain ⟨Q, hQ, hfix, -⟩ := C47_stationary lyap hlyap names hinj T R _ (by intro d hd; cases hd) S hS
    obtain ⟨q1, q2⟩ := Mom.q_good hQ hc
    obtain ⟨-, -, h1, h2⟩ := C47_limit T R Q S hfix hT
    have hs := h1 q1
    have hp := h2 q2
    have hn : ∀ i, 0 ≤ S i i := fun i => by rw [Mom.entry S]; exact hp _
    subst h
    refine ⟨by simp [computeAutocov], ?_, S, rfl, ?_⟩
    · intro M hM i j
      simp only [computeAutocov, List.mem_map, List.mem_range, if_true] at hM
      obtain ⟨l, -, rfl⟩ := hM
      simp only [of_apply]
      have hb := Mom.lag_bound hfix hs hp (Mom.covAfter_nonneg T R q2) l i j
      rw [abs_div, abs_of_nonneg (mul_nonneg (Real.sqrt_nonneg _) (Real.sqrt_nonneg _))]
      apply div_le_one_of_le₀ _ (mul_nonneg (Real.sqrt_nonneg _) (Real.sqrt_nonneg _))
      rw [← Real.sqrt_mul (hn i), ← Real.sqrt_sq_eq_abs]
      exact Real.sqrt_le_sqrt hb
    · intro M hM
      have hM' : M = Matrix.of fun i j => (T ^ 0 * S) i j / (√(S i i) * √(S j j)) := by
        simp only [computeAutocov, List.getElem?_map, if_true, Option.map_eq_some_iff] at hM
        obtain ⟨l, hl, rfl⟩ := hM
        have := (List.getElem?_eq_some_iff.1 hl)
        obtain ⟨hl', hv⟩ := this
        rw [List.getElem_range] at hv
        rw [← hv]
      subst hM'
      simp only [of_apply, pow_zero, Matrix.one_mul]
      refine ⟨fun i hi => ?_, fun i j => ?_⟩
      · rw [Real.mul_self_sqrt hi.le, div_self hi.ne']
      · rw [mul_comm √(S i i), show S i j = S j i from congrFun (congrFun hs.symm i) j]

/-- **C143** the autocovariances and autocorrelations of a stable model die out with the lag -/
theorem C143_decay {n : ℕ} (T S : Mat n n) (hT : VanishesUnder T) (correlation : Bool) (i j : Fin n) :
    Tendsto (fun l => ((computeAutocov T S (l + 1) correlation)[l]?.getD 0) i j) atTop (𝓝 0) := by
  have h1 : ∀ l, ((computeAutocov T S (l + 1) correlation)[l]?.getD 0) i j =
      (T ^ l * S) i j / (if correlation then √(S i i) * √(S j j) else 1) := by
    intro l
    simp [computeAutocov]
  simp only [h1]
  have h2 : Tendsto (fun l : ℕ => T ^ l * S) atTop (𝓝 (0 * S)) := by
    have hc : Continuous fun M : Mat n n => M * S := by fun_prop
    exact (hc.tendsto 0).comp hT
  rw [Matrix.zero_mul] at h2
  have h3 := tendsto_pi_nhds.1 (tendsto_pi_nhds.1 h2 i) j
  simpa using h3.div_const (if correlation then √(S i i) * √(S j j) else 1)

/-- **C143** the responses account for the covariances: the products of the responses of two variables, added up over all shocks and over the horizon,
approach their stationary covariance as the horizon grows, when the shocks have the same sizes in both calls -/
theorem C143_responses {n k : ℕ} (lyap : Mat n n → Mat n n → Option (Mat n n)) (hlyap : LyapSpec lyap) (names : Fin k → Str)
    (hinj : Function.Injective names) (T : Mat n n) (R : Mat n k) (hT : VanishesUnder T) (s : ShockSize) (o : ShockOptions) (hso : SameSizes s o)
    (hd : ∀ d, o.stdDict = some d → (dkeys d).Nodup) (S : Mat n n) (h : stationaryCov lyap names T R o = .ok S)
    (chol : Mat k k → Option (Mat k k)) (z : Fin k → ℝ) (rq : Option Bool) (orth : Bool) (sel : ℕ → List Str) (data : ℕ → List (List (Fin n → ℝ)))
    (hirf : ∀ len, 0 < len → impulseResponse chol z names T R len ⟨some s, none, none⟩ rq orth = .ok (.individual (sel len) (data len))) (i j : Fin n) :
    Tendsto (fun len => ((data len).map fun d => ∑ t ∈ Finset.range len, atTime d t i * atTime d t j).sum) atTop (𝓝 (S i j)) := by
  obtain ⟨Q, hQ, hfix, -⟩ := C47_stationary lyap hlyap names hinj T R o hd S h
  obtain ⟨-, hlim, -, -⟩ := C47_limit T R Q S hfix hT
  have hq : (∀ a b, Q a b = if a = b then specSize names s a ^ 2 else 0) ∧ ∀ a, NamesShock names ⟨some s, none, none⟩ a := by
    rcases s with r | l | d
    · obtain rfl : o = _ := hso
      refine ⟨?_, fun a d hd => by cases hd⟩
      rcases hQ with ⟨C, ho, -⟩ | ⟨d, ho, -⟩ | ⟨r', ho, -, hr⟩ | ⟨l, ho, -⟩
      · cases ho
      · cases ho
      · simp only [ShockOptions.mk.injEq, Option.some.injEq, ShockStd.scalar.injEq, true_and] at ho
        subst ho
        exact hr
      · simp at ho
    · obtain rfl : o = _ := hso
      refine ⟨?_, fun a d hd => by cases hd⟩
      rcases hQ with ⟨C, ho, -⟩ | ⟨d, ho, -⟩ | ⟨r', ho, -⟩ | ⟨l', ho, -, -, hl⟩
      · cases ho
      · cases ho
      · simp at ho
      · simp only [ShockOptions.mk.injEq, Option.some.injEq, ShockStd.ndarray.injEq, true_and] at ho
        subst ho
        exact hl
    · obtain rfl : o = _ := hso
      rcases hQ with ⟨C, ho, -⟩ | ⟨d', ho, -, v, hv, hq⟩ | ⟨r', ho, -⟩ | ⟨l', ho, -⟩
      · cases ho
      · simp only [ShockOptions.mk.injEq, Option.some.injEq, and_true] at ho
        subst ho
        refine ⟨fun a b => ?_, fun a d' hd' => ?_⟩
        · rw [hq]
          simp only [specSize, hv, Option.getD_some]
        · simp only [Option.some.injEq, ShockSize.dict.injEq] at hd'
          subst hd'
          have := mem_of_dget _ _ _ (hv a)
          exact List.mem_map.2 ⟨_, this, rfl⟩
      · cases ho
      · cases ho
  obtain ⟨hq, hall⟩ := hq
  have hQd : Q = diagonal fun a => specSize names s a ^ 2 := by
    ext a b
    rw [hq, diagonal_apply]
  have key : ∀ len, 0 < len → ((data len).map fun d => ∑ t ∈ Finset.range len, atTime d t i * atTime d t j).sum = covAfter T R Q len i j := by
    intro len hlen
    obtain ⟨idx, hidx, -, hmem, hf⟩ := C37_individual chol z names T R len s rq orth _ _ (hirf len hlen)
    have hfull : idx = List.finRange k := by
      have : ∀ a ∈ List.finRange k, decide (names a ∈ sel len) = true := by
        intro a _
        have h1 := (hmem a).2 (hall a)
        rw [hidx, List.mem_filter] at h1
        exact h1.2
      rw [hidx, List.filter_eq_self.2 this]
    clear hmem hidx
    subst hfull
    have h1 : (data len).map (fun d => ∑ t ∈ Finset.range len, atTime d t i * atTime d t j) =
        (List.finRange k).map fun a => ∑ t ∈ Finset.range len, (specSize names s a * (T ^ t * R) i a) * (specSize names s a * (T ^ t * R) j a) := by
      generalize List.finRange k = idx at hf
      generalize data len = ds at hf
      induction hf with
      | nil => rfl
      | cons hd _ ih =>
        rw [List.map_cons, List.map_cons, ih]
        congr 1
        refine Finset.sum_congr rfl fun t ht => ?_
        rw [hd.2 t (Finset.mem_range.1 ht)]
        rfl
    rw [h1, ← List.ofFn_eq_map, List.sum_ofFn, Finset.sum_comm, Mom.covAfter_sum, Matrix.sum_apply]
    refine Finset.sum_congr rfl fun t _ => ?_
    rw [hQd, mul_apply]
    refine Finset.sum_congr rfl fun a _ => ?_
    rw [mul_diagonal, transpose_apply]
    ring
  refine (((tendsto_pi_nhds.1 (tendsto_pi_nhds.1 hlim i) j)).congr' ?_)
  filter_upwards [eventually_gt_atTop 0] with len hlen
  exact (key len hlen).symm

/-- **C143** every solution gensys returns is stable in the sense used here -/
theorem C143_solved {n k : ℕ} {A B C : Mat n n} {D : Mat n k} {tol : ℝ} (h0 : 0 < tol) (hC : CleanLeads C tol) (o : GensysOracle A B C tol) {T : Mat n n}
    {R : Mat n k} {f : Bool} (h : modelSolveGensys D o f = .solved T R) : VanishesUnder T := by
  obtain ⟨-, -, -, hv⟩ := C68_solution h0 hC h
  refine tendsto_pi_nhds.2 fun i => tendsto_pi_nhds.2 fun j => ?_
  have := tendsto_pi_nhds.1 (hv (Pi.single j 1)) i
  simpa using this

open REx in
/-- non-vacuity: `x[] = x[-1] / 2 + e[]` with standard deviation 2. The responses to one standard deviation are 2, 1, 1/2, ..., the sum of their squares
is 16/3, and so is the variance; the autocorrelations lie between -1 and 1 -/
example : ∃ (lyap : Mat 1 1 → Mat 1 1 → Option (Mat 1 1)), LyapSpec lyap ∧ VanishesUnder (!![1 / 2] : Mat 1 1) ∧
    (∃ S, stationaryCov lyap (fun _ => ['e']) !![1 / 2] (!![1] : Mat 1 1) { std := some (.scalar 2) } = .ok S ∧ S 0 0 = 16 / 3) ∧
    (∀ len, 0 < len → ∃ sel data, impulseResponse (fun _ => none) 0 (fun _ => ['e']) !![1 / 2] (!![1] : Mat 1 1) len ⟨some (.scalar 2), none, none⟩ none false =
      .ok (.individual sel data)) ∧
    ∃ L, autocovarianceMatrix lyap (fun _ => ['e']) !![1 / 2] (!![1] : Mat 1 1) { std := some (.scalar 2) } 3 true = .ok L := by
  have hQ : DescribesQ (fun _ : Fin 1 => ['e']) { std := some (.scalar 2) } !![4] := by
    refine .inr (.inr (.inl ⟨2, rfl, by norm_num, fun i j => ?_⟩))
    fin_cases i; fin_cases j
    simp; norm_num
  have hq := (C47_Q (fun _ : Fin 1 => ['e']) (fun _ _ _ => Subsingleton.elim _ _) { std := some (.scalar 2) } (by simp) !![4]).2 hQ
  have hv : validateShockOptions { std := some (.scalar 2) } (List.ofFn fun _ : Fin 1 => ['e']) = .ok () := by
    simp [validateShockOptions, ShockOptions.nProvided, validateCov, validateDict, validateStd]
  have hS : stationaryCov lyap1 (fun _ => ['e']) !![1 / 2] (!![1] : Mat 1 1) { std := some (.scalar 2) } = .ok fun _ _ => 16 / 3 := by
    unfold stationaryCov
    rw [hv, hq]
    have e1 : lyap1 !![1 / 2] ((!![1] : Mat 1 1) * !![4] * (!![1] : Mat 1 1)ᵀ) = some fun _ _ => 16 / 3 := by
      unfold lyap1
      rw [if_neg (by norm_num)]
      congr 1
      ext i j
      have e2 : ((!![1] : Mat 1 1) * !![4] * (!![1] : Mat 1 1)ᵀ : Mat 1 1) 0 0 = 4 := by simp [Matrix.mul_apply]
      rw [e2]
      norm_num
    simp only [e1]
  refine ⟨lyap1, lyap1_spec, ?_, ⟨_, hS, rfl⟩, ?_, ?_⟩
  · have h1 : ∀ t : ℕ, (!![1 / 2] : Mat 1 1) ^ t = !![(1 / 2) ^ t] := by
      intro t
      induction t with
      | zero => ext i j; fin_cases i; fin_cases j; simp
      | succ t ih => rw [pow_succ, ih]; ext i j; fin_cases i; fin_cases j; simp [Matrix.mul_apply, pow_succ]
    refine tendsto_pi_nhds.2 fun i => tendsto_pi_nhds.2 fun j => ?_
    simp only [h1]
    fin_cases i; fin_cases j
    simpa using tendsto_pow_atTop_nhds_zero_of_lt_one (r := (1 / 2 : ℝ)) (by norm_num) (by norm_num)
  · intro len hlen
    obtain ⟨m, rfl⟩ : ∃ m, len = m + 1 := ⟨len - 1, by omega⟩
    exact C38_accepts _ _ _ _ _ m (.scalar 2) false trivial
  · refine ⟨computeAutocov !![1 / 2] (fun _ _ => 16 / 3) 3 true, ?_⟩
    unfold autocovarianceMatrix
    rw [hS]

end GE
