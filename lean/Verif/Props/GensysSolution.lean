import Verif.Props.GensysModel
import Verif.Props.LinearSolve
/-! # C68, C69: correctness of the gensys solution and of its return codes -/

open Matrix Filter Topology

namespace GE

namespace Gen

variable {n k : ℕ} {A B C : Mat n n} {D : Mat n k} {tol : ℝ} {o : GensysOracle A B C tol}

theorem eu_coincident (hz : ¬ NoCoincidentZeros o) : gensysEU o.svd = (-2, -2, 0) := by
  rw [noZ_iff, Bool.not_eq_false] at hz
  rw [gensysEU, if_pos hz]

theorem eu_regular (hz : NoCoincidentZeros o) : gensysEU o.svd =
    (if o.qz.nu ≤ o.svd.unstable.r then 1 else 0, if o.svd.loose.rank = 0 then 1 else 0, o.svd.loose.rank) := by
  rw [noZ_iff] at hz
  rw [gensysEU, if_neg (by simp [hz])]

theorem eu_one (h : (gensysEU o.svd).1 = 1 ∧ (gensysEU o.svd).2.1 = 1) :
    NoCoincidentZeros o ∧ o.qz.nu ≤ o.svd.unstable.r ∧ o.svd.loose = 0 := by
  by_cases hz : NoCoincidentZeros o
  · rw [eu_regular hz] at h
    refine ⟨hz, ?_, ?_⟩
    · by_contra hn; rw [if_neg hn] at h; simp at h
    · by_contra hn
      rw [← Gen.rank_zero] at hn
      rw [if_neg hn] at h; simp at h
  · rw [eu_coincident hz] at h; exact absurd h.1 (by decide)

theorem exists_iff (hC : CleanLeads C tol) (hz : NoCoincidentZeros o) (h0 : 0 < tol) :
    o.qz.nu ≤ o.svd.unstable.r ↔ ∀ x0, ∃ x, VanishingPath A B C x ∧ x 0 = x0 := by
  rw [exist_iff hz h0]
  constructor
  · intro h x0
    obtain ⟨w, hw⟩ := h (cv x0)
    obtain ⟨p, hp, hp0, _⟩ := (stable_iff hC hz h0 _ _).mp hw
    exact ⟨_, VP_rv hp, by simp only [hp0]; rfl⟩
  · intro h x
    obtain ⟨p, hp, hp0⟩ := h (rv x)
    obtain ⟨p', hp', hp0'⟩ := h (iv x)
    refine ⟨lead C tol (fun i => cv (p 1) i + Complex.I * cv (p' 1) i), (stable_iff hC hz h0 _ _).mpr ⟨fun t => cv (p t) + Complex.I • cv (p' t), ⟨fun t => ?_, ?_⟩, ?_, rfl⟩⟩
    · have h1 := (VP_cv hp).1 t
      have h2 := (VP_cv hp').1 t
      simp only [mulVec_add, mulVec_smul]
      rw [show ∀ a b c d e f : Fin n → ℂ, a + b + (c + d) + (e + f) = a + c + e + (b + d + f) by intros; abel, h1, zero_add, ← smul_add, ← smul_add, h2, smul_zero]
    · have := (VP_cv hp).2.add ((VP_cv hp').2.const_smul Complex.I)
      simpa using this
    · funext i
      simp only [hp0, hp0', Pi.add_apply, Pi.smul_apply, cv, rv, iv, smul_eq_mul]
      rw [mul_comm]; exact Complex.re_add_im (x i)

theorem VP_sub {x x' : ℕ → Fin n → ℂ} (h : VP A B C x) (h' : VP A B C x') : VP A B C (fun t => x t - x' t) := by
  refine ⟨fun t => ?_, by simpa using h.2.sub h'.2⟩
  have h1 := h.1 t; have h2 := h'.1 t
  simp only [mulVec_sub]
  rw [show ∀ a b c d e f : Fin n → ℂ, a - b + (c - d) + (e - f) = a + c + e - (b + d + f) by intros; abel, h1, h2, sub_zero]

theorem VP_shift {x : ℕ → Fin n → ℂ} (h : VP A B C x) : VP A B C (fun t => x (t + 1)) :=
  ⟨fun t => h.1 (t + 1), (tendsto_add_atTop_iff_nat (f := x) 1).mpr h.2⟩

/-- with no loose directions a vanishing path from zero is zero -/
theorem zero_path (hC : CleanLeads C tol) (hz : NoCoincidentZeros o) (h0 : 0 < tol) (hl : o.svd.loose = 0)
    (x : ℕ → Fin n → ℂ) (h : VP A B C x) (hx : x 0 = 0) : ∀ t, x t = 0 := by
  intro t
  induction t generalizing x with
  | zero => exact hx
  | succ t ih =>
    refine ih (fun t => x (t + 1)) (VP_shift h) ?_
    have hw : lead C tol (x 1) = 0 := (loose_iff hz h0).mp hl _ ((stable_iff hC hz h0 _ _).mpr ⟨x, h, hx, rfl⟩)
    have h1 : unst o.qz (Sum.elim (x 1) (lead C tol (x 2))) = 0 := (stable_iff hC hz h0 _ _).mpr ⟨_, VP_shift h, rfl, rfl⟩
    have h2 := next_unique _ h1 (by
      have := (sys_iff A B C tol (x 0) (x 1) (lead C tol (x 1)) (lead C tol (x 2))).mpr ⟨by rw [CL_lead hC]; exact h.1 0, rfl⟩
      rw [this, hx, hw, elim_zero, mulVec_zero])
    funext i; exact congrFun h2 (.inl i)

theorem unique_iff (hC : CleanLeads C tol) (hz : NoCoincidentZeros o) (h0 : 0 < tol) :
    o.svd.loose = 0 ↔ ∀ x x', VanishingPath A B C x → VanishingPath A B C x' → x 0 = x' 0 → x = x' := by
  constructor
  · intro hl x x' h h' he
    have := zero_path hC hz h0 hl _ (VP_sub (VP_cv h) (VP_cv h')) (by rw [he, sub_self])
    funext t
    exact cv_inj (sub_eq_zero.mp (this t))
  · intro h
    rw [loose_iff hz h0]
    intro w hw
    obtain ⟨p, hp, hp0, rfl⟩ := (stable_iff hC hz h0 _ _).mp hw
    have hzero : VanishingPath A B C (fun _ => 0) := ⟨fun t => by simp, tendsto_const_nhds⟩
    have h1 := h _ _ (VP_rv hp) hzero (by simp only [hp0]; rfl)
    have hI : VP A B C (fun t => (-Complex.I) • p t) := by
      refine ⟨fun t => ?_, by simpa using hp.2.const_smul (-Complex.I)⟩
      simp only [mulVec_smul]
      rw [← smul_add, ← smul_add, hp.1 t, smul_zero]
    have h2 := h _ _ (VP_rv hI) hzero (by simp only [hp0, smul_zero]; rfl)
    funext l
    have e1 := congrFun (congrFun h1 1) l.1
    have e2 := congrFun (congrFun h2 1) l.1
    simp only [rv, Pi.smul_apply, smul_eq_mul, Pi.zero_apply, Complex.mul_re, Complex.neg_re, Complex.I_re, Complex.neg_im, Complex.I_im] at e1 e2
    apply Complex.ext
    · exact e1
    · simp only [lead, Pi.zero_apply, Complex.zero_im]; linarith

theorem model_eq (D : Mat n k) (f : Bool) : modelSolveGensys D o f = if (gensysEU o.svd).1 = 1 ∧ (gensysEU o.svd).2.1 = 1 then
    .solved ((o.svd.transitionC.map Complex.re).submatrix Sum.inl Sum.inl) (((o.svd.impactC (toC (setupPsi C D tol))).map Complex.re).submatrix Sum.inl id)
    else if f then .failedException else .nothing := by
  by_cases hz : NoCoincidentZeros o
  · have hc : gensysCore (toC (setupPsi C D tol)) o.svd = ⟨o.svd.transitionC.map Complex.re, (o.svd.impactC (toC (setupPsi C D tol))).map Complex.re, gensysEU o.svd⟩ := by
      rw [gensysCore, if_neg (by rw [(noZ_iff o).mp hz]; simp)]
    rw [modelSolveGensys, solveWithGensys]
    simp only [hc]
    have : ¬ ((gensysEU o.svd).1 = -2 ∧ (gensysEU o.svd).2.1 = -2) := by
      rw [eu_regular hz]
      by_cases h : o.qz.nu ≤ o.svd.unstable.r <;> simp [h]
    rw [if_neg this]
  · have h2 : (gensysCore (toC (setupPsi C D tol)) o.svd).eu = (-2, -2, 0) := by
      rw [gensysCore]; split <;> exact eu_coincident hz
    rw [modelSolveGensys, solveWithGensys]
    simp only [h2, eu_coincident hz]
    simp

end Gen

open Gen

variable {n k : ℕ} {A B C : Mat n n} {D : Mat n k} {tol : ℝ} {o : GensysOracle A B C tol}

/-! ## C69: the return codes -/

/-- the existence code is 1 exactly when from every initial state some path solves the model and dies out -/
theorem C69_existence (h0 : 0 < tol) (hC : CleanLeads C tol) (hz : NoCoincidentZeros o) :
    ((gensysEU o.svd).1 = 1 ↔ ∀ x0, ∃ x, VanishingPath A B C x ∧ x 0 = x0) ∧ ((gensysEU o.svd).1 = 0 ∨ (gensysEU o.svd).1 = 1) := by
  rw [← exists_iff hC hz h0, eu_regular hz]
  by_cases h : o.qz.nu ≤ o.svd.unstable.r <;> simp [h]

/-- the uniqueness code is 1 exactly when two paths that solve the model, die out and start at the same state are equal -/
theorem C69_uniqueness (h0 : 0 < tol) (hC : CleanLeads C tol) (hz : NoCoincidentZeros o) :
    ((gensysEU o.svd).2.1 = 1 ↔ ∀ x x', VanishingPath A B C x → VanishingPath A B C x' → x 0 = x' 0 → x = x') ∧
    ((gensysEU o.svd).2.1 = 0 ∨ (gensysEU o.svd).2.1 = 1) ∧ ((gensysEU o.svd).2.1 = 1 ↔ (gensysEU o.svd).2.2 = 0) := by
  rw [← unique_iff hC hz h0, eu_regular hz, ← Gen.rank_zero]
  by_cases h : o.svd.loose.rank = 0 <;> simp [h]

/-- coincident zeros are reported, and never as a success -/
theorem C69_coincident (hz : ¬ NoCoincidentZeros o) (D : Mat n k) (f : Bool) :
    gensysEU o.svd = (-2, -2, 0) ∧ interpretGensys (gensysEU o.svd) = .coincidentZeros ∧ (solveWithGensys D o).1 = none ∧
    modelSolveGensys D o f = (if f then .failedException else .nothing) := by
  have h := eu_coincident hz
  have h2 : (gensysCore (toC (setupPsi C D tol)) o.svd).eu = (-2, -2, 0) := by
    rw [gensysCore]; split <;> exact h
  refine ⟨h, by rw [h]; rfl, by simp [solveWithGensys, h2], ?_⟩
  rw [modelSolveGensys, solveWithGensys]
  simp only [h2]
  simp

/-- the number of unstable pairs the loop counts is the number of trailing pairs of the sorted decomposition -/
theorem C69_count (hz : NoCoincidentZeros o) : (gensysCount tol o.qz.pairs (0, false)).1 = o.qz.nu := by
  classical
  rw [(count_spec tol o.qz.pairs 0 false).2 hz, zero_add, SortedQZ.pairs, List.countP_append, List.countP_map, List.countP_map]
  rw [List.countP_eq_zero.mpr (by intro i _; simpa using o.qz.sorted₁ i), zero_add, List.countP_eq_length.mpr (by intro i _; simpa using o.qz.sorted₂ i),
    List.length_finRange]

/-- a solution is returned exactly when there are no coincident zeros and from every initial state exactly one path solves the model and dies out;
otherwise the caller gets an exception or nothing, as asked -/
theorem C69_solved_iff (h0 : 0 < tol) (hC : CleanLeads C tol) (D : Mat n k) (f : Bool) :
    ((∃ T R, modelSolveGensys D o f = .solved T R) ↔ NoCoincidentZeros o ∧ ∀ x0, ∃! x, VanishingPath A B C x ∧ x 0 = x0) ∧
    ((¬ ∃ T R, modelSolveGensys D o f = .solved T R) → modelSolveGensys D o f = if f then .failedException else .nothing) := by
  by_cases hz : NoCoincidentZeros o
  swap
  · have := (C69_coincident hz D f).2.2.2
    rw [this]
    cases f <;> simp [hz]
  have hE := C69_existence h0 hC hz
  have hU := C69_uniqueness h0 hC hz
  have hu : (∀ x0, ∃! x, VanishingPath A B C x ∧ x 0 = x0) ↔ (gensysEU o.svd).1 = 1 ∧ (gensysEU o.svd).2.1 = 1 := by
    rw [hE.1, hU.1]
    constructor
    · intro h
      refine ⟨fun x0 => (h x0).exists, fun x x' hx hx' he => (h (x 0)).unique ⟨hx, rfl⟩ ⟨hx', he.symm⟩⟩
    · rintro ⟨h1, h2⟩ x0
      obtain ⟨x, hx, rfl⟩ := h1 x0
      exact ⟨x, ⟨hx, rfl⟩, fun y hy => h2 y x hy.1 hx hy.2⟩
  rw [model_eq, hu]
  by_cases h : (gensysEU o.svd).1 = 1 ∧ (gensysEU o.svd).2.1 = 1
  · simp [h, hz]
  · rw [if_neg h]
    cases f <;> simp [hz, h]

/-! ## C68: the solution -/

namespace Gen

theorem solved_data {T : Mat n n} {R : Mat n k} {f : Bool} (h : modelSolveGensys D o f = .solved T R) :
    NoCoincidentZeros o ∧ o.qz.nu ≤ o.svd.unstable.r ∧ o.svd.loose = 0 ∧ T = (o.svd.transitionC.map Complex.re).submatrix Sum.inl Sum.inl ∧
    R = ((o.svd.impactC (toC (setupPsi C D tol))).map Complex.re).submatrix Sum.inl id := by
  rw [model_eq] at h
  by_cases he : (gensysEU o.svd).1 = 1 ∧ (gensysEU o.svd).2.1 = 1
  · obtain ⟨hz, h1, h2⟩ := eu_one he
    rw [if_pos he, GensysResult.solved.injEq] at h
    exact ⟨hz, h1, h2, h.1.symm, h.2.symm⟩
  · rw [if_neg he] at h
    cases f <;> simp at h

section
variable (hC : CleanLeads C tol) (hz : NoCoincidentZeros o) (h0 : 0 < tol) (hr : o.qz.nu ≤ o.svd.unstable.r) (hl : o.svd.loose = 0)
include hz h0 hr hl

/-- real inputs are mapped to real outputs -/
theorem trans_real (y : Fin n ⊕ Lead C tol → ℝ) : o.svd.transitionC *ᵥ cv y = cv (o.svd.transitionC.map Complex.re *ᵥ y) := by
  have h := (transition_iff o.svd h0 hl hr (cv y) _).mp rfl
  obtain ⟨h1, e, he⟩ := h
  have hs : star (o.svd.transitionC *ᵥ cv y) = o.svd.transitionC *ᵥ cv y := by
    refine (transition_iff o.svd h0 hl hr (cv y) _).mpr ⟨unst_star hz h0 h1, star e, ?_⟩
    rw [toC_star, he, star_add, ← toC_star, ← toC_star, star_cv]
  rw [real_of_star hs]
  congr 1
  funext i
  simp [rv, cv, mulVec, dotProduct]

theorem imp_real (ε : Fin k → ℝ) : o.svd.impactC (toC (setupPsi C D tol)) *ᵥ cv ε = cv ((o.svd.impactC (toC (setupPsi C D tol))).map Complex.re *ᵥ ε) := by
  have h := (impact_iff o.svd h0 hl hr (psi := toC (setupPsi C D tol)) (cv ε) _).mp rfl
  obtain ⟨h1, e, he⟩ := h
  have hs : star (o.svd.impactC (toC (setupPsi C D tol)) *ᵥ cv ε) = o.svd.impactC (toC (setupPsi C D tol)) *ᵥ cv ε := by
    refine (impact_iff o.svd h0 hl hr (cv ε) _).mpr ⟨unst_star hz h0 h1, star e, ?_⟩
    rw [toC_star, he, star_add, ← toC_star, ← toC_star, star_cv]
  rw [real_of_star hs]
  congr 1
  funext i
  simp [rv, cv, mulVec, dotProduct]

/-- the part of the state that repeats expectations is not used -/
theorem trans_lead (x : Fin n → ℂ) (w : Lead C tol → ℂ) : o.svd.transitionC *ᵥ Sum.elim x w = o.svd.transitionC *ᵥ Sum.elim x 0 := by
  have h := (transition_iff o.svd h0 hl hr (Sum.elim x 0) _).mp rfl
  symm
  refine (transition_iff o.svd h0 hl hr (Sum.elim x w) _).mpr ⟨h.1, ?_⟩
  have h2 := h.2
  rw [elim_split (o.svd.transitionC *ᵥ Sum.elim x 0), sysE_iff] at h2
  rw [elim_split (o.svd.transitionC *ᵥ Sum.elim x 0), sysE_iff]
  exact h2

/-- one step inside the stable subspace -/
theorem trans_stable (y : Fin n ⊕ Lead C tol → ℂ) (hy : unst o.qz y = 0) :
    toC (setupG0 B C tol) *ᵥ (o.svd.transitionC *ᵥ y) = toC (setupG1 A C tol) *ᵥ y := by
  obtain ⟨y', h1, h2⟩ := next_exists y hy
  have : y' = o.svd.transitionC *ᵥ y := (transition_iff o.svd h0 hl hr y y').mpr ⟨h1, 0, by rw [mulVec_zero, add_zero, h2]⟩
  rw [← this, h2]

end

/-- the parts of the real transition matrix -/
noncomputable def Treal (o : GensysOracle A B C tol) : Mat n n := (o.svd.transitionC.map Complex.re).submatrix Sum.inl Sum.inl
noncomputable def Wreal (o : GensysOracle A B C tol) : Matrix (Lead C tol) (Fin n) ℝ := (o.svd.transitionC.map Complex.re).submatrix Sum.inr Sum.inl

section
variable (hC : CleanLeads C tol) (hz : NoCoincidentZeros o) (h0 : 0 < tol) (hr : o.qz.nu ≤ o.svd.unstable.r) (hl : o.svd.loose = 0)
include hz h0 hr hl

theorem trans_parts (x : Fin n → ℝ) (w : Lead C tol → ℂ) :
    o.svd.transitionC *ᵥ Sum.elim (cv x) w = Sum.elim (cv (Treal o *ᵥ x)) (cv (Wreal o *ᵥ x)) := by
  rw [trans_lead hz h0 hr hl]
  have h : (Sum.elim (cv x) 0 : Fin n ⊕ Lead C tol → ℂ) = cv (Sum.elim x 0) := by funext i; cases i <;> simp [cv]
  rw [h, trans_real hz h0 hr hl]
  funext i
  cases i <;> simp [cv, mulVec, dotProduct, Treal, Wreal]

theorem unst_T (x : Fin n → ℝ) : unst o.qz (Sum.elim (cv (Treal o *ᵥ x)) (cv (Wreal o *ᵥ x))) = 0 := by
  rw [← trans_parts hz h0 hr hl x 0]
  exact ((transition_iff o.svd h0 hl hr _ _).mp rfl).1

/-- a real point of the stable subspace: its expectation part is what the policy predicts -/
theorem lead_T (x : Fin n → ℝ) (w : Lead C tol → ℝ) (h : unst o.qz (Sum.elim (cv x) (cv w)) = 0) :
    lead C tol (Treal o *ᵥ x) = w ∧ A *ᵥ x + B *ᵥ (Treal o *ᵥ x) + CL C tol *ᵥ (Wreal o *ᵥ x) = 0 := by
  have h1 := trans_stable hz h0 hr hl _ h
  rw [trans_parts hz h0 hr hl, sys_iff] at h1
  refine ⟨cv_inj h1.2, cv_inj ?_⟩
  rw [cv_add, cv_add, ← toC_cv A, ← toC_cv B, ← toC_cv (CL C tol), h1.1, cv_zero]

theorem policy_eq (x : Fin n → ℝ) : A *ᵥ x + B *ᵥ (Treal o *ᵥ x) + CL C tol *ᵥ (Wreal o *ᵥ x) = 0 := by
  have h := ((transition_iff o.svd h0 hl hr (Sum.elim (cv x) 0) _).mp rfl).2
  rw [trans_parts hz h0 hr hl, sysE_iff] at h
  apply cv_inj
  rw [cv_add, cv_add, ← toC_cv A, ← toC_cv B, ← toC_cv (CL C tol), h, cv_zero]

theorem W_eq (x : Fin n → ℝ) : Wreal o *ᵥ x = lead C tol (Treal o *ᵥ (Treal o *ᵥ x)) :=
  ((lead_T hz h0 hr hl _ _ (unst_T hz h0 hr hl x)).1).symm

include hC

theorem quad_vec (x : Fin n → ℝ) : A *ᵥ x + B *ᵥ (Treal o *ᵥ x) + C *ᵥ (Treal o *ᵥ (Treal o *ᵥ x)) = 0 := by
  have := policy_eq hz h0 hr hl x
  rwa [W_eq hz h0 hr hl, CL_leadR hC] at this

theorem quad : SolvesQuadratic A B C (Treal o) := by
  rw [SolvesQuadratic]
  apply ext_of_mulVec_single
  intro i
  rw [add_mulVec, add_mulVec, ← mulVec_mulVec, ← mulVec_mulVec, ← mulVec_mulVec, quad_vec hC hz h0 hr hl, zero_mulVec]

omit hC in
theorem vanish (x : Fin n → ℝ) : Tendsto (fun t => (Treal o ^ t) *ᵥ x) atTop (𝓝 0) := by
  have hy := stab_vanish (q := o.qz) (fun t => Sum.elim (cv (Treal o ^ (t + 1) *ᵥ x)) (cv (Wreal o *ᵥ (Treal o ^ t *ᵥ x)))) (fun t => by
      rw [show Treal o ^ (t + 1 + 1) *ᵥ x = Treal o *ᵥ (Treal o ^ (t + 1) *ᵥ x) by rw [mulVec_mulVec, ← pow_succ'], ← trans_parts hz h0 hr hl _ (cv (Wreal o *ᵥ (Treal o ^ t *ᵥ x)))]
      apply trans_stable hz h0 hr hl
      rw [pow_succ', ← mulVec_mulVec]
      exact unst_T hz h0 hr hl _) (fun t => by
      rw [pow_succ', ← mulVec_mulVec]
      exact unst_T hz h0 hr hl _)
  rw [← tendsto_add_atTop_iff_nat (f := fun t => (Treal o ^ t) *ᵥ x) 1]
  have := tendsto_rv hy
  rw [tendsto_pi_nhds] at this ⊢
  intro i
  exact this (.inl i)

theorem T_path (x : Fin n → ℝ) : VanishingPath A B C (fun t => (Treal o ^ t) *ᵥ x) := by
  refine ⟨fun t => ?_, vanish hz h0 hr hl x⟩
  have := quad_vec hC hz h0 hr hl (Treal o ^ t *ᵥ x)
  rwa [mulVec_mulVec _ (Treal o) (Treal o ^ t), ← pow_succ', mulVec_mulVec _ (Treal o) (Treal o ^ (t + 1)), ← pow_succ'] at this

/-- `B + C T` is invertible -/
theorem inj_BCT (z : Fin n → ℝ) (h : B *ᵥ z + C *ᵥ (Treal o *ᵥ z) = 0) : z = 0 := by
  have h1 : unst o.qz (Sum.elim (cv z) (lead C tol (cv (Treal o *ᵥ z)))) = 0 := by
    refine (stable_iff hC hz h0 _ _).mpr ⟨fun t => cv ((Treal o ^ t) *ᵥ z), VP_cv (T_path hC hz h0 hr hl z), by simp, by simp⟩
  have h2 : Sum.elim (cv z) (lead C tol (cv (Treal o *ᵥ z))) = o.svd.transitionC *ᵥ Sum.elim 0 0 := by
    refine (transition_iff o.svd h0 hl hr _ _).mpr ⟨h1, ?_⟩
    rw [sysE_iff, CL_lead hC, mulVec_zero, zero_add, toC_cv, toC_cv, ← cv_add, h, cv_zero]
  rw [elim_zero, mulVec_zero] at h2
  apply cv_inj
  rw [cv_zero]
  funext i; exact congrFun h2 (.inl i)

/-- the impact matrix -/
theorem impact_vec (ε : Fin k → ℝ) (R : Mat n k) (hR : R = ((o.svd.impactC (toC (setupPsi C D tol))).map Complex.re).submatrix Sum.inl id) :
    B *ᵥ (R *ᵥ ε) + C *ᵥ (Treal o *ᵥ (R *ᵥ ε)) + D *ᵥ ε = 0 := by
  have h := (impact_iff o.svd h0 hl hr (psi := toC (setupPsi C D tol)) (cv ε) _).mp rfl
  rw [imp_real hz h0 hr hl] at h
  have hs : cv ((o.svd.impactC (toC (setupPsi C D tol))).map Complex.re *ᵥ ε) =
      Sum.elim (cv (R *ᵥ ε)) (cv (((o.svd.impactC (toC (setupPsi C D tol))).map Complex.re).submatrix Sum.inr id *ᵥ ε)) := by
    subst hR
    funext i; cases i <;> simp [cv, mulVec, dotProduct]
  rw [hs, sysS_iff] at h
  have h1 := (lead_T hz h0 hr hl _ _ h.1).1
  have h2 := h.2
  rw [← h1] at h2
  apply cv_inj
  rw [cv_add, cv_add, ← toC_cv B, ← toC_cv C, ← toC_cv D, cv_zero]
  have h3 := CL_lead hC (cv (Treal o *ᵥ (R *ᵥ ε)))
  rw [← h3]
  exact h2

end

end Gen

/-- what gensys returns solves the model: the policy satisfies the quadratic matrix equation, the shock loadings satisfy the impact equation (and
are the ones `selectionMatrix` computes from `T`), and every impulse dies out -/
theorem C68_solution (h0 : 0 < tol) (hC : CleanLeads C tol) {T : Mat n n} {R : Mat n k} {f : Bool} (h : modelSolveGensys D o f = .solved T R) :
    SolvesQuadratic A B C T ∧ B * R + C * T * R + D = 0 ∧ selectionMatrix B C D T = some R ∧ ∀ x, Tendsto (fun t => (T ^ t) *ᵥ x) atTop (𝓝 0) := by
  obtain ⟨hz, hr, hl, hT, hR⟩ := solved_data h
  have hT' : T = Treal o := hT
  subst hT'
  have hq : B * R + C * Treal o * R + D = 0 := by
    apply ext_of_mulVec_single
    intro i
    rw [add_mulVec, add_mulVec, ← mulVec_mulVec, ← mulVec_mulVec, ← mulVec_mulVec, impact_vec hC hz h0 hr hl _ R hR, zero_mulVec]
  refine ⟨quad hC hz h0 hr hl, hq, ?_, vanish hz h0 hr hl⟩
  rw [Lin.selection_iff]
  have hu : IsUnit (C * Treal o + B) := by
    rw [← mulVec_injective_iff_isUnit]
    intro z z' hzz
    rw [← sub_eq_zero, ← mulVec_sub] at hzz
    rw [← sub_eq_zero]
    apply inj_BCT hC hz h0 hr hl
    rw [add_mulVec, ← mulVec_mulVec, add_comm] at hzz
    exact hzz
  refine ⟨(isUnit_iff_isUnit_det _).mp hu, ?_⟩
  rw [← hq, Matrix.add_mul]; abel

/-- no other policy solves the model without exploding -/
theorem C68_unique (h0 : 0 < tol) (hC : CleanLeads C tol) {T : Mat n n} {R : Mat n k} {f : Bool} (h : modelSolveGensys D o f = .solved T R)
    (T' : Mat n n) (hT' : SolvesQuadratic A B C T') (hv : ∀ x, Tendsto (fun t => (T' ^ t) *ᵥ x) atTop (𝓝 0)) : T' = T := by
  obtain ⟨hz, hr, hl, hT, hR⟩ := solved_data h
  have hT2 : T = Treal o := hT
  subst hT2
  apply ext_of_mulVec_single
  intro i
  have hp : ∀ x, VanishingPath A B C (fun t => (T' ^ t) *ᵥ x) := by
    intro x
    refine ⟨fun t => ?_, hv x⟩
    have := congrArg (· *ᵥ (T' ^ t *ᵥ x)) (show A + B * T' + C * T' * T' = 0 from hT')
    simp only [add_mulVec, zero_mulVec] at this
    simp only [mulVec_mulVec] at this ⊢
    rw [pow_succ' T' (t + 1), pow_succ' T' t]
    simpa [Matrix.mul_assoc] using this
  have := (unique_iff hC hz h0).mp hl _ _ (hp (Pi.single i 1)) (T_path hC hz h0 hr hl (Pi.single i 1)) (by simp)
  have h1 := congrFun this 1
  simpa using h1

/-- taking real parts loses nothing: the complex matrices the algorithm ends with are real -/
theorem C68_real (h0 : 0 < tol) {T : Mat n n} {R : Mat n k} {f : Bool} (h : modelSolveGensys D o f = .solved T R) :
    (∀ i j, (o.svd.transitionC i j).im = 0) ∧ ∀ i j, (o.svd.impactC (toC (setupPsi C D tol)) i j).im = 0 := by
  obtain ⟨hz, hr, hl, -, -⟩ := solved_data h
  constructor
  · intro i j
    have := congrFun (trans_real hz h0 hr hl (Pi.single j 1)) i
    have hs : cv (Pi.single j (1 : ℝ)) = (Pi.single j 1 : Fin n ⊕ Lead C tol → ℂ) := by
      funext l; by_cases hl : l = j
      · subst hl; simp [cv]
      · simp [cv, hl]
    rw [hs, mulVec_single_one] at this
    have h2 := congrArg Complex.im this
    simpa [cv] using h2
  · intro i j
    have := congrFun (imp_real (D := D) hz h0 hr hl (Pi.single j 1)) i
    have hs : cv (Pi.single j (1 : ℝ)) = (Pi.single j 1 : Fin k → ℂ) := by
      funext l; by_cases hl : l = j
      · subst hl; simp [cv]
      · simp [cv, hl]
    rw [hs, mulVec_single_one] at this
    have h2 := congrArg Complex.im this
    simpa [cv] using h2

/-- the two compiled wrappers return the same policy with a success flag that is set exactly when the model method returns a solution; with
coincident zeros the Python wrapper raises an unpacking error while the numba wrapper returns zeros with the flag unset -/
theorem C68_wrappers (D : Mat n k) (f : Bool) :
    (∀ T R, modelSolveGensys D o f = .solved T R → gensysNumba D o = (T, true) ∧ gensysPerform D o = some (T, true)) ∧
    ((gensysNumba D o).2 = true → ∃ R, modelSolveGensys D o f = .solved (gensysNumba D o).1 R) ∧
    (NoCoincidentZeros o → gensysPerform D o = some (gensysNumba D o)) ∧
    (¬ NoCoincidentZeros o → gensysPerform D o = none ∧ gensysNumba D o = (0, false)) := by
  have hreg : NoCoincidentZeros o → gensysNumba D o = ((o.svd.transitionC.map Complex.re).submatrix Sum.inl Sum.inl,
      decide ((gensysEU o.svd).1 = 1 ∧ (gensysEU o.svd).2.1 = 1)) ∧ gensysPerform D o = some (gensysNumba D o) := by
    intro hz
    have hc : gensysCore (toC (setupPsi C D tol)) o.svd = ⟨o.svd.transitionC.map Complex.re, (o.svd.impactC (toC (setupPsi C D tol))).map Complex.re, gensysEU o.svd⟩ := by
      rw [gensysCore, if_neg (by rw [(noZ_iff o).mp hz]; simp)]
    have : ¬ ((gensysEU o.svd).1 = -2 ∧ (gensysEU o.svd).2.1 = -2) := by
      rw [eu_regular hz]
      by_cases h : o.qz.nu ≤ o.svd.unstable.r <;> simp [h]
    constructor
    · rw [gensysNumba]; simp only [hc]
    · rw [gensysPerform, solveWithGensys, gensysNumba]; simp only [hc]; rw [if_neg this]
  have hbad : ¬ NoCoincidentZeros o → gensysPerform D o = none ∧ gensysNumba D o = (0, false) := by
    intro hz
    have hz' := hz
    rw [noZ_iff, Bool.not_eq_false] at hz'
    have hc : gensysCore (toC (setupPsi C D tol)) o.svd = ⟨0, 0, gensysEU o.svd⟩ := by rw [gensysCore, if_pos hz']
    constructor
    · rw [gensysPerform, solveWithGensys]; simp only [hc, eu_coincident hz]; rfl
    · rw [gensysNumba]; simp only [hc, eu_coincident hz]
      refine Prod.ext ?_ (by simp)
      ext i j; rfl
  refine ⟨fun T R h => ?_, fun h => ?_, fun hz => (hreg hz).2, hbad⟩
  · obtain ⟨hz, h1, h2, rfl, -⟩ := solved_data h
    have he : (gensysEU o.svd).1 = 1 ∧ (gensysEU o.svd).2.1 = 1 := by
      rw [eu_regular hz, if_pos h1, if_pos ((Gen.rank_zero _).mpr h2)]; exact ⟨rfl, rfl⟩
    rw [(hreg hz).2, (hreg hz).1, decide_eq_true he]
    exact ⟨rfl, rfl⟩
  · by_cases hz : NoCoincidentZeros o
    · rw [(hreg hz).1] at h ⊢
      rw [model_eq, if_pos (of_decide_eq_true h)]
      exact ⟨_, rfl⟩
    · rw [(hbad hz).2] at h; simp at h

/-- the messages, for the codes that are produced -/
theorem C69_messages (h0 : 0 < tol) (hC : CleanLeads C tol) (hz : NoCoincidentZeros o) :
    (interpretGensys (gensysEU o.svd) = .unique ↔ ∀ x0, ∃! x, VanishingPath A B C x ∧ x 0 = x0) ∧
    (interpretGensys (gensysEU o.svd) = .notUnique ↔ (∀ x0, ∃ x, VanishingPath A B C x ∧ x 0 = x0) ∧
      ∃ x x', VanishingPath A B C x ∧ VanishingPath A B C x' ∧ x 0 = x' 0 ∧ x ≠ x') ∧
    (interpretGensys (gensysEU o.svd) = .noSolution ↔ (∃ x0, ∀ x, VanishingPath A B C x → x 0 ≠ x0) ∧
      ∃ x x', VanishingPath A B C x ∧ VanishingPath A B C x' ∧ x 0 = x' 0 ∧ x ≠ x') ∧
    (interpretGensys (gensysEU o.svd) = .unknown ↔ (∃ x0, ∀ x, VanishingPath A B C x → x 0 ≠ x0) ∧
      ∀ x x', VanishingPath A B C x → VanishingPath A B C x' → x 0 = x' 0 → x = x') := by
  have hE := C69_existence h0 hC hz
  have hU := C69_uniqueness h0 hC hz
  have hu : (∀ x0, ∃! x, VanishingPath A B C x ∧ x 0 = x0) ↔ (gensysEU o.svd).1 = 1 ∧ (gensysEU o.svd).2.1 = 1 := by
    rw [hE.1, hU.1]
    constructor
    · intro h
      refine ⟨fun x0 => (h x0).exists, fun x x' hx hx' he => (h (x 0)).unique ⟨hx, rfl⟩ ⟨hx', he.symm⟩⟩
    · rintro ⟨h1, h2⟩ x0
      obtain ⟨x, hx, rfl⟩ := h1 x0
      exact ⟨x, ⟨hx, rfl⟩, fun y hy => h2 y x hy.1 hx hy.2⟩
  have hnE : (∃ x0, ∀ x, VanishingPath A B C x → x 0 ≠ x0) ↔ ¬ (gensysEU o.svd).1 = 1 := by
    rw [hE.1]; push Not; rfl
  have hnU : (∃ x x', VanishingPath A B C x ∧ VanishingPath A B C x' ∧ x 0 = x' 0 ∧ x ≠ x') ↔ ¬ (gensysEU o.svd).2.1 = 1 := by
    rw [hU.1]; push Not; rfl
  rw [hu, hnE, hnU, ← hE.1, ← hU.1]
  generalize gensysEU o.svd = eu at *
  obtain ⟨a, b, c⟩ := eu
  have h1 := hE.2
  have h2 := hU.2.1
  simp only at h1 h2 ⊢
  rcases h1 with rfl | rfl <;> rcases h2 with rfl | rfl <;> simp [interpretGensys]

end GE
