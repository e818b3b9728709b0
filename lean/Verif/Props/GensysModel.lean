import Verif.Props.GensysCore
/-! # C68, C69: what gensys returns for the model `A x_{t-1} + B x_t + C x_{t+1} + D ε_t = 0` -/

open Matrix Filter Topology

namespace GE

/-! ## specification -/

/-- `x` solves the deterministic model and dies out -/
def VanishingPath {n : ℕ} (A B C : Mat n n) (x : ℕ → Fin n → ℝ) : Prop :=
  (∀ t, A *ᵥ x t + B *ᵥ x (t + 1) + C *ᵥ x (t + 2) = 0) ∧ Tendsto x atTop (𝓝 0)

/-- columns of `C` whose absolute sum is within the tolerance are zero -/
def CleanLeads {n : ℕ} (C : Mat n n) (tol : ℝ) : Prop := ∀ j, (∑ i, |C i j|) ≤ tol → ∀ i, C i j = 0

/-- no pair of diagonal entries is coincident near-zero -/
def NoCoincidentZeros {n : ℕ} {A B C : Mat n n} {tol : ℝ} (o : GensysOracle A B C tol) : Prop :=
  ∀ p ∈ o.qz.pairs, ¬ (‖p.1‖ < tol ∧ ‖p.2‖ < tol)

namespace Gen

/-! ## real and complex vectors -/

def cv {a : Type} (x : a → ℝ) : a → ℂ := fun i => (x i : ℂ)
def rv {a : Type} (y : a → ℂ) : a → ℝ := fun i => (y i).re
def iv {a : Type} (y : a → ℂ) : a → ℝ := fun i => (y i).im

section cplx
variable {a b : Type} [Fintype b]

theorem toC_cv (M : Matrix a b ℝ) (x : b → ℝ) : toC M *ᵥ cv x = cv (M *ᵥ x) := by
  funext i; simp [toC, cv, mulVec, dotProduct]

theorem rv_toC (M : Matrix a b ℝ) (y : b → ℂ) : rv (toC M *ᵥ y) = M *ᵥ rv y := by
  funext i; simp [toC, rv, mulVec, dotProduct]

theorem toC_star (M : Matrix a b ℝ) (y : b → ℂ) : toC M *ᵥ star y = star (toC M *ᵥ y) := by
  funext i; simp [toC, mulVec, dotProduct]

theorem rv_add (y z : a → ℂ) : rv (y + z) = rv y + rv z := rfl
theorem rv_cv (x : a → ℝ) : rv (cv x) = x := rfl
theorem cv_inj {x y : a → ℝ} (h : cv x = cv y) : x = y := by
  funext i; exact Complex.ofReal_injective (congrFun h i)
theorem cv_add (x y : a → ℝ) : cv (x + y) = cv x + cv y := by funext i; simp [cv]
theorem cv_zero : cv (0 : a → ℝ) = 0 := by funext i; simp [cv]
theorem star_cv (x : a → ℝ) : star (cv x) = cv x := by funext i; simp [cv]
theorem real_of_star {y : a → ℂ} (h : star y = y) : y = cv (rv y) := by
  funext i
  have := congrFun h i
  exact (Complex.conj_eq_iff_re.mp this).symm

theorem tendsto_rv {y : ℕ → a → ℂ} (h : Tendsto y atTop (𝓝 0)) : Tendsto (fun t => rv (y t)) atTop (𝓝 0) := by
  rw [tendsto_pi_nhds] at h ⊢
  intro i
  have := (Complex.continuous_re.tendsto 0).comp (h i)
  simpa [rv, Function.comp_def] using this

theorem tendsto_cv {x : ℕ → a → ℝ} (h : Tendsto x atTop (𝓝 0)) : Tendsto (fun t => cv (x t)) atTop (𝓝 0) := by
  rw [tendsto_pi_nhds] at h ⊢
  intro i
  have := (Complex.continuous_ofReal.tendsto 0).comp (h i)
  simpa [cv, Function.comp_def] using this

theorem tendsto_star {y : ℕ → a → ℂ} (h : Tendsto y atTop (𝓝 0)) : Tendsto (fun t => star (y t)) atTop (𝓝 0) := by
  rw [tendsto_pi_nhds] at h ⊢
  intro i
  have := (continuous_star (R := ℂ).tendsto 0).comp (h i)
  simpa [Function.comp_def] using this

end cplx

/-! ## the stacked system -/

section setup
variable {n k : ℕ} (A B C : Mat n n) (D : Mat n k) (tol : ℝ)

/-- the lead columns of `C` -/
def CL : Matrix (Fin n) (Lead C tol) ℝ := C.submatrix id Subtype.val

def lead {α : Type} (x : Fin n → α) : Lead C tol → α := fun l => x l.1

variable {C tol}
theorem CL_lead (hC : CleanLeads C tol) (x : Fin n → ℂ) : toC (CL C tol) *ᵥ lead C tol x = toC C *ᵥ x := by
  classical
  funext i
  simp only [mulVec, dotProduct, toC, CL, lead, map_apply, submatrix_apply, id]
  rw [← Finset.sum_filter_add_sum_filter_not Finset.univ (fun j => tol < ∑ i, |C i j|) (fun j => (C i j : ℂ) * x j)]
  rw [Finset.sum_eq_zero (s := Finset.univ.filter fun j => ¬ tol < ∑ i, |C i j|) (by
    intro j hj
    rw [hC j (not_lt.mp (Finset.mem_filter.mp hj).2) i]; simp), add_zero]
  symm
  rw [Finset.sum_subtype (Finset.univ.filter fun j => tol < ∑ i, |C i j|) (p := fun j => tol < ∑ i, |C i j|) (by simp)]

theorem CL_leadR (hC : CleanLeads C tol) (x : Fin n → ℝ) : CL C tol *ᵥ lead C tol x = C *ᵥ x := by
  apply cv_inj
  rw [← toC_cv, ← toC_cv, ← CL_lead hC]; rfl

variable (C tol)
theorem G0_mulVec (x : Fin n → ℂ) (w : Lead C tol → ℂ) :
    toC (setupG0 B C tol) *ᵥ Sum.elim x w = Sum.elim (-(toC B *ᵥ x + toC (CL C tol) *ᵥ w)) (lead C tol x) := by
  funext i
  rcases i with i | l
  · simp only [mulVec, dotProduct, Fintype.sum_sum_type, Sum.elim_inl, Sum.elim_inr, toC, setupG0, CL, eqsAndLeads, map_apply, Matrix.neg_apply,
      submatrix_apply, Sum.map_inl, Sum.map_inr, id, fromBlocks_apply₁₁, fromBlocks_apply₁₂, Pi.neg_apply, Pi.add_apply, Complex.ofReal_neg, neg_mul,
      Finset.sum_neg_distrib, neg_add]
  · simp only [mulVec, dotProduct, Fintype.sum_sum_type, Sum.elim_inl, Sum.elim_inr, toC, setupG0, eqsAndLeads, map_apply, Matrix.neg_apply,
      submatrix_apply, Sum.map_inl, Sum.map_inr, id, fromBlocks_apply₂₁, fromBlocks_apply₂₂, lead, Matrix.zero_apply, neg_neg, Matrix.one_apply]
    rw [Finset.sum_eq_single l.1 (by intro m _ hm; rw [if_neg (fun h => hm h.symm)]; simp) (by simp)]
    simp

theorem G1_mulVec (x : Fin n → ℂ) (w : Lead C tol → ℂ) :
    toC (setupG1 A C tol) *ᵥ Sum.elim x w = Sum.elim (toC A *ᵥ x) w := by
  funext i
  rcases i with i | l
  · simp [mulVec, dotProduct, Fintype.sum_sum_type, toC, setupG1, eqsAndLeads]
  · simp only [mulVec, dotProduct, Fintype.sum_sum_type, Sum.elim_inl, Sum.elim_inr, toC, setupG1, eqsAndLeads, map_apply,
      submatrix_apply, Sum.map_inl, Sum.map_inr, id, fromBlocks_apply₂₁, fromBlocks_apply₂₂, Matrix.zero_apply, Matrix.one_apply]
    rw [Finset.sum_eq_zero (by intros; simp), zero_add, Finset.sum_eq_single l]
    · simp
    · intro m _ hm
      rw [if_neg (fun h => hm (Subtype.ext h.symm))]; simp
    · simp

theorem Pi_mulVec (e : Lead C tol → ℂ) : toC (setupPi C tol) *ᵥ e = Sum.elim (0 : Fin n → ℂ) e := by
  funext i
  rcases i with i | l
  · simp [mulVec, dotProduct, toC, setupPi, eqsAndLeads]
  · simp only [mulVec, dotProduct, toC, setupPi, eqsAndLeads, map_apply,
      submatrix_apply, Sum.map_inl, Sum.map_inr, id, fromRows_apply_inr, Sum.elim_inr, Matrix.one_apply]
    rw [Finset.sum_eq_single l]
    · simp
    · intro m _ hm
      rw [if_neg (fun h => hm (Subtype.ext h.symm))]; simp
    · simp

theorem Psi_mulVec (ε : Fin k → ℂ) : toC (setupPsi C D tol) *ᵥ ε = Sum.elim (toC D *ᵥ ε) 0 := by
  funext i
  rcases i with i | l
  · simp [mulVec, dotProduct, toC, setupPsi, eqsAndLeads]
  · simp [mulVec, dotProduct, toC, setupPsi, eqsAndLeads]

theorem elim_ext {α β γ : Type} {a a' : α → γ} {b b' : β → γ} : Sum.elim a b = Sum.elim a' b' ↔ a = a' ∧ b = b' := by
  constructor
  · intro h; exact ⟨funext fun i => congrFun h (.inl i), funext fun i => congrFun h (.inr i)⟩
  · rintro ⟨rfl, rfl⟩; rfl

theorem elim_split {α β γ : Type} (y : α ⊕ β → γ) : y = Sum.elim (fun i => y (.inl i)) (fun i => y (.inr i)) := by
  funext i; cases i <;> rfl

theorem elim_add {α β : Type} (a a' : α → ℂ) (b b' : β → ℂ) : Sum.elim a b + Sum.elim a' b' = Sum.elim (a + a') (b + b') := by
  funext i; cases i <;> rfl

theorem elim_zero {α β : Type} : Sum.elim (0 : α → ℂ) (0 : β → ℂ) = 0 := by
  funext i; cases i <;> rfl

/-- the exact system -/
theorem sys_iff (x x' : Fin n → ℂ) (w w' : Lead C tol → ℂ) :
    toC (setupG0 B C tol) *ᵥ Sum.elim x' w' = toC (setupG1 A C tol) *ᵥ Sum.elim x w ↔
    toC A *ᵥ x + toC B *ᵥ x' + toC (CL C tol) *ᵥ w' = 0 ∧ lead C tol x' = w := by
  rw [G0_mulVec, G1_mulVec, elim_ext, neg_eq_iff_add_eq_zero]
  refine and_congr_left fun _ => ?_
  rw [show toC A *ᵥ x + toC B *ᵥ x' + toC (CL C tol) *ᵥ w' = toC B *ᵥ x' + toC (CL C tol) *ᵥ w' + toC A *ᵥ x by abel]

/-- the system up to expectational errors -/
theorem sysE_iff (x x' : Fin n → ℂ) (w w' : Lead C tol → ℂ) :
    (∃ e, toC (setupG0 B C tol) *ᵥ Sum.elim x' w' = toC (setupG1 A C tol) *ᵥ Sum.elim x w + toC (setupPi C tol) *ᵥ e) ↔
    toC A *ᵥ x + toC B *ᵥ x' + toC (CL C tol) *ᵥ w' = 0 := by
  simp only [G0_mulVec, G1_mulVec, Pi_mulVec, elim_add, elim_ext, add_zero, neg_eq_iff_add_eq_zero]
  rw [show toC A *ᵥ x + toC B *ᵥ x' + toC (CL C tol) *ᵥ w' = toC B *ᵥ x' + toC (CL C tol) *ᵥ w' + toC A *ᵥ x by abel]
  constructor
  · rintro ⟨e, h, _⟩; exact h
  · intro h; exact ⟨lead C tol x' - w, h, by abel⟩

theorem sysS_iff (ε : Fin k → ℂ) (x' : Fin n → ℂ) (w' : Lead C tol → ℂ) :
    (∃ e, toC (setupG0 B C tol) *ᵥ Sum.elim x' w' = toC (setupPsi C D tol) *ᵥ ε + toC (setupPi C tol) *ᵥ e) ↔
    toC B *ᵥ x' + toC (CL C tol) *ᵥ w' + toC D *ᵥ ε = 0 := by
  simp only [G0_mulVec, Psi_mulVec, Pi_mulVec, elim_add, elim_ext, add_zero, zero_add, neg_eq_iff_add_eq_zero]
  constructor
  · rintro ⟨e, h, _⟩; exact h
  · intro h; exact ⟨lead C tol x', h, rfl⟩

end setup

/-! ## the stable subspace in terms of the model -/

section model
variable {n k : ℕ} {A B C : Mat n n} {D : Mat n k} {tol : ℝ} (o : GensysOracle A B C tol)

theorem noZ_iff : NoCoincidentZeros o ↔ (gensysCount tol o.qz.pairs (0, false)).2 = false := by
  have := ((count_spec tol o.qz.pairs 0 false).1).not
  rw [Bool.not_eq_true] at this
  rw [this]
  simp [NoCoincidentZeros]

variable {o}
theorem nd (h : NoCoincidentZeros o) (h0 : 0 < tol) : NonDeg o.qz := nondeg_of_count ((noZ_iff o).mp h) h0

/-- membership in the stable subspace is closed under conjugation -/
theorem unst_star (hz : NoCoincidentZeros o) (h0 : 0 < tol) {y} (h : unst o.qz y = 0) : unst o.qz (star y) = 0 := by
  obtain ⟨p, hp0, hp, hl⟩ := (unst_iff (nd hz h0) y).mp h
  refine (unst_iff (nd hz h0) _).mpr ⟨fun t => star (p t), by simp only [hp0], fun t => ?_, tendsto_star hl⟩
  rw [toC_star, toC_star, hp t]

/-- complex vanishing paths -/
def VP (A B C : Mat n n) (x : ℕ → Fin n → ℂ) : Prop :=
  (∀ t, toC A *ᵥ x t + toC B *ᵥ x (t + 1) + toC C *ᵥ x (t + 2) = 0) ∧ Tendsto x atTop (𝓝 0)

theorem VP_rv {x : ℕ → Fin n → ℂ} (h : VP A B C x) : VanishingPath A B C (fun t => rv (x t)) := by
  refine ⟨fun t => ?_, tendsto_rv h.2⟩
  have := congrArg rv (h.1 t)
  rw [rv_add, rv_add, rv_toC, rv_toC, rv_toC] at this
  exact this

theorem VP_cv {x : ℕ → Fin n → ℝ} (h : VanishingPath A B C x) : VP A B C (fun t => cv (x t)) := by
  refine ⟨fun t => ?_, tendsto_cv h.2⟩
  have := congrArg cv (h.1 t)
  rw [cv_add, cv_add, ← toC_cv, ← toC_cv, ← toC_cv, cv_zero] at this
  exact this

theorem stable_iff (hC : CleanLeads C tol) (hz : NoCoincidentZeros o) (h0 : 0 < tol) (x : Fin n → ℂ) (w : Lead C tol → ℂ) :
    unst o.qz (Sum.elim x w) = 0 ↔ ∃ p, VP A B C p ∧ p 0 = x ∧ lead C tol (p 1) = w := by
  rw [unst_iff (nd hz h0)]
  constructor
  · rintro ⟨y, hy0, hy, hl⟩
    have hy' : ∀ t, _ := fun t => (sys_iff A B C tol (fun i => y t (.inl i)) (fun i => y (t + 1) (.inl i)) (fun i => y t (.inr i)) (fun i => y (t + 1) (.inr i))).mp
      (by rw [← elim_split, ← elim_split]; exact hy t)
    refine ⟨fun t i => y t (.inl i), ⟨fun t => ?_, ?_⟩, ?_, ?_⟩
    · have := (hy' t).1
      rwa [← (hy' (t + 1)).2, CL_lead hC] at this
    · rw [tendsto_pi_nhds] at hl ⊢
      exact fun i => hl (.inl i)
    · funext i; simp [hy0]
    · have := (hy' 0).2
      rw [zero_add] at this
      rw [this]; funext i; simp [hy0]
  · rintro ⟨p, ⟨hp, hl⟩, rfl, rfl⟩
    refine ⟨fun t => Sum.elim (p t) (lead C tol (p (t + 1))), rfl, fun t => ?_, ?_⟩
    · rw [sys_iff, CL_lead hC]
      exact ⟨hp t, rfl⟩
    · rw [tendsto_pi_nhds] at hl ⊢
      rintro (i | l)
      · exact hl i
      · exact (tendsto_add_atTop_iff_nat (f := fun t => p t l.1) 1).mpr (hl l.1)

/-- the unstable coordinates of the expectational errors -/
theorem Q2Pi (e : Lead C tol → ℂ) : (o.qz.Q2 * toC (setupPi C tol)) *ᵥ e = B22 o.qz *ᵥ unst o.qz (Sum.elim 0 e) := by
  have h : toC (setupPi C tol) *ᵥ e = toC (setupG1 A C tol) *ᵥ Sum.elim 0 e := by
    rw [Pi_mulVec, G1_mulVec, mulVec_zero]
  rw [← mulVec_mulVec, h]
  funext u
  change (o.qz.Q *ᵥ (toC (setupG1 A C tol) *ᵥ Sum.elim 0 e)) (.inr u) = _
  rw [mulVec_mulVec, rot1, ← mulVec_mulVec, B_inr]
  rfl

theorem B22_det (hz : NonDeg o.qz) : IsUnit (B22 o.qz).det := by
  rw [det_of_isUpperTriangular (M := B22 o.qz) (fun i j hij => o.qz.B_tri₂ i j hij)]
  exact Ne.isUnit (Finset.prod_ne_zero_iff.mpr fun i _ => hz i)

theorem B22_inj (hz : NonDeg o.qz) {v : Fin o.qz.nu → ℂ} (h : B22 o.qz *ᵥ v = 0) : v = 0 := by
  have := congrArg ((B22 o.qz)⁻¹ *ᵥ ·) h
  simpa [mulVec_mulVec, nonsing_inv_mul _ (B22_det hz)] using this

theorem unst_surj (c : Fin o.qz.nu → ℂ) : ∃ y, unst o.qz y = c :=
  ⟨o.qz.Z *ᵥ Sum.elim 0 c, by funext u; simp only [unst]; rw [ofCoords_inr]; rfl⟩

theorem unst_pair (x : Fin n → ℂ) (w : Lead C tol → ℂ) :
    unst o.qz (Sum.elim x w) = unst o.qz (Sum.elim x 0) + unst o.qz (Sum.elim 0 w) := by
  rw [← unst_add, elim_add, add_zero, zero_add]

theorem exist_iff (hz : NoCoincidentZeros o) (h0 : 0 < tol) :
    o.qz.nu ≤ o.svd.unstable.r ↔ ∀ x : Fin n → ℂ, ∃ w, unst o.qz (Sum.elim x w) = 0 := by
  have hs := svd_surj_iff o.svd.unstable h0
  rw [Fintype.card_fin] at hs
  rw [hs]
  constructor
  · intro h x
    obtain ⟨e, he⟩ := h (B22 o.qz *ᵥ (-unst o.qz (Sum.elim x 0)))
    rw [Q2Pi] at he
    refine ⟨e, ?_⟩
    have := B22_inj (nd hz h0) (v := unst o.qz (Sum.elim 0 e) - -unst o.qz (Sum.elim x 0)) (by rw [mulVec_sub, he, sub_self])
    rw [unst_pair, ← this]; abel
  · intro h c
    obtain ⟨y, hy⟩ := unst_surj (o := o) ((B22 o.qz)⁻¹ *ᵥ c)
    rw [elim_split y, unst_pair] at hy
    obtain ⟨w, hw⟩ := h (fun i => y (.inl i))
    rw [unst_pair] at hw
    refine ⟨(fun i => y (.inr i)) - w, ?_⟩
    rw [Q2Pi]
    have : unst o.qz (Sum.elim 0 ((fun i => y (.inr i)) - w)) = (B22 o.qz)⁻¹ *ᵥ c := by
      rw [show (Sum.elim 0 ((fun i => y (.inr i)) - w) : Fin n ⊕ Lead C tol → ℂ) = Sum.elim (0 : Fin n → ℂ) (fun i => y (.inr i)) - Sum.elim (0 : Fin n → ℂ) w from by
        funext i; cases i <;> simp, unst_sub, ← hy]
      have := eq_neg_of_add_eq_zero_left hw
      rw [this]; abel
    rw [this, mulVec_mulVec, mul_nonsing_inv _ (B22_det (nd hz h0)), one_mulVec]

theorem loose_iff (hz : NoCoincidentZeros o) (h0 : 0 < tol) :
    o.svd.loose = 0 ↔ ∀ w, unst o.qz (Sum.elim (0 : Fin n → ℂ) w) = 0 → w = 0 := by
  constructor
  · intro hl w hw
    have h2 : (o.qz.Q2 * toC (setupPi C tol)) *ᵥ w = 0 := by rw [Q2Pi, hw, mulVec_zero]
    have h1 : (o.qz.Q1 * toC (setupPi C tol)) *ᵥ w = 0 := by
      rw [svd_ker o.svd.stable h0]
      have e1 : o.svd.unstable.v * o.svd.unstable.vᴴ * o.svd.stable.v = o.svd.stable.v := (sub_eq_zero.mp hl).symm
      have e2 : o.svd.stable.vᴴ * (o.svd.unstable.v * o.svd.unstable.vᴴ) = o.svd.stable.vᴴ := by
        have := congrArg conjTranspose e1
        simpa [conjTranspose_mul, Matrix.mul_assoc] using this
      rw [← e2, ← mulVec_mulVec, ← mulVec_mulVec, (svd_ker o.svd.unstable h0 w).mp h2, mulVec_zero, mulVec_zero]
    have h3 : toC (setupPi C tol) *ᵥ w = 0 := Q_split (q := o.qz) _ (by rw [mulVec_mulVec, h1]) (by rw [mulVec_mulVec, h2])
    rw [Pi_mulVec] at h3
    funext l; exact congrFun h3 (.inr l)
  · intro h
    have hinj : ∀ e, o.svd.unstable.vᴴ *ᵥ e = 0 → e = 0 := by
      intro e he
      apply h
      have := (svd_ker o.svd.unstable h0 e).mpr he
      rw [Q2Pi] at this
      exact B22_inj (nd hz h0) this
    have hP : ∀ e, (o.svd.unstable.v * o.svd.unstable.vᴴ) *ᵥ e = e := by
      intro e
      have := hinj (e - (o.svd.unstable.v * o.svd.unstable.vᴴ) *ᵥ e) (by
        rw [mulVec_sub, mulVec_mulVec, ← Matrix.mul_assoc, o.svd.unstable.vv, Matrix.one_mul, sub_self])
      exact (sub_eq_zero.mp this).symm
    have h1 : o.svd.unstable.v * o.svd.unstable.vᴴ = 1 := by
      apply ext_of_mulVec_single
      intro i; rw [hP, one_mulVec]
    rw [EtaSVD.loose, h1, Matrix.one_mul, sub_self]

end model

end Gen

end GE
