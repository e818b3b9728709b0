import Verif.Props.WritingOrder
/-! # C141, C142: log-linearisation changes units only, and equations may be rewritten -/

open Matrix Filter Topology

namespace GE
open DTT

/-! ## specification -/

/-- one unit of the reported deviation of variable `v`, in units of `v` itself: its steady state if it is log-linearised, 1 otherwise -/
noncomputable def unitOf (loglin : List TSym) (ss : List (Str × ℝ)) (v : TSym) : ℝ := promisedScale loglin v (ssOf ss v)

/-- around the steady state two equations restrict the model's variables in the same way: their derivatives are proportional -/
def SameEquation (par : Str → ℝ) (ss : List (Str × ℝ)) (shocks : List TSym) (e e' : SExpr) : Prop :=
  ∃ c : ℝ, c ≠ 0 ∧ ∀ v : TSym, (e'.diff (.tv v)).val (steadyPath par (ssOf ss) shocks) 0 = c * (e.diff (.tv v)).val (steadyPath par (ssOf ss) shocks) 0

namespace Unt

variable {n k : ℕ} {A B C : Mat n n} {D : Mat n k} {tol : ℝ}

theorem vp_change {P S : Mat n n} (hP : IsUnit P.det) (hS : IsUnit S.det) (x : ℕ → Fin n → ℝ) :
    VanishingPath (P * A * S) (P * B * S) (P * C * S) x ↔ VanishingPath A B C (fun t => S *ᵥ x t) := by
  unfold VanishingPath
  refine and_congr (forall_congr' fun t => ?_) ?_
  · have e : (P * A * S) *ᵥ x t + (P * B * S) *ᵥ x (t + 1) + (P * C * S) *ᵥ x (t + 2) =
        P *ᵥ (A *ᵥ (S *ᵥ x t) + B *ᵥ (S *ᵥ x (t + 1)) + C *ᵥ (S *ᵥ x (t + 2))) := by
      simp only [mulVec_add, mulVec_mulVec, Matrix.mul_assoc]
    rw [e]
    constructor
    · intro h
      have h1 := congrArg (P⁻¹ *ᵥ ·) h
      simpa only [mulVec_mulVec, nonsing_inv_mul P hP, one_mulVec, mulVec_zero] using h1
    · intro h
      rw [h, mulVec_zero]
  · have hc : ∀ M : Mat n n, Continuous fun y : Fin n → ℝ => M *ᵥ y := fun M => by
      refine continuous_pi fun i => ?_
      simp only [mulVec, dotProduct]
      fun_prop
    constructor
    · intro h
      have := ((hc S).tendsto 0).comp h
      rwa [mulVec_zero] at this
    · intro h
      have := ((hc S⁻¹).tendsto 0).comp h
      rw [mulVec_zero] at this
      refine this.congr fun t => ?_
      simp only [Function.comp, mulVec_mulVec, nonsing_inv_mul S hS, one_mulVec]

/-- rescaling equations and variables rescales what gensys returns -/
theorem solution_change (h0 : 0 < tol) {P S : Mat n n} (hP : IsUnit P.det) (hS : IsUnit S.det) (hC : CleanLeads C tol) (hC' : CleanLeads (P * C * S) tol)
    (o : GensysOracle A B C tol) (o' : GensysOracle (P * A * S) (P * B * S) (P * C * S) tol) {T T' : Mat n n} {R R' : Mat n k} {f f' : Bool}
    (h : modelSolveGensys D o f = .solved T R) (h' : modelSolveGensys (P * D) o' f' = .solved T' R') : S * T' = T * S ∧ S * R' = R := by
  obtain ⟨-, hr, -, -⟩ := C68_solution h0 hC h
  obtain ⟨-, hr', -, -⟩ := C68_solution h0 hC' h'
  obtain ⟨hz, hr1, hl, hT, -⟩ := Gen.solved_data h
  obtain ⟨hz', hr1', hl', hT', -⟩ := Gen.solved_data h'
  have eT : T = Gen.Treal o := hT
  have eT' : T' = Gen.Treal o' := hT'
  have hST : S * T' = T * S := by
    apply ext_of_mulVec_single
    intro i
    have h1 := (vp_change (A := A) (B := B) (C := C) hP hS _).1 (Gen.T_path hC' hz' h0 hr1' hl' (Pi.single i 1))
    have h2 := Gen.T_path hC hz h0 hr1 hl (S *ᵥ Pi.single i 1)
    have h3 := congrFun ((Gen.unique_iff hC hz h0).1 hl _ _ h1 h2 (by simp only [pow_zero, one_mulVec])) 1
    simp only [pow_one, ← eT, ← eT'] at h3
    rw [← mulVec_mulVec, ← mulVec_mulVec]
    exact h3
  refine ⟨hST, ?_⟩
  have e1 : B * (S * R') + C * T * (S * R') + D = 0 := by
    have h1 : P * (B * (S * R') + C * T * (S * R') + D) = 0 := by
      rw [← hr']
      simp only [Matrix.mul_add, Matrix.mul_assoc]
      rw [← Matrix.mul_assoc T S R', ← hST]
      simp only [Matrix.mul_assoc]
    have h2 := congrArg (fun M : Mat n k => P⁻¹ * M) h1
    simpa only [← Matrix.mul_assoc, nonsing_inv_mul P hP, Matrix.one_mul, Matrix.mul_zero] using h2
  apply ext_of_mulVec_single
  intro i
  have h1 := congrArg (· *ᵥ Pi.single i (1 : ℝ)) hr
  have h2 := congrArg (· *ᵥ Pi.single i (1 : ℝ)) e1
  simp only [add_mulVec, ← mulVec_mulVec, zero_mulVec] at h1 h2
  rw [← mulVec_mulVec]
  refine sub_eq_zero.1 (Gen.inj_BCT (o := o) hC hz h0 hr1 hl _ ?_)
  rw [← eT, mulVec_sub, mulVec_sub, mulVec_sub]
  have : ∀ b c b' c' d : Fin n → ℝ, b + c + d = 0 → b' + c' + d = 0 → b - b' + (c - c') = 0 := by
    intro b c b' c' d e1 e2
    have : b - b' + (c - c') = (b + c + d) - (b' + c' + d) := by abel
    rw [this, e1, e2, sub_zero]
  exact this _ _ _ _ _ h2 h1

theorem solvable_change (h0 : 0 < tol) {P S : Mat n n} (hP : IsUnit P.det) (hS : IsUnit S.det) (hC : CleanLeads C tol) (hC' : CleanLeads (P * C * S) tol)
    (o : GensysOracle A B C tol) (o' : GensysOracle (P * A * S) (P * B * S) (P * C * S) tol) (hz : NoCoincidentZeros o) (hz' : NoCoincidentZeros o')
    (D' : Mat n k) (f f' : Bool) : (∃ T R, modelSolveGensys D o f = .solved T R) ↔ ∃ T R, modelSolveGensys D' o' f' = .solved T R := by
  rw [(C69_solved_iff h0 hC D f).1, (C69_solved_iff h0 hC' D' f').1]
  simp only [hz, hz', true_and]
  have inv1 : ∀ z, S *ᵥ (S⁻¹ *ᵥ z) = z := fun z => by rw [mulVec_mulVec, mul_nonsing_inv S hS, one_mulVec]
  have inv2 : ∀ z, S⁻¹ *ᵥ (S *ᵥ z) = z := fun z => by rw [mulVec_mulVec, nonsing_inv_mul S hS, one_mulVec]
  have vp := vp_change (A := A) (B := B) (C := C) hP hS
  constructor
  · intro h x0
    obtain ⟨x, ⟨hx, hx0⟩, hu⟩ := h (S *ᵥ x0)
    refine ⟨fun t => S⁻¹ *ᵥ x t, ⟨(vp _).2 (by simpa only [inv1] using hx), by simp only [hx0, inv2]⟩, ?_⟩
    rintro y ⟨hy, hy0⟩
    have := hu _ ⟨(vp y).1 hy, by simp only [hy0]⟩
    funext t
    have h1 := congrFun this t
    rw [← h1, inv2]
  · intro h x0
    obtain ⟨y, ⟨hy, hy0⟩, hu⟩ := h (S⁻¹ *ᵥ x0)
    refine ⟨fun t => S *ᵥ y t, ⟨(vp y).1 hy, by simp only [hy0, inv1]⟩, ?_⟩
    rintro x ⟨hx, hx0⟩
    have := hu (fun t => S⁻¹ *ᵥ x t) ⟨(vp _).2 (by simpa only [inv1] using hx), by simp only [hx0]⟩
    funext t
    have h1 := congrFun this t
    rw [← h1, inv1]

/-- the value of an entry of the matrices -/
theorem entry_val (par : Str → ℝ) (ss : List (Str × ℝ)) (shocks : List TSym) (e : SExpr) (v : TSym) :
    evalAt par (ssOf ss) (jacEntry shocks e v) = (e.diff (.tv v)).val (steadyPath par (ssOf ss) shocks) 0 :=
  Ptb.jacEntry_val par (ssOf ss) _ shocks e v 0 0

/-- the matrices after rewriting equations and changing units -/
theorem mats_change (vars : List TSym) (eqs eqs' : List SExpr) (shocks loglin loglin' : List TSym) (par : Str → ℝ) (ss : List (Str × ℝ))
    (hnd : (vars.map TSym.base).Nodup) (hsq : eqs.length = vars.length) (hss : ∀ v ∈ vars, (dget (normalizeConditions ss) v.base).isSome)
    (hu : ∀ v ∈ vars, unitOf loglin ss v ≠ 0) (hu' : ∀ v ∈ vars, unitOf loglin' ss v ≠ 0) (he : List.Forall₂ (SameEquation par ss shocks) eqs eqs') :
    ∃ (m m' : LinMats vars.length shocks.length) (p : Fin vars.length → ℝ), (∀ i, p i ≠ 0) ∧
      linearMats vars eqs shocks loglin par ss = some m ∧ linearMats vars eqs' shocks loglin' par ss = some m' ∧
      m'.A = diagonal p * m.A * diagonal (fun j => unitOf loglin' ss vars[j] / unitOf loglin ss vars[j]) ∧
      m'.B = diagonal p * m.B * diagonal (fun j => unitOf loglin' ss vars[j] / unitOf loglin ss vars[j]) ∧
      m'.C = diagonal p * m.C * diagonal (fun j => unitOf loglin' ss vars[j] / unitOf loglin ss vars[j]) ∧ m'.D = diagonal p * m.D := by
  have hsq' : eqs'.length = vars.length := by rw [← he.length_eq, hsq]
  have hrow : ∀ i : Fin vars.length, ∃ c : ℝ, c ≠ 0 ∧ ∀ v : TSym, ((eqs'[(i : ℕ)]'(by rw [hsq']; exact i.2)).diff (.tv v)).val (steadyPath par (ssOf ss) shocks) 0 =
      c * ((eqs[(i : ℕ)]'(by rw [hsq]; exact i.2)).diff (.tv v)).val (steadyPath par (ssOf ss) shocks) 0 := by
    intro i
    have := (List.forall₂_iff_get.1 he).2 i (by rw [hsq]; exact i.2) (by rw [hsq']; exact i.2)
    exact this
  choose p hp hpv using hrow
  unfold linearMats
  rw [Ptb.linearizeModel_eq vars eqs shocks loglin ss _ hnd hss, Ptb.linearizeModel_eq vars eqs' shocks loglin' ss _ hnd hss]
  have ent : ∀ (es : List SExpr) (hes : es.length = vars.length) (c : List TSym) (f : SExpr → TSym → ℝ) (i : Fin vars.length) (j : Fin c.length),
      (entryAt (es.map fun e => c.map fun v => f e v) i j).getD 0 = f (es[(i : ℕ)]'(by rw [hes]; exact i.2)) c[j] := by
    intro es hes c f i j
    simp only [entryAt, List.getElem?_map]
    rw [List.getElem?_eq_getElem (show (i : ℕ) < es.length by rw [hes]; exact i.2)]
    simp
  have hne : ∀ j : Fin vars.length, unitOf loglin ss vars[j] ≠ 0 := fun j => hu _ (List.getElem_mem _)
  refine ⟨_, _, p, hp, rfl, rfl, ?_, ?_, ?_, ?_⟩
  · ext i j
    rw [mul_diagonal, diagonal_mul]
    simp only [matsOf, Matrix.of_apply, ent _ hsq, ent _ hsq', entry_val, hpv]
    have := hne j
    simp only [unitOf] at this ⊢
    field_simp
  · ext i j
    rw [mul_diagonal, diagonal_mul]
    simp only [matsOf, Matrix.of_apply, ent _ hsq, ent _ hsq', entry_val, hpv]
    have := hne j
    simp only [unitOf] at this ⊢
    field_simp
  · ext i j
    rw [mul_diagonal, diagonal_mul]
    simp only [matsOf, Matrix.of_apply, ent _ hsq, ent _ hsq', entry_val, hpv]
    have := hne j
    simp only [unitOf] at this ⊢
    field_simp
  · ext i j
    rw [diagonal_mul]
    simp only [matsOf, Matrix.of_apply, ent _ hsq, ent _ hsq', entry_val, hpv]

theorem same_refl (par : Str → ℝ) (ss : List (Str × ℝ)) (shocks : List TSym) (e : SExpr) : SameEquation par ss shocks e e := ⟨1, one_ne_zero, fun v => by rw [one_mul]⟩

/-- the solution of gensys inside `solve_model` -/
theorem solved_inside {n k : ℕ} {tol : ℝ} {S : Type} {s : S} {c : Bool} {lin : S → Option (LinMats n k)} {g : GenOracle n tol} {mi : ℕ} {f : Str} {T R}
    {mm : LinMats n k} (hh : solveModel (some (s, c)) lin tol g mi false "gensys".toList f = .ok (some (T, R))) (hlin : lin s = some mm) :
    ∃ (o : GensysOracle mm.A mm.B mm.C tol) (ff : Bool), modelSolveGensys mm.D o ff = .solved T R := by
  obtain ⟨-, s1, b1, m1, hs1, hl1, hr1⟩ := SlvM.inv hh
  cases hs1
  rw [hlin] at hl1
  cases hl1
  rcases SlvM.sol_cases hr1 with ⟨hb, -⟩ | ⟨-, -, o, -, ⟨T2, R2, hm2, hTR⟩ | ⟨-, hn⟩⟩ | ⟨-, hsol, -⟩
  · cases hb
  · cases hTR
    exact ⟨o, _, hm2⟩
  · cases hn
  · exact absurd hsol (by decide)

theorem diag_unit {n : ℕ} {d : Fin n → ℝ} (h : ∀ i, d i ≠ 0) : IsUnit (diagonal d).det := by
  rw [det_diagonal]
  exact isUnit_iff_ne_zero.2 (Finset.prod_ne_zero_iff.2 fun i _ => h i)

/-- the general statement -/
theorem change (vars : List TSym) (eqs eqs' : List SExpr) (shocks loglin loglin' : List TSym) (par : Str → ℝ) (ss : List (Str × ℝ))
    (hnd : (vars.map TSym.base).Nodup) (hsq : eqs.length = vars.length) (hss : ∀ v ∈ vars, (dget (normalizeConditions ss) v.base).isSome)
    (hu : ∀ v ∈ vars, unitOf loglin ss v ≠ 0) (hu' : ∀ v ∈ vars, unitOf loglin' ss v ≠ 0) (he : List.Forall₂ (SameEquation par ss shocks) eqs eqs')
    (tol : ℝ) (h0 : 0 < tol) (gen gen' : GenOracle vars.length tol) (b b' : Bool) (maxIter maxIter' : ℕ) (fl fl' : Str)
    (hclean : ∀ m, linearMats vars eqs shocks loglin par ss = some m → CleanLeads m.C tol)
    (hclean' : ∀ m, linearMats vars eqs' shocks loglin' par ss = some m → CleanLeads m.C tol)
    {T T' : Mat vars.length vars.length} {R R' : Mat vars.length shocks.length}
    (h : solveModel (some (ss, b)) (linearMats vars eqs shocks loglin par) tol gen maxIter false "gensys".toList fl = .ok (some (T, R)))
    (h' : solveModel (some (ss, b')) (linearMats vars eqs' shocks loglin' par) tol gen' maxIter' false "gensys".toList fl' = .ok (some (T', R'))) :
    (∀ i j, unitOf loglin' ss vars[i] * T' i j / unitOf loglin' ss vars[j] = unitOf loglin ss vars[i] * T i j / unitOf loglin ss vars[j]) ∧
    ∀ i j, unitOf loglin' ss vars[i] * R' i j = unitOf loglin ss vars[i] * R i j := by
  obtain ⟨m, m', p, hp, hm, hm', hA, hB, hC, hD⟩ := mats_change vars eqs eqs' shocks loglin loglin' par ss hnd hsq hss hu hu' he
  have hcl := hclean m hm
  have hcl' := hclean' m' hm'
  have hne : ∀ j : Fin vars.length, unitOf loglin ss vars[j] ≠ 0 := fun j => hu _ (List.getElem_mem _)
  have hne' : ∀ j : Fin vars.length, unitOf loglin' ss vars[j] ≠ 0 := fun j => hu' _ (List.getElem_mem _)
  obtain ⟨o, f, ho⟩ := solved_inside h hm
  obtain ⟨o', f', ho'⟩ := solved_inside h' hm'
  have gen : ∀ (A' B' C' : Mat vars.length vars.length) (D' : Mat vars.length shocks.length) (P S : Mat vars.length vars.length), IsUnit P.det → IsUnit S.det →
      A' = P * m.A * S → B' = P * m.B * S → C' = P * m.C * S → D' = P * m.D → CleanLeads C' tol → ∀ (o' : GensysOracle A' B' C' tol),
      modelSolveGensys D' o' f' = .solved T' R' → S * T' = T * S ∧ S * R' = R := by
    rintro _ _ _ _ P S hP hS rfl rfl rfl rfl hcl' o' ho'
    exact solution_change h0 hP hS hcl hcl' o o' ho ho'
  obtain ⟨h1, h2⟩ := gen _ _ _ _ _ _ (diag_unit hp) (diag_unit fun j => div_ne_zero (hne' j) (hne j)) hA hB hC hD hcl' o' ho'
  constructor
  · intro i j
    have := congrFun (congrFun h1 i) j
    rw [diagonal_mul, mul_diagonal] at this
    have a1 := hne i; have a2 := hne j; have a3 := hne' j
    field_simp at this ⊢
    linear_combination this
  · intro i j
    have := congrFun (congrFun h2 i) j
    rw [diagonal_mul] at this
    have a1 := hne i
    field_simp at this
    linear_combination this

end Unt

/-- **C141**: log-linearisation changes units only. Whichever variables are log-linearised, `solve_model(solver="gensys")` describes the same dynamics
of the variables themselves: expressed in units of the variables, the entries of `T` and `R` are the same -/
theorem C141_solution (vars : List TSym) (eqs : List SExpr) (shocks loglin loglin' : List TSym) (par : Str → ℝ) (ss : List (Str × ℝ))
    (hnd : (vars.map TSym.base).Nodup) (hsq : eqs.length = vars.length) (hss : ∀ v ∈ vars, (dget (normalizeConditions ss) v.base).isSome)
    (hu : ∀ v ∈ vars, unitOf loglin ss v ≠ 0) (hu' : ∀ v ∈ vars, unitOf loglin' ss v ≠ 0)
    (tol : ℝ) (h0 : 0 < tol) (gen gen' : GenOracle vars.length tol) (b b' : Bool) (maxIter maxIter' : ℕ) (fl fl' : Str)
    (hclean : ∀ m, linearMats vars eqs shocks loglin par ss = some m → CleanLeads m.C tol)
    (hclean' : ∀ m, linearMats vars eqs shocks loglin' par ss = some m → CleanLeads m.C tol)
    {T T' : Mat vars.length vars.length} {R R' : Mat vars.length shocks.length}
    (h : solveModel (some (ss, b)) (linearMats vars eqs shocks loglin par) tol gen maxIter false "gensys".toList fl = .ok (some (T, R)))
    (h' : solveModel (some (ss, b')) (linearMats vars eqs shocks loglin' par) tol gen' maxIter' false "gensys".toList fl' = .ok (some (T', R'))) :
    (∀ i j, unitOf loglin' ss vars[i] * T' i j / unitOf loglin' ss vars[j] = unitOf loglin ss vars[i] * T i j / unitOf loglin ss vars[j]) ∧
    ∀ i j, unitOf loglin' ss vars[i] * R' i j = unitOf loglin ss vars[i] * R i j :=
  Unt.change vars eqs eqs shocks loglin loglin' par ss hnd hsq hss hu hu' (List.forall₂_same.2 fun e _ => Unt.same_refl par ss shocks e) tol h0 gen gen' b b'
    maxIter maxIter' fl fl' hclean hclean' h h'

/-- **C142**: equations may be rewritten. If every equation is replaced by one that restricts the variables in the same way around the steady state,
`solve_model(solver="gensys")` returns the same `T` and `R` -/
theorem C142_solution (vars : List TSym) (eqs eqs' : List SExpr) (shocks loglin : List TSym) (par : Str → ℝ) (ss : List (Str × ℝ))
    (hnd : (vars.map TSym.base).Nodup) (hsq : eqs.length = vars.length) (hss : ∀ v ∈ vars, (dget (normalizeConditions ss) v.base).isSome)
    (hu : ∀ v ∈ vars, unitOf loglin ss v ≠ 0) (he : List.Forall₂ (SameEquation par ss shocks) eqs eqs')
    (tol : ℝ) (h0 : 0 < tol) (gen gen' : GenOracle vars.length tol) (b b' : Bool) (maxIter maxIter' : ℕ) (fl fl' : Str)
    (hclean : ∀ m, linearMats vars eqs shocks loglin par ss = some m → CleanLeads m.C tol)
    (hclean' : ∀ m, linearMats vars eqs' shocks loglin par ss = some m → CleanLeads m.C tol)
    {T T' : Mat vars.length vars.length} {R R' : Mat vars.length shocks.length}
    (h : solveModel (some (ss, b)) (linearMats vars eqs shocks loglin par) tol gen maxIter false "gensys".toList fl = .ok (some (T, R)))
    (h' : solveModel (some (ss, b')) (linearMats vars eqs' shocks loglin par) tol gen' maxIter' false "gensys".toList fl' = .ok (some (T', R'))) :
    T' = T ∧ R' = R := by
  obtain ⟨h1, h2⟩ := Unt.change vars eqs eqs' shocks loglin loglin par ss hnd hsq hss hu hu he tol h0 gen gen' b b' maxIter maxIter' fl fl' hclean hclean' h h'
  have hne : ∀ j : Fin vars.length, unitOf loglin ss vars[j] ≠ 0 := fun j => hu _ (List.getElem_mem _)
  constructor
  · ext i j
    have := h1 i j
    have a1 := hne i; have a2 := hne j
    field_simp at this
    exact this
  · ext i j
    exact mul_left_cancel₀ (hne i) (h2 i j)

/-- **C142**: an equation may be multiplied by anything that is not zero at the steady state, in particular by a number or a parameter, or have its
sides exchanged -/
theorem C142_multiplied (par : Str → ℝ) (ss : List (Str × ℝ)) (shocks : List TSym) (e g : SExpr) (hz : e.val (steadyPath par (ssOf ss) shocks) 0 = 0)
    (hg : g.val (steadyPath par (ssOf ss) shocks) 0 ≠ 0) : SameEquation par ss shocks e (.mul g e) := by
  refine ⟨_, hg, fun v => ?_⟩
  rw [SExpr.diff, val_add, val_mul, val_mul, hz, mul_zero, zero_add]

/-- **C142**: the sides of an equation may be exchanged -/
theorem C142_exchanged (par : Str → ℝ) (ss : List (Str × ℝ)) (shocks : List TSym) (l r : SExpr) :
    SameEquation par ss shocks (.add l (.mul (.num (-1)) r)) (.add r (.mul (.num (-1)) l)) := by
  refine ⟨-1, by norm_num, fun v => ?_⟩
  simp only [SExpr.diff, val_add, val_mul, val_num]
  push_cast
  ring

/-- **C142**: an equation between quantities that are not zero at the steady state may be written in logs -/
theorem C142_logs (par : Str → ℝ) (ss : List (Str × ℝ)) (shocks : List TSym) (l r : SExpr)
    (hz : (SExpr.add l (.mul (.num (-1)) r)).val (steadyPath par (ssOf ss) shocks) 0 = 0) (hl : l.val (steadyPath par (ssOf ss) shocks) 0 ≠ 0) :
    SameEquation par ss shocks (.add l (.mul (.num (-1)) r)) (.add (.log l) (.mul (.num (-1)) (.log r))) := by
  have hlr : r.val (steadyPath par (ssOf ss) shocks) 0 = l.val (steadyPath par (ssOf ss) shocks) 0 := by
    simp only [val_add, val_mul, val_num] at hz
    push_cast at hz
    linarith
  refine ⟨(l.val (steadyPath par (ssOf ss) shocks) 0)⁻¹, inv_ne_zero hl, fun v => ?_⟩
  simp only [SExpr.diff, val_add, val_mul, val_num, val_div, hlr]
  push_cast
  field_simp
  ring

/-- **C142**: rewriting can be repeated and undone -/
theorem C142_equivalence (par : Str → ℝ) (ss : List (Str × ℝ)) (shocks : List TSym) : Equivalence (SameEquation par ss shocks) where
  refl e := Unt.same_refl par ss shocks e
  symm := by
    rintro e e' ⟨c, hc, h⟩
    exact ⟨c⁻¹, inv_ne_zero hc, fun v => by rw [h v]; field_simp⟩
  trans := by
    rintro e e' e'' ⟨c, hc, h⟩ ⟨c', hc', h'⟩
    exact ⟨c' * c, mul_ne_zero hc' hc, fun v => by rw [h' v, h v]; ring⟩

/-- **C141** and **C142**: nor does it matter for whether there is a solution. For matrices related by a change of units and by rewriting equations, gensys
finds a solution for the one exactly when it does for the other, provided no coincident zeros are reported -/
theorem C141_solvable (vars : List TSym) (eqs eqs' : List SExpr) (shocks loglin loglin' : List TSym) (par : Str → ℝ) (ss : List (Str × ℝ))
    (hnd : (vars.map TSym.base).Nodup) (hsq : eqs.length = vars.length) (hss : ∀ v ∈ vars, (dget (normalizeConditions ss) v.base).isSome)
    (hu : ∀ v ∈ vars, unitOf loglin ss v ≠ 0) (hu' : ∀ v ∈ vars, unitOf loglin' ss v ≠ 0) (he : List.Forall₂ (SameEquation par ss shocks) eqs eqs')
    (tol : ℝ) (h0 : 0 < tol) (m m' : LinMats vars.length shocks.length)
    (hm : linearMats vars eqs shocks loglin par ss = some m) (hm' : linearMats vars eqs' shocks loglin' par ss = some m')
    (hc : CleanLeads m.C tol) (hc' : CleanLeads m'.C tol) (o : GensysOracle m.A m.B m.C tol) (o' : GensysOracle m'.A m'.B m'.C tol)
    (hz : NoCoincidentZeros o) (hz' : NoCoincidentZeros o') (f f' : Bool) :
    (∃ T R, modelSolveGensys m.D o f = .solved T R) ↔ ∃ T R, modelSolveGensys m'.D o' f' = .solved T R := by
  obtain ⟨m1, m2, p, hp, h1, h2, hA, hB, hC, hD⟩ := Unt.mats_change vars eqs eqs' shocks loglin loglin' par ss hnd hsq hss hu hu' he
  rw [hm] at h1
  rw [hm'] at h2
  cases h1
  cases h2
  have hne : ∀ j : Fin vars.length, unitOf loglin ss vars[j] ≠ 0 := fun j => hu _ (List.getElem_mem _)
  have hne' : ∀ j : Fin vars.length, unitOf loglin' ss vars[j] ≠ 0 := fun j => hu' _ (List.getElem_mem _)
  have gen : ∀ (A' B' C' : Mat vars.length vars.length) (D' : Mat vars.length shocks.length) (P S : Mat vars.length vars.length), IsUnit P.det → IsUnit S.det →
      A' = P * m.A * S → B' = P * m.B * S → C' = P * m.C * S → CleanLeads C' tol → ∀ (o' : GensysOracle A' B' C' tol), NoCoincidentZeros o' →
      ((∃ T R, modelSolveGensys m.D o f = .solved T R) ↔ ∃ T R, modelSolveGensys D' o' f' = .solved T R) := by
    rintro _ _ _ D' P S hP hS rfl rfl rfl hcl' o' ho'
    exact Unt.solvable_change h0 hP hS hc hcl' o o' hz ho' D' f f'
  exact gen _ _ _ _ _ _ (Unt.diag_unit hp) (Unt.diag_unit fun j => div_ne_zero (hne' j) (hne j)) hA hB hC hc' o' hz'

namespace Unt

theorem units_matrix {n k : ℕ} {u u' : Fin n → ℝ} (hu : ∀ i, u i ≠ 0) (hu' : ∀ i, u' i ≠ 0) {T T' : Mat n n} {R R' : Mat n k}
    (hT : ∀ i j, u' i * T' i j / u' j = u i * T i j / u j) (hR : ∀ i j, u' i * R' i j = u i * R i j) :
    diagonal (fun i => u' i / u i) * T' = T * diagonal (fun i => u' i / u i) ∧ diagonal (fun i => u' i / u i) * R' = R := by
  constructor
  · ext i j
    rw [diagonal_mul, mul_diagonal]
    have := hT i j
    have a1 := hu i; have a2 := hu j; have a3 := hu' j
    field_simp at this ⊢
    linear_combination this
  · ext i j
    rw [diagonal_mul]
    have := hR i j
    have a1 := hu i
    field_simp
    linear_combination this

theorem units_pow {n : ℕ} {M T T' : Mat n n} (h : M * T' = T * M) (t : ℕ) : M * T' ^ t = T ^ t * M := by
  induction t with
  | zero => simp
  | succ t ih => rw [pow_succ, ← Matrix.mul_assoc, ih, Matrix.mul_assoc, h, ← Matrix.mul_assoc, pow_succ]

end Unt

/-- **C141**: the impulse responses of the variables themselves are the same whichever variables are log-linearised -/
theorem C141_irf {n k : ℕ} (u u' : Fin n → ℝ) (hu : ∀ i, u i ≠ 0) (hu' : ∀ i, u' i ≠ 0) {T T' : Mat n n} {R R' : Mat n k}
    (hT : ∀ i j, u' i * T' i j / u' j = u i * T i j / u j) (hR : ∀ i j, u' i * R' i j = u i * R i j)
    (chol : Mat k k → Option (Mat k k)) (z : Fin k → ℝ) (names : Fin k → Str) (len : ℕ) (s : ShockSize) (rq rq' : Option Bool) (orth orth' : Bool)
    {sel sel' : List Str} {data data' : List (List (Fin n → ℝ))}
    (h : impulseResponse chol z names T R len ⟨some s, none, none⟩ rq orth = .ok (.individual sel data))
    (h' : impulseResponse chol z names T' R' len ⟨some s, none, none⟩ rq' orth' = .ok (.individual sel' data')) :
    sel' = sel ∧ List.Forall₂ (fun d d' => d'.length = d.length ∧ ∀ t < len, ∀ i, u' i * atTime d' t i = u i * atTime d t i) data data' := by
  obtain ⟨idx, hidx, hsel, hmem, hall⟩ := C37_individual chol z names T R len s rq orth sel data h
  obtain ⟨idx', hidx', hsel', hmem', hall'⟩ := C37_individual chol z names T' R' len s rq' orth' sel' data' h'
  have hii : idx' = idx := by
    have h1 : ∀ i, i ∈ idx' ↔ i ∈ idx := fun i => by rw [hmem, hmem']
    rw [hidx, hidx']
    apply List.filter_congr
    intro i _
    have h2 := h1 i
    rw [hidx, hidx', List.mem_filter, List.mem_filter] at h2
    simpa using h2
  subst hii
  refine ⟨by rw [hsel, hsel'], ?_⟩
  obtain ⟨m1, m2⟩ := Unt.units_matrix hu hu' hT hR
  clear hidx hidx' hsel hsel' hmem hmem' h h'
  induction hall generalizing data' with
  | nil => cases hall'; exact .nil
  | @cons i d is ds hd _ ih =>
    cases hall' with
    | cons hd' ht' =>
      refine .cons ⟨by rw [hd.1, hd'.1], fun t ht j => ?_⟩ (ih ht')
      rw [hd.2 t ht, hd'.2 t ht]
      have e : diagonal (fun i => u' i / u i) * (T' ^ t * R') = T ^ t * R := by
        rw [← Matrix.mul_assoc, Unt.units_pow m1, Matrix.mul_assoc, m2]
      have e2 := congrFun (congrFun e j) i
      rw [diagonal_mul] at e2
      simp only [Pi.smul_apply, col_apply, smul_eq_mul]
      have a1 := hu j
      rw [← e2]
      field_simp

/-- **C141**: and so are their covariances -/
theorem C141_covariance {n k : ℕ} (u u' : Fin n → ℝ) (hu : ∀ i, u i ≠ 0) (hu' : ∀ i, u' i ≠ 0) {T T' : Mat n n} {R R' : Mat n k}
    (hT : ∀ i j, u' i * T' i j / u' j = u i * T i j / u j) (hR : ∀ i j, u' i * R' i j = u i * R i j)
    (hlim : Tendsto (fun t : ℕ => T ^ t) atTop (𝓝 0)) (names : Fin k → Str) (hinj : Function.Injective names)
    (lyap lyap' : Mat n n → Mat n n → Option (Mat n n)) (hlyap : LyapSpec lyap) (hlyap' : LyapSpec lyap')
    (opt : ShockOptions) (hd : ∀ d, opt.stdDict = some d → (dkeys d).Nodup) {S S' : Mat n n}
    (hS : stationaryCov lyap names T R opt = .ok S) (hS' : stationaryCov lyap' names T' R' opt = .ok S') :
    ∀ i j, u' i * u' j * S' i j = u i * u j * S i j := by
  obtain ⟨Q, hQ, hfix, -⟩ := C47_stationary lyap hlyap names hinj T R opt hd S hS
  obtain ⟨Q', hQ', hfix', -⟩ := C47_stationary lyap' hlyap' names hinj T' R' opt hd S' hS'
  have hQQ : Q' = Q := Except.ok.inj (((C47_Q names hinj opt hd Q').2 hQ').symm.trans ((C47_Q names hinj opt hd Q).2 hQ))
  subst hQQ
  obtain ⟨m1, m2⟩ := Unt.units_matrix hu hu' hT hR
  have hx : diagonal (fun i => u' i / u i) * S' * diagonal (fun i => u' i / u i) =
      T * (diagonal (fun i => u' i / u i) * S' * diagonal (fun i => u' i / u i)) * Tᵀ + R * Q' * Rᵀ := by
    have hdt : (diagonal (fun i => u' i / u i) : Mat n n)ᵀ = diagonal (fun i => u' i / u i) := diagonal_transpose _
    revert hdt m1 m2
    generalize (diagonal (fun i => u' i / u i) : Mat n n) = M
    intro m1 m2 hdt
    have t1 := congrArg transpose m1
    have t2 := congrArg transpose m2
    rw [transpose_mul, transpose_mul, hdt] at t1
    rw [transpose_mul, hdt] at t2
    have e1 : M * S' * M = (M * T') * S' * (T'ᵀ * M) + (M * R') * Q' * (R'ᵀ * M) := by
      have := congrArg (fun X : Mat n n => M * X * M) hfix'
      simp only [Matrix.mul_add, Matrix.add_mul] at this
      rw [this]
      simp only [Matrix.mul_assoc]
    rw [m1, t1, m2, t2] at e1
    refine e1.trans ?_
    simp only [Matrix.mul_assoc]
  have hu1 := (C47_limit T R Q' S hfix hlim).1 _ hx
  intro i j
  rw [← hu1, mul_diagonal, diagonal_mul]
  have a1 := hu i; have a2 := hu j
  field_simp

/-! ## the hypotheses are met -/

namespace Unt

/-- gensys solves every model `b x_t = a x_{t-1} + D ε_t` with diagonal `a` smaller than `b` -/
theorem diag_solved {n k : ℕ} {A B C : Mat n n} (a b : Fin n → ℝ) (hA : A = diagonal a) (hB : B = -diagonal b) (hC : C = 0) (ha : ∀ i, |a i| < |b i|) {tol : ℝ}
    (h0 : 0 < tol) (h1 : ∀ i, tol ≤ |b i|) (D : Mat n k) (f : Bool) : ∃ (o : GensysOracle A B C tol) (T : Mat n n) (R : Mat n k), modelSolveGensys D o f = .solved T R := by
  have hb : ∀ i, b i ≠ 0 := fun i h => by have := h1 i; rw [h, abs_zero] at this; linarith
  have hemp : IsEmpty (Lead C tol) := ⟨fun j => absurd j.2 (by
    have : ∀ i, C i j.1 = 0 := fun i => congrFun (congrFun hC i) j.1
    simp only [this, abs_zero, Finset.sum_const_zero]
    exact h0.le.not_gt)⟩
  let ε : (Fin n ⊕ Fin 0) ≃ (Fin n ⊕ Lead C tol) := Equiv.sumCongr (Equiv.refl _) (Equiv.equivOfIsEmpty _ _)
  have hg0 : ∀ i j, (toC (setupG0 B C tol)).submatrix ε ε (.inl i) (.inl j) = ((-(B i j) : ℝ) : ℂ) := fun _ _ => rfl
  have hg1 : ∀ i j, (toC (setupG1 A C tol)).submatrix ε ε (.inl i) (.inl j) = ((A i j : ℝ) : ℂ) := fun _ _ => rfl
  let q : SortedQZ (toC (setupG0 B C tol)) (toC (setupG1 A C tol)) :=
    { ns := n, nu := 0
      Q := (1 : Matrix (Fin n ⊕ Lead C tol) (Fin n ⊕ Lead C tol) ℂ).submatrix ε id
      Z := (1 : Matrix (Fin n ⊕ Lead C tol) (Fin n ⊕ Lead C tol) ℂ).submatrix id ε
      A := (toC (setupG0 B C tol)).submatrix ε ε
      B := (toC (setupG1 A C tol)).submatrix ε ε
      Q_right := by
        rw [conjTranspose_submatrix, conjTranspose_one, ← submatrix_mul _ _ _ _ _ Function.bijective_id, Matrix.mul_one, submatrix_one_equiv]
      Q_left := by
        rw [conjTranspose_submatrix, conjTranspose_one, submatrix_mul_equiv, Matrix.mul_one, submatrix_id_id]
      Z_right := by
        rw [conjTranspose_submatrix, conjTranspose_one, submatrix_mul_equiv, Matrix.mul_one, submatrix_id_id]
      Z_left := by
        rw [conjTranspose_submatrix, conjTranspose_one, ← submatrix_mul _ _ _ _ _ Function.bijective_id, Matrix.mul_one, submatrix_one_equiv]
      A_eq := by
        ext i j
        simp [mul_apply, one_apply]
      B_eq := by
        ext i j
        simp [mul_apply, one_apply]
      A_low := fun i => i.elim0
      A_tri₁ := fun i j h => by
        rw [hg0, hB]
        simp [h.ne']
      A_tri₂ := fun i => i.elim0
      B_low := fun i => i.elim0
      B_tri₁ := fun i j h => by
        rw [hg1, hA]
        simp [h.ne']
      B_tri₂ := fun i => i.elim0
      sorted₁ := fun i => by
        rw [hg0, hg1, hA, hB]
        simpa using ha i
      sorted₂ := fun i => i.elim0 }
  have thin : ∀ {a' : Type} [Fintype a'] (M : Matrix a' (Lead C tol) ℂ), Nonempty (ThinSVD M tol) := fun {a'} _ M =>
    ⟨{ r := 0, u := fun _ i => i.elim0, d := fun i => i.elim0, v := fun _ i => i.elim0, uu := by ext i; exact i.elim0, vv := by ext i; exact i.elim0
       big := fun i => i.elim0, exact := by ext i j; exact (hemp.false j).elim }⟩
  obtain ⟨t1⟩ := thin (q.Q2 * toC (setupPi C tol))
  obtain ⟨t2⟩ := thin (q.Q1 * toC (setupPi C tol))
  let o : GensysOracle A B C tol := ⟨q, ⟨t1, t2⟩⟩
  refine ⟨o, (C69_solved_iff h0 (fun j _ i => by rw [hC]; rfl) D f).1.2 ⟨?_, ?_⟩⟩
  · intro p hp
    rw [SortedQZ.pairs, List.mem_append, List.mem_map, List.mem_map] at hp
    rcases hp with ⟨i, -, rfl⟩ | ⟨i, -⟩
    · intro hh
      have h2 : ‖(toC (setupG0 B C tol)).submatrix ε ε (.inl i) (.inl i)‖ < tol := hh.1
      rw [hg0, hB] at h2
      simp at h2
      exact absurd (h1 i) (not_le.2 h2)
    · exact i.elim0
  · intro x0
    refine ⟨fun t i => (a i / b i) ^ t * x0 i, ⟨⟨fun t => ?_, ?_⟩, by funext i; simp⟩, ?_⟩
    · funext i
      rw [hA, hB, hC]
      simp only [Pi.add_apply, mulVec_diagonal, neg_mulVec, Pi.neg_apply, zero_mulVec, Pi.zero_apply]
      have := hb i
      rw [pow_succ]
      field_simp
      ring
    · refine tendsto_pi_nhds.2 fun i => ?_
      have := (tendsto_pow_atTop_nhds_zero_of_abs_lt_one (show |a i / b i| < 1 by rw [abs_div, div_lt_one (abs_pos.2 (hb i))]; exact ha i)).mul_const (x0 i)
      simpa using this
    · rintro y ⟨⟨hy, -⟩, hy0⟩
      funext t
      induction t with
      | zero => funext i; simp [hy0]
      | succ t ih =>
        funext i
        have := congrFun (hy t) i
        rw [hA, hB, hC] at this
        simp only [Pi.add_apply, mulVec_diagonal, neg_mulVec, Pi.neg_apply, zero_mulVec, Pi.zero_apply, ih] at this
        have hbi := hb i
        have h2 : b i * y (t + 1) i = a i * ((a i / b i) ^ t * x0 i) := by linarith
        rw [pow_succ]
        field_simp at h2 ⊢
        linear_combination h2

open Rsp in
theorem rs_mats_of (eq : SExpr) (p : ℝ) (loglin : List TSym) (u : ℝ) (hu : promisedScale loglin rsX (ssOf rsSS rsX) = u)
    (hq : ∀ v, (eq.diff (.tv v)).val (steadyPath (fun _ => 0) (ssOf rsSS) [rsE]) 0 = p * (rsQ.diff (.tv v)).val (steadyPath (fun _ => 0) (ssOf rsSS) [rsE]) 0) :
    ∃ m, linearMats [rsX] [eq] [rsE] loglin (fun _ => 0) rsSS = some m ∧ m.A = diagonal (fun _ => p * u / 2) ∧ m.B = -diagonal (fun _ => p * u) ∧ m.C = 0 := by
  have ent : ∀ v, evalAt (fun _ => 0) (ssOf rsSS) (jacEntry [rsE] eq v) =
      p * (1 / 2 * (if Sym.tv (rsX.atT (-1)) = .tv v then 1 else 0) + (if Sym.tv rsE = .tv v then 1 else 0) * 4 - (if Sym.tv rsX = .tv v then 1 else 0)) := by
    intro v
    rw [entry_val, hq, ← entry_val, rs_entry]
  refine ⟨_, by rw [linearMats, Ptb.linearizeModel_eq _ _ _ _ _ (evalAt fun _ => 0) rs_named.varNames (by simp [rs_ss])]; rfl, ?_, ?_, ?_⟩
  all_goals
    ext i j
    have hi : (i : ℕ) = 0 := by exact Nat.lt_one_iff.1 i.isLt
    have hj : (j : ℕ) = 0 := by exact Nat.lt_one_iff.1 j.isLt
    have hij : i = j := Fin.ext (hi.trans hj.symm)
    subst hij
    simp only [matsOf, Matrix.of_apply, entryAt, hi, List.map_cons, List.map_nil, List.getElem?_cons_zero, Option.bind_some, Option.getD_some, ent, hu]
  · rw [if_pos (by decide), if_neg (by decide), if_neg (by decide)]
    simp
    ring
  · rw [if_neg (by decide), if_neg (by decide), if_pos (by decide)]
    simp
  · rw [if_neg (by decide), if_neg (by decide), if_neg (by decide)]
    simp

open Rsp in
theorem rs_solved (eq : SExpr) (p : ℝ) (loglin : List TSym) (u : ℝ) (hu : promisedScale loglin rsX (ssOf rsSS rsX) = u) (hp : 1 ≤ p) (hu1 : 1 ≤ u)
    (hq : ∀ v, (eq.diff (.tv v)).val (steadyPath (fun _ => 0) (ssOf rsSS) [rsE]) 0 = p * (rsQ.diff (.tv v)).val (steadyPath (fun _ => 0) (ssOf rsSS) [rsE]) 0) :
    ∃ gen T R, solveModel (some (rsSS, true)) (linearMats [rsX] [eq] [rsE] loglin fun _ => 0) (1 / 100) gen 5 false "gensys".toList "error".toList =
      .ok (some (T, R)) ∧ ∀ m, linearMats [rsX] [eq] [rsE] loglin (fun _ => 0) rsSS = some m → CleanLeads m.C (1 / 100) := by
  classical
  obtain ⟨m, hm, hA, hB, hC⟩ := rs_mats_of eq p loglin u hu hq
  have hpu : 1 ≤ p * u := by nlinarith
  obtain ⟨o, T, R, ho⟩ := diag_solved _ _ hA hB hC (fun _ => by rw [abs_of_pos (by linarith), abs_of_pos (by linarith)]; linarith) (tol := 1 / 100) (by norm_num)
    (fun _ => by rw [abs_of_pos (by linarith)]; linarith) m.D true
  refine ⟨fun A B C => if h : A = m.A ∧ B = m.B ∧ C = m.C then some (by rw [h.1, h.2.1, h.2.2]; exact o) else none, T, R, ?_, ?_⟩
  · unfold solveModel
    rw [if_neg (by simp)]
    dsimp only
    rw [hm]
    dsimp only
    unfold solveLinear
    simp [ho]
  · intro m' hm'
    have : m' = m := Option.some.inj (hm'.symm.trans hm)
    subst this
    intro j _ i
    rw [hC]; rfl

end Unt

open Unt Rsp in
/-- the hypotheses of `C141_solution` and `C142_solution` are met: `x[] = 2 + 0.5*x[-1] + e[]*x[-1]` with steady state 4 is solved in levels, in logs, and
after multiplying the equation by 3; the loading of the shock is 4 times larger in levels than in logs, and the same after the multiplication -/
example : ∃ gen gen' gen'' T R T' R' T'' R'',
    solveModel (some (rsSS, true)) (linearMats [rsX] [rsQ] [rsE] [] fun _ => 0) (1 / 100) gen 5 false "gensys".toList "error".toList = .ok (some (T, R)) ∧
    solveModel (some (rsSS, true)) (linearMats [rsX] [rsQ] [rsE] [rsX] fun _ => 0) (1 / 100) gen' 5 false "gensys".toList "error".toList = .ok (some (T', R')) ∧
    solveModel (some (rsSS, true)) (linearMats [rsX] [.mul (.num 3) rsQ] [rsE] [] fun _ => 0) (1 / 100) gen'' 5 false "gensys".toList "error".toList =
      .ok (some (T'', R'')) ∧
    4 * R' 0 0 = R 0 0 ∧ T' 0 0 = T 0 0 ∧ R'' = R := by
  have u0 : promisedScale [] rsX (ssOf rsSS rsX) = 1 := by simp [promisedScale]
  have hs : ssOf rsSS rsX = 4 := by simp [ssOf, rs_ss]
  have u1 : promisedScale [rsX] rsX (ssOf rsSS rsX) = 4 := by
    rw [hs, promisedScale, if_pos]
    exact ⟨by simp, by decide, .inr (by norm_num)⟩
  have hz : rsQ.val (steadyPath (fun _ => 0) (ssOf rsSS) [rsE]) 0 = 0 := by
    rw [← eval_symAt]
    have hx := rs_x (-1)
    have hx0 := rs_x 0
    have hx0' : (steadyPath (fun _ => 0) (ssOf rsSS) [rsE]).val.symAt 0 (.tv rsX) = 4 := hx0
    simp only [rsQ, SExpr.eval, hx, hx0', rs_e]
    push_cast
    norm_num
  have h3 : SameEquation (fun _ => 0) rsSS [rsE] rsQ (.mul (.num 3) rsQ) := C142_multiplied _ _ _ _ _ hz (by simp)
  obtain ⟨gen, T, R, h, hc⟩ := rs_solved rsQ 1 [] 1 u0 le_rfl le_rfl (fun v => by rw [one_mul])
  obtain ⟨gen', T', R', h', hc'⟩ := rs_solved rsQ 1 [rsX] 4 u1 le_rfl (by norm_num) (fun v => by rw [one_mul])
  obtain ⟨gen'', T'', R'', h'', hc''⟩ := rs_solved (.mul (.num 3) rsQ) 3 [] 1 u0 (by norm_num) le_rfl (fun v => by
    rw [SExpr.diff, val_add, val_mul, val_mul, hz, mul_zero, zero_add, val_num]; norm_num)
  have hss : ∀ v ∈ [rsX], (dget (normalizeConditions rsSS) v.base).isSome := by simp [rs_ss]
  have hu0 : ∀ v ∈ [rsX], unitOf [] rsSS v ≠ 0 := by
    intro v hv
    simp only [List.mem_singleton] at hv
    subst hv
    rw [unitOf, u0]; norm_num
  have hu1 : ∀ v ∈ [rsX], unitOf [rsX] rsSS v ≠ 0 := by
    intro v hv
    simp only [List.mem_singleton] at hv
    subst hv
    rw [unitOf, u1]; norm_num
  refine ⟨gen, gen', gen'', T, R, T', R', T'', R'', h, h', h'', ?_, ?_, ?_⟩
  · have := (C141_solution [rsX] [rsQ] [rsE] [] [rsX] (fun _ => 0) rsSS rs_named.varNames rfl hss hu0 hu1 _ (by norm_num) gen gen' _ _ _ _ _ _ hc hc' h h').2 0 0
    have e1 : unitOf [rsX] rsSS ([rsX][(0 : Fin 1)]) = 4 := u1
    have e2 : unitOf [] rsSS ([rsX][(0 : Fin 1)]) = 1 := u0
    have this' : unitOf [rsX] rsSS ([rsX][(0 : Fin 1)]) * R' 0 0 = unitOf [] rsSS ([rsX][(0 : Fin 1)]) * R 0 0 := this
    rw [e1, e2, one_mul] at this'
    exact this'
  · have := (C141_solution [rsX] [rsQ] [rsE] [] [rsX] (fun _ => 0) rsSS rs_named.varNames rfl hss hu0 hu1 _ (by norm_num) gen gen' _ _ _ _ _ _ hc hc' h h').1 0 0
    have e1 : unitOf [rsX] rsSS ([rsX][(0 : Fin 1)]) = 4 := u1
    have e2 : unitOf [] rsSS ([rsX][(0 : Fin 1)]) = 1 := u0
    have this' : unitOf [rsX] rsSS ([rsX][(0 : Fin 1)]) * T' 0 0 / unitOf [rsX] rsSS ([rsX][(0 : Fin 1)]) =
      unitOf [] rsSS ([rsX][(0 : Fin 1)]) * T 0 0 / unitOf [] rsSS ([rsX][(0 : Fin 1)]) := this
    rw [e1, e2, one_mul, div_one] at this'
    rw [← this']
    ring
  · exact (C142_solution [rsX] [rsQ] [.mul (.num 3) rsQ] [rsE] [] (fun _ => 0) rsSS rs_named.varNames rfl hss hu0 (.cons h3 .nil) _ (by norm_num) gen gen''
      _ _ _ _ _ _ hc hc'' h h'').2

end GE
