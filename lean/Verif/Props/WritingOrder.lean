import Verif.Props.BKReport
import Verif.Props.RationalExpectations
/-! # C140: results belong to names, not positions -/

open Matrix Filter Topology

namespace GE

/-! ## specification -/

/-- two tables with labelled rows and columns say the same thing: entries with the same labels are equal -/
def SameByName {α β : Type} {n m k l : ℕ} (row : Fin n → α) (row' : Fin m → α) (col : Fin k → β) (col' : Fin l → β) (M : Mat n k) (M' : Mat m l) : Prop :=
  ∀ i i' j j', row' i' = row i → col' j' = col j → M' i' j' = M i j

/-- the options name the shocks one by one or treat them alike: not an array or a matrix listed by position -/
def ByName (o : ShockOptions) : Prop := o.cov = none ∧ ∀ l, o.std ≠ some (.ndarray l)

namespace WOr

variable {m n k k' : ℕ} {A B C : Mat n n} {D : Mat n k} {tol : ℝ}

theorem vp_reorder (ρ σ : Fin m ≃ Fin n) (x : ℕ → Fin n → ℝ) :
    VanishingPath (A.submatrix ρ σ) (B.submatrix ρ σ) (C.submatrix ρ σ) (fun t => x t ∘ σ) ↔ VanishingPath A B C x := by
  have hs : ∀ z : Fin n → ℝ, (z ∘ σ) ∘ σ.symm = z := fun z => by funext i; simp
  unfold VanishingPath
  refine and_congr (forall_congr' fun t => ?_) ?_
  · simp only [submatrix_mulVec_equiv, hs]
    constructor
    · intro h
      funext i
      have := congrFun h (ρ.symm i)
      simpa using this
    · intro h
      funext i
      exact congrFun h (ρ i)
  · rw [tendsto_pi_nhds, tendsto_pi_nhds]
    exact ⟨fun h i => by simpa using h (σ.symm i), fun h i => h (σ i)⟩

/-- what gensys returns for the reordered system is what it returns for the original one, reordered -/
theorem solution_reorder (h0 : 0 < tol) (hC : CleanLeads C tol) (ρ σ : Fin m ≃ Fin n) (τ : Fin k' ≃ Fin k) (o : GensysOracle A B C tol)
    (o' : GensysOracle (A.submatrix ρ σ) (B.submatrix ρ σ) (C.submatrix ρ σ) tol) {T : Mat n n} {R : Mat n k} {T' : Mat m m} {R' : Mat m k'} {f f' : Bool}
    (h : modelSolveGensys D o f = .solved T R) (h' : modelSolveGensys (D.submatrix ρ τ) o' f' = .solved T' R') :
    T' = T.submatrix σ σ ∧ R' = R.submatrix σ τ := by
  have hC' := BKP.clean_reorder hC ρ σ
  obtain ⟨hq, hr, -, hv⟩ := C68_solution h0 hC h
  obtain ⟨-, hr', -, -⟩ := C68_solution h0 hC' h'
  obtain ⟨hz, hr1, hl, hT, -⟩ := Gen.solved_data h
  obtain ⟨hz', hr1', hl', hT', -⟩ := Gen.solved_data h'
  have eT : T = Gen.Treal o := hT
  have eT' : T' = Gen.Treal o' := hT'
  have step : ∀ z : Fin n → ℝ, (T *ᵥ z) ∘ σ = T' *ᵥ (z ∘ σ) := by
    intro z
    have h1 := Gen.T_path hC hz h0 hr1 hl z
    have h2 := (vp_reorder (A := A) (B := B) (C := C) ρ σ _).2 h1
    have h3 := Gen.T_path hC' hz' h0 hr1' hl' (z ∘ σ)
    have h4 := (Gen.unique_iff hC' hz' h0).1 hl' _ _ h2 h3 (by simp)
    have h5 := congrFun h4 1
    simp only [pow_one, ← eT, ← eT'] at h5
    exact h5
  have hTT : T' = T.submatrix σ σ := by
    apply ext_of_mulVec_single
    intro i
    rw [submatrix_mulVec_equiv, step, Function.comp_assoc, Equiv.symm_comp_self, Function.comp_id]
  refine ⟨hTT, ?_⟩
  have e1 : B.submatrix ρ σ * R.submatrix σ τ + C.submatrix ρ σ * T' * R.submatrix σ τ + D.submatrix ρ τ = 0 := by
    rw [hTT, submatrix_mul_equiv, submatrix_mul_equiv, submatrix_mul_equiv]
    exact congrArg (fun M : Mat n k => M.submatrix ρ τ) hr
  apply ext_of_mulVec_single
  intro i
  have h1 := congrArg (· *ᵥ Pi.single i (1 : ℝ)) hr'
  have h2 := congrArg (· *ᵥ Pi.single i (1 : ℝ)) e1
  simp only [add_mulVec, ← mulVec_mulVec, zero_mulVec] at h1 h2
  refine sub_eq_zero.1 (Gen.inj_BCT (o := o') hC' hz' h0 hr1' hl' _ ?_)
  rw [← eT', mulVec_sub, mulVec_sub, mulVec_sub]
  have : ∀ b c b' c' d : Fin m → ℝ, b + c + d = 0 → b' + c' + d = 0 → b - b' + (c - c') = 0 := by
    intro b c b' c' d e1 e2
    have : b - b' + (c - c') = (b + c + d) - (b' + c' + d) := by abel
    rw [this, e1, e2, sub_zero]
  exact this _ _ _ _ _ h1 h2

theorem steadyPath_perm (par : Str → ℝ) (ss : TSym → ℝ) {shocks shocks' : List TSym} (h : shocks'.Perm shocks) :
    steadyPath par ss shocks' = steadyPath par ss shocks := by
  have : ∀ x : TSym, x ∈ shocks'.map toSS ↔ x ∈ shocks.map toSS := fun x => (h.map toSS).mem_iff
  unfold steadyPath
  simp only [this]

theorem jac_perm (par : Str → ℝ) (ss : TSym → ℝ) {shocks shocks' : List TSym} (h : shocks'.Perm shocks) (e : SExpr) (v : TSym) :
    evalAt par ss (jacEntry shocks' e v) = evalAt par ss (jacEntry shocks e v) := by
  unfold evalAt
  rw [Ptb.jacEntry_val par ss _ shocks' e v 0 0, Ptb.jacEntry_val par ss _ shocks e v 0 0, steadyPath_perm par ss h]

theorem scale_perm {loglin loglin' : List TSym} (h : loglin'.Perm loglin) (v : TSym) (x : ℝ) :
    promisedScale loglin' v x = promisedScale loglin v x := by
  have : v.base ∈ loglin'.map TSym.base ↔ v.base ∈ loglin.map TSym.base := (h.map _).mem_iff
  unfold promisedScale
  simp only [this]

/-- the matrices of the rewritten model are those of the original one, reordered -/
theorem mats_reorder (vars vars' : List TSym) (eqs eqs' : List SExpr) (shocks shocks' loglin loglin' : List TSym) (par : Str → ℝ) (ss : List (Str × ℝ))
    (hv : vars'.Perm vars) (he : eqs'.Perm eqs) (hk : shocks'.Perm shocks) (hll : loglin'.Perm loglin) (hnd : (vars.map TSym.base).Nodup)
    (hsq : eqs.length = vars.length) (hss : ∀ v ∈ vars, (dget (normalizeConditions ss) v.base).isSome) :
    ∃ (m : LinMats vars.length shocks.length) (m' : LinMats vars'.length shocks'.length) (ρ σ : Fin vars'.length ≃ Fin vars.length)
      (τ : Fin shocks'.length ≃ Fin shocks.length),
      linearMats vars eqs shocks loglin par ss = some m ∧ linearMats vars' eqs' shocks' loglin' par ss = some m' ∧
      (∀ j, vars[σ j] = vars'[j]) ∧ (∀ j, shocks[τ j] = shocks'[j]) ∧
      m'.A = m.A.submatrix ρ σ ∧ m'.B = m.B.submatrix ρ σ ∧ m'.C = m.C.submatrix ρ σ ∧ m'.D = m.D.submatrix ρ τ := by
  have hnd' : (vars'.map TSym.base).Nodup := (hv.map _).nodup_iff.2 hnd
  have hss' : ∀ v ∈ vars', (dget (normalizeConditions ss) v.base).isSome := fun v h => hss v (hv.mem_iff.1 h)
  obtain ⟨σ, hσ⟩ := BKP.list_equiv hv
  obtain ⟨ρ0, hρ⟩ := BKP.list_equiv he
  obtain ⟨τ, hτ⟩ := BKP.list_equiv hk
  have hsq' : eqs'.length = vars'.length := by rw [he.length_eq, hsq, hv.length_eq]
  let ρ : Fin vars'.length ≃ Fin vars.length := ((finCongr hsq'.symm).trans ρ0).trans (finCongr hsq)
  unfold linearMats
  rw [Ptb.linearizeModel_eq vars eqs shocks loglin ss _ hnd hss, Ptb.linearizeModel_eq vars' eqs' shocks' loglin' ss _ hnd' hss']
  simp only [jac_perm par _ hk, scale_perm hll]
  have key : ∀ (c c' : List TSym) (π : Fin c'.length ≃ Fin c.length), (∀ j, c[π j] = c'[j]) → ∀ f : SExpr → TSym → ℝ,
      (Matrix.of fun (i : Fin vars'.length) (j : Fin c'.length) => (entryAt (eqs'.map fun e => c'.map fun v => f e v) i j).getD 0) =
      (Matrix.of fun (i : Fin vars.length) (j : Fin c.length) => (entryAt (eqs.map fun e => c.map fun v => f e v) i j).getD 0).submatrix ρ π := by
    intro c c' π hπ f
    ext i j
    have hi : (i : ℕ) < eqs'.length := by rw [hsq']; exact i.2
    have e1 : eqs'[(i : ℕ)]? = some (eqs'[(i : ℕ)]'hi) := List.getElem?_eq_getElem hi
    have e2 : eqs[((ρ i : Fin vars.length) : ℕ)]? = some (eqs'[(i : ℕ)]'hi) := by
      have := hρ ⟨i, hi⟩
      have hlt : ((ρ i : Fin vars.length) : ℕ) < eqs.length := by rw [hsq]; exact (ρ i).2
      rw [List.getElem?_eq_getElem hlt]
      exact congrArg some this
    have e3 : c'[(j : ℕ)]? = some c'[j] := by simp
    have e4 : c[((π j : Fin c.length) : ℕ)]? = some c'[j] := by
      rw [← hπ j]; simp
    simp only [Matrix.of_apply, submatrix_apply, entryAt, List.getElem?_map, e1, e2, e3, e4, Option.map_some, Option.bind_some, Option.getD_some]
  exact ⟨_, _, ρ, σ, τ, rfl, rfl, hσ, hτ,
    key vars vars' σ hσ fun e v => evalAt par (ssOf ss) (jacEntry shocks e (v.atT (-1))) * promisedScale loglin v (ssOf ss v),
    key vars vars' σ hσ fun e v => evalAt par (ssOf ss) (jacEntry shocks e (v.atT 0)) * promisedScale loglin v (ssOf ss v),
    key vars vars' σ hσ fun e v => evalAt par (ssOf ss) (jacEntry shocks e (v.atT 1)) * promisedScale loglin v (ssOf ss v),
    key shocks shocks' τ hτ fun e v => evalAt par (ssOf ss) (jacEntry shocks e v)⟩

/-- the place of a name is unique when names are not repeated -/
theorem place {α β : Type} {l l' : List α} (f : α → β) (hnd : (l.map f).Nodup) {σ : Fin l'.length ≃ Fin l.length} (hσ : ∀ j, l[σ j] = l'[j])
    {i : Fin l.length} {i' : Fin l'.length} (h : f l'[i'] = f l[i]) : σ i' = i := by
  rw [← hσ i'] at h
  have h1 : (l.map f)[((σ i' : Fin l.length) : ℕ)]? = (l.map f)[(i : ℕ)]? := by
    simp only [List.getElem?_map, Fin.getElem_fin] at h ⊢
    rw [List.getElem?_eq_getElem (σ i').2, List.getElem?_eq_getElem i.2, Option.map_some, Option.map_some, h]
  exact Fin.ext ((List.getElem?_inj (by simp) hnd).1 h1)

end WOr

/-- **C140**: results belong to names. A model whose variables, equations, shocks and log-linearised variables are listed in another order is the same
model: whenever `solve_model(solver="gensys")` solves both, the transition matrices agree entry by entry, looked up by variable name, and so do the
shock loadings, looked up by variable and shock name -/
theorem C140_solution (vars vars' : List TSym) (eqs eqs' : List SExpr) (shocks shocks' loglin loglin' : List TSym) (par : Str → ℝ) (ss : List (Str × ℝ))
    (hv : vars'.Perm vars) (he : eqs'.Perm eqs) (hk : shocks'.Perm shocks) (hll : loglin'.Perm loglin) (hnd : (vars.map TSym.base).Nodup)
    (hkd : (shocks.map TSym.base).Nodup) (hsq : eqs.length = vars.length) (hss : ∀ v ∈ vars, (dget (normalizeConditions ss) v.base).isSome)
    (tol : ℝ) (h0 : 0 < tol) (gen : GenOracle vars.length tol) (gen' : GenOracle vars'.length tol) (b b' : Bool) (maxIter maxIter' : ℕ) (fl fl' : Str)
    (hclean : ∀ m, linearMats vars eqs shocks loglin par ss = some m → CleanLeads m.C tol)
    {T : Mat vars.length vars.length} {R : Mat vars.length shocks.length} {T' : Mat vars'.length vars'.length} {R' : Mat vars'.length shocks'.length}
    (h : solveModel (some (ss, b)) (linearMats vars eqs shocks loglin par) tol gen maxIter false "gensys".toList fl = .ok (some (T, R)))
    (h' : solveModel (some (ss, b')) (linearMats vars' eqs' shocks' loglin' par) tol gen' maxIter' false "gensys".toList fl' = .ok (some (T', R'))) :
    SameByName (fun i => vars[i].base) (fun i => vars'[i].base) (fun i => vars[i].base) (fun i => vars'[i].base) T T' ∧
    SameByName (fun i => vars[i].base) (fun i => vars'[i].base) (fun i => shocks[i].base) (fun i => shocks'[i].base) R R' := by
  obtain ⟨m, m', ρ, σ, τ, hm, hm', hσ, hτ, hA, hB, hC, hD⟩ := WOr.mats_reorder vars vars' eqs eqs' shocks shocks' loglin loglin' par ss hv he hk hll hnd hsq hss
  have hcl := hclean m hm
  have ex : ∀ {n k : ℕ} {S : Type} {s : S} {c : Bool} {lin : S → Option (LinMats n k)} {g : GenOracle n tol} {mi : ℕ} {f : Str} {T R} {mm : LinMats n k},
      solveModel (some (s, c)) lin tol g mi false "gensys".toList f = .ok (some (T, R)) → lin s = some mm →
      ∃ (o : GensysOracle mm.A mm.B mm.C tol) (ff : Bool), modelSolveGensys mm.D o ff = .solved T R := by
    intro n k S s c lin g mi f T R mm hh hlin
    obtain ⟨-, s1, b1, m1, hs1, hl1, hr1⟩ := SlvM.inv hh
    cases hs1
    rw [hlin] at hl1
    cases hl1
    rcases SlvM.sol_cases hr1 with ⟨hb, -⟩ | ⟨-, -, o, -, ⟨T2, R2, hm2, hTR⟩ | ⟨-, hn⟩⟩ | ⟨-, hsol, -⟩
    · cases hb
    · cases hTR
      exact ⟨o, _, hm2⟩
    · cases hn
    · exact absurd hsol (by decide)
  obtain ⟨o, f, ho⟩ := ex h hm
  obtain ⟨o', f', ho'⟩ := ex h' hm'
  have gen : ∀ (A' B' C' : Mat vars'.length vars'.length) (D' : Mat vars'.length shocks'.length), A' = m.A.submatrix ρ σ → B' = m.B.submatrix ρ σ →
      C' = m.C.submatrix ρ σ → D' = m.D.submatrix ρ τ → ∀ (o' : GensysOracle A' B' C' tol), modelSolveGensys D' o' f' = .solved T' R' →
      T' = T.submatrix σ σ ∧ R' = R.submatrix σ τ := by
    rintro _ _ _ _ rfl rfl rfl rfl o' ho'
    exact WOr.solution_reorder h0 hcl ρ σ τ o o' ho ho'
  obtain ⟨rfl, rfl⟩ := gen _ _ _ _ hA hB hC hD o' ho'
  constructor
  · intro i i' j j' hi hj
    rw [submatrix_apply, WOr.place TSym.base hnd hσ hi, WOr.place TSym.base hnd hσ hj]
  · intro i i' j j' hi hj
    rw [submatrix_apply, WOr.place TSym.base hnd hσ hi, WOr.place TSym.base hkd hτ hj]

/-- **C140**: whether there is a solution does not depend on the order either. If LAPACK reports no coincident zeros, gensys solves the reordered
system exactly when it solves the original one -/
theorem C140_solvable {m n k k' : ℕ} {A B C : Mat n n} {tol : ℝ} (h0 : 0 < tol) (hC : CleanLeads C tol) (ρ σ : Fin m ≃ Fin n) (o : GensysOracle A B C tol)
    (o' : GensysOracle (A.submatrix ρ σ) (B.submatrix ρ σ) (C.submatrix ρ σ) tol) (hz : NoCoincidentZeros o) (hz' : NoCoincidentZeros o')
    (D : Mat n k) (D' : Mat m k') (f f' : Bool) :
    (∃ T R, modelSolveGensys D o f = .solved T R) ↔ ∃ T R, modelSolveGensys D' o' f' = .solved T R := by
  rw [(C69_solved_iff h0 hC D f).1, (C69_solved_iff h0 (BKP.clean_reorder hC ρ σ) D' f').1]
  simp only [hz, hz', true_and]
  have hs : ∀ z : Fin n → ℝ, (z ∘ σ) ∘ σ.symm = z := fun z => by funext i; simp
  have hs' : ∀ z : Fin m → ℝ, (z ∘ σ.symm) ∘ σ = z := fun z => by funext i; simp
  have fwd := WOr.vp_reorder (A := A) (B := B) (C := C) ρ σ
  have bwd : ∀ y : ℕ → Fin m → ℝ, VanishingPath (A.submatrix ρ σ) (B.submatrix ρ σ) (C.submatrix ρ σ) y ↔ VanishingPath A B C fun t => y t ∘ σ.symm := by
    intro y
    rw [← fwd]
    simp only [hs']
  constructor
  · intro h x0
    obtain ⟨x, ⟨hx, hx0⟩, hu⟩ := h (x0 ∘ σ.symm)
    refine ⟨fun t => x t ∘ σ, ⟨(fwd x).2 hx, by simp only [hx0, hs']⟩, ?_⟩
    rintro y ⟨hy, hy0⟩
    have := hu _ ⟨(bwd y).1 hy, by simp only [hy0]⟩
    funext t
    have h1 := congrFun this t
    rw [← h1, hs']
  · intro h x0
    obtain ⟨y, ⟨hy, hy0⟩, hu⟩ := h (x0 ∘ σ)
    refine ⟨fun t => y t ∘ σ.symm, ⟨(bwd y).1 hy, by simp only [hy0, hs]⟩, ?_⟩
    rintro x ⟨hx, hx0⟩
    have := hu _ ⟨(fwd x).2 hx, by simp only [hx0]⟩
    funext t
    have h1 := congrFun this t
    rw [← h1, hs]

namespace WOr

theorem linSolve_reorder {m n : ℕ} {β β' : Type} (ρ σ : Fin m ≃ Fin n) (π : β' → β) (M : Mat n n) (N : Matrix (Fin n) β ℝ) :
    linSolve (M.submatrix ρ σ) (N.submatrix ρ π) = (linSolve M N).map fun X => X.submatrix σ π := by
  have h : IsUnit (M.submatrix ρ σ).det ↔ IsUnit M.det := by
    rw [← isUnit_iff_isUnit_det, ← isUnit_iff_isUnit_det, isUnit_submatrix_equiv]
  unfold linSolve
  by_cases hu : IsUnit M.det
  · rw [if_pos hu, if_pos (h.2 hu), inv_submatrix_equiv, submatrix_mul_equiv, Option.map_some]
  · rw [if_neg hu, if_neg (fun hc => hu (h.1 hc)), Option.map_none]

theorem norm1_reorder {m n k l : ℕ} (ρ : Fin m ≃ Fin n) (σ : Fin l ≃ Fin k) (M : Mat n k) : norm1 (M.submatrix ρ σ) = norm1 M := by
  unfold norm1
  rw [← σ.iSup_comp (g := fun j => ∑ i, |M i j|)]
  congr 1
  funext j
  exact ρ.sum_comp fun i => |M i (σ j)|

/-- the state of the loop on the reordered system -/
def reState {m n : ℕ} (ρ σ : Fin m ≃ Fin n) (s : CRState n) : CRState m := ⟨s.A0.submatrix ρ σ, s.A1.submatrix ρ σ, s.A2.submatrix ρ σ, s.A1hat.submatrix ρ σ⟩

def reExit {m n : ℕ} (ρ σ : Fin m ≃ Fin n) : CRExit n → CRExit m
  | .done s => .done (reState ρ σ s)
  | .early msg l => .early msg l

theorem crStep_reorder {m n : ℕ} (ρ σ : Fin m ≃ Fin n) (s : CRState n) : crStep (reState ρ σ s) = (crStep s).map (reState ρ σ) := by
  have hc : fromCols (s.A0.submatrix ρ σ) (s.A2.submatrix ρ σ) = (fromCols s.A0 s.A2).submatrix ρ (Sum.map σ σ) := by
    ext i (j | j) <;> rfl
  have hr : fromRows (s.A0.submatrix ρ σ) (s.A2.submatrix ρ σ) = (fromRows s.A0 s.A2).submatrix (Sum.map ρ ρ) σ := by
    ext (i | i) j <;> rfl
  unfold crStep
  simp only [reState, hc, linSolve_reorder]
  cases linSolve s.A1 (fromCols s.A0 s.A2) with
  | none => rfl
  | some sol =>
    simp only [Option.map_some, hr, submatrix_mul_equiv]
    rfl

theorem crLoop_reorder {m n : ℕ} (ρ σ : Fin m ≃ Fin n) (tol : ℝ) (left : ℕ) (s : CRState n) :
    crLoop tol left (reState ρ σ s) = (crLoop tol left s).map (reExit ρ σ) := by
  induction left generalizing s with
  | zero => rfl
  | succ left ih =>
    unfold crLoop
    rw [crStep_reorder]
    cases crStep s with
    | none => rfl
    | some s' =>
      have h0 : norm1 (reState ρ σ s').A0 = norm1 s'.A0 := norm1_reorder _ _ _
      have h1 : norm1 (reState ρ σ s').A1 = norm1 s'.A1 := norm1_reorder _ _ _
      have h2 : norm1 (reState ρ σ s').A2 = norm1 s'.A2 := norm1_reorder _ _ _
      simp only [Option.map_some, h0, h1, h2, ih]
      split_ifs <;> rfl

theorem cr_reorder {m n k k' : ℕ} (A B C : Mat n n) (D : Mat n k) (ρ σ : Fin m ≃ Fin n) (τ : Fin k' ≃ Fin k) (maxIter : ℕ) (tol : ℝ) :
    solveWithCR (A.submatrix ρ σ) (B.submatrix ρ σ) (C.submatrix ρ σ) (D.submatrix ρ τ) maxIter tol =
      (solveWithCR A B C D maxIter tol).map (Option.map fun p => (p.1.submatrix σ σ, p.2.submatrix σ τ)) := by
  have hn : ∀ Y : Mat n n, -(Y.submatrix σ σ) = (-Y).submatrix σ σ := fun Y => rfl
  have hsel : ∀ Y : Mat n n, selectionMatrix (B.submatrix ρ σ) (C.submatrix ρ σ) (D.submatrix ρ τ) (Y.submatrix σ σ) =
      (selectionMatrix B C D Y).map fun X => X.submatrix σ τ := by
    intro Y
    unfold selectionMatrix
    rw [submatrix_mul_equiv, show (C * Y).submatrix ρ σ + B.submatrix ρ σ = (C * Y + B).submatrix ρ σ from rfl, linSolve_reorder]
    cases linSolve (C * Y + B) D <;> rfl
  unfold solveWithCR solvePolicyCR cycleReduction
  rw [show (⟨A.submatrix ρ σ, B.submatrix ρ σ, C.submatrix ρ σ, B.submatrix ρ σ⟩ : CRState m) = reState ρ σ ⟨A, B, C, B⟩ from rfl, crLoop_reorder]
  cases crLoop tol maxIter ⟨A, B, C, B⟩ with
  | none => rfl
  | some ex =>
    cases ex with
    | early msg l => rfl
    | done s =>
      have hl : linSolve (reState ρ σ s).A1hat (A.submatrix ρ σ) = (linSolve s.A1hat A).map fun X => X.submatrix σ σ := linSolve_reorder ρ σ σ _ _
      simp only [Option.map_some, reExit, hl]
      cases linSolve s.A1hat A with
      | none => rfl
      | some Y =>
        simp only [Option.map_some, hn, hsel]
        cases selectionMatrix B C D (-Y) <;> rfl

theorem backward_reorder {m n k k' : ℕ} (A B C : Mat n n) (D : Mat n k) (ρ σ : Fin m ≃ Fin n) (τ : Fin k' ≃ Fin k) :
    solveBackwardDirect (A.submatrix ρ σ) (B.submatrix ρ σ) (C.submatrix ρ σ) (D.submatrix ρ τ) =
      (solveBackwardDirect A B C D).map fun p => (p.1.submatrix σ σ, p.2.submatrix σ τ) := by
  unfold solveBackwardDirect solveBackwardPolicy solveBackwardShockMatrix
  rw [show -(B.submatrix ρ σ) = (-B).submatrix ρ σ from rfl, linSolve_reorder, linSolve_reorder]
  cases linSolve (-B) A <;> cases linSolve B D <;> rfl

end WOr

/-- **C140**: the same for the other two solvers, here even for failures: `solve_model` of the rewritten model, with cycle reduction or the direct
solution of a backward-looking model, fails with the same error or returns the same numbers under the same names -/
theorem C140_other_solvers (vars vars' : List TSym) (eqs eqs' : List SExpr) (shocks shocks' loglin loglin' : List TSym) (par : Str → ℝ) (ss : List (Str × ℝ))
    (hv : vars'.Perm vars) (he : eqs'.Perm eqs) (hk : shocks'.Perm shocks) (hll : loglin'.Perm loglin) (hnd : (vars.map TSym.base).Nodup)
    (hkd : (shocks.map TSym.base).Nodup) (hsq : eqs.length = vars.length) (hss : ∀ v ∈ vars, (dget (normalizeConditions ss) v.base).isSome)
    (tol : ℝ) (gen : GenOracle vars.length tol) (gen' : GenOracle vars'.length tol) (b b' backward : Bool) (maxIter : ℕ) (solver fl : Str)
    (hsol : backward = true ∨ solver ≠ "gensys".toList) :
    (∀ e, solveModel (some (ss, b)) (linearMats vars eqs shocks loglin par) tol gen maxIter backward solver fl = .error e ↔
      solveModel (some (ss, b')) (linearMats vars' eqs' shocks' loglin' par) tol gen' maxIter backward solver fl = .error e) ∧
    ∀ r r', solveModel (some (ss, b)) (linearMats vars eqs shocks loglin par) tol gen maxIter backward solver fl = .ok r →
      solveModel (some (ss, b')) (linearMats vars' eqs' shocks' loglin' par) tol gen' maxIter backward solver fl = .ok r' →
      (r = none ↔ r' = none) ∧ ∀ T R T' R', r = some (T, R) → r' = some (T', R') →
        SameByName (fun i => vars[i].base) (fun i => vars'[i].base) (fun i => vars[i].base) (fun i => vars'[i].base) T T' ∧
        SameByName (fun i => vars[i].base) (fun i => vars'[i].base) (fun i => shocks[i].base) (fun i => shocks'[i].base) R R' := by
  obtain ⟨m, m', ρ, σ, τ, hm, hm', hσ, hτ, hA, hB, hC, hD⟩ := WOr.mats_reorder vars vars' eqs eqs' shocks shocks' loglin loglin' par ss hv he hk hll hnd hsq hss
  have key : solveModel (some (ss, b')) (linearMats vars' eqs' shocks' loglin' par) tol gen' maxIter backward solver fl =
      (solveModel (some (ss, b)) (linearMats vars eqs shocks loglin par) tol gen maxIter backward solver fl).map
        (Option.map fun p => (p.1.submatrix σ σ, p.2.submatrix σ τ)) := by
    unfold solveModel
    by_cases hf : fl ≠ "error".toList ∧ fl ≠ "ignore".toList
    · rw [if_pos hf, if_pos hf]; rfl
    rw [if_neg hf, if_neg hf]
    dsimp only
    rw [hm, hm']
    dsimp only
    unfold solveLinear
    have hng : (if backward = true then "backward_direct".toList else solver) ≠ "gensys".toList := by
      rcases hsol with rfl | hs
      · rw [if_pos rfl]; decide
      · split
        · decide
        · exact hs
    dsimp only
    rw [if_neg hng, if_neg hng, hA, hB, hC, hD]
    by_cases hcr : (if backward = true then "backward_direct".toList else solver) = "cycle_reduction".toList
    · rw [if_pos hcr, if_pos hcr, WOr.cr_reorder]
      cases solveWithCR m.A m.B m.C m.D maxIter tol <;> rfl
    rw [if_neg hcr, if_neg hcr]
    by_cases hbd : (if backward = true then "backward_direct".toList else solver) = "backward_direct".toList
    · rw [if_pos hbd, if_pos hbd]
      cases backward with
      | false => rfl
      | true =>
        rw [if_pos rfl, if_pos rfl, WOr.backward_reorder]
        cases solveBackwardDirect m.A m.B m.C m.D <;> rfl
    · rw [if_neg hbd, if_neg hbd]; rfl
  rw [key]
  constructor
  · intro e
    cases solveModel (some (ss, b)) (linearMats vars eqs shocks loglin par) tol gen maxIter backward solver fl with
    | error e' => simp [Except.map]
    | ok r => simp [Except.map]
  · intro r r' hr hr'
    rw [hr] at hr'
    simp only [Except.map, Except.ok.injEq] at hr'
    subst hr'
    refine ⟨by simp, ?_⟩
    rintro T R T' R' rfl h
    simp only [Option.map_some, Option.some.injEq, Prod.mk.injEq] at h
    obtain ⟨rfl, rfl⟩ := h
    constructor
    · intro i i' j j' hi hj
      rw [submatrix_apply, WOr.place TSym.base hnd hσ hi, WOr.place TSym.base hnd hσ hj]
    · intro i i' j j' hi hj
      rw [submatrix_apply, WOr.place TSym.base hnd hσ hi, WOr.place TSym.base hkd hτ hj]

/-- **C140**: covariances belong to names. For solutions that agree by name and options that describe the shocks by name, the two covariance matrices
agree by name -/
theorem C140_covariance {n m k l : ℕ} (vn : Fin n → Str) (vn' : Fin m → Str) (sn : Fin k → Str) (sn' : Fin l → Str) (σ : Fin m ≃ Fin n) (τ : Fin l ≃ Fin k)
    (hσ : ∀ i, vn (σ i) = vn' i) (hτ : ∀ i, sn (τ i) = sn' i) (hvn : Function.Injective vn) (hsn : Function.Injective sn)
    {T : Mat n n} {R : Mat n k} {T' : Mat m m} {R' : Mat m l} (hT : SameByName vn vn' vn vn' T T') (hR : SameByName vn vn' sn sn' R R')
    (hlim : Tendsto (fun t : ℕ => T ^ t) atTop (𝓝 0))
    (lyap : Mat n n → Mat n n → Option (Mat n n)) (hlyap : LyapSpec lyap) (lyap' : Mat m m → Mat m m → Option (Mat m m)) (hlyap' : LyapSpec lyap')
    (opt : ShockOptions) (hopt : ByName opt) (hd : ∀ d, opt.stdDict = some d → (dkeys d).Nodup) {S : Mat n n} {S' : Mat m m}
    (hS : stationaryCov lyap sn T R opt = .ok S) (hS' : stationaryCov lyap' sn' T' R' opt = .ok S') : SameByName vn vn' vn vn' S S' := by
  have hsn' : Function.Injective sn' := fun a b hab => τ.injective (hsn (by rw [hτ, hτ, hab]))
  obtain ⟨Q, hQ, hfix, -⟩ := C47_stationary lyap hlyap sn hsn T R opt hd S hS
  obtain ⟨Q', hQ', hfix', -⟩ := C47_stationary lyap' hlyap' sn' hsn' T' R' opt hd S' hS'
  have eT : T' = T.submatrix σ σ := by
    ext i j
    exact hT (σ i) i (σ j) j (hσ i).symm (hσ j).symm
  have eR : R' = R.submatrix σ τ := by
    ext i j
    exact hR (σ i) i (τ j) j (hσ i).symm (hτ j).symm
  have eQ : Q' = Q.submatrix τ τ := by
    rcases hQ with ⟨C, rfl, -⟩ | ⟨d, rfl, -, v, hvd, hv⟩ | ⟨r, rfl, -, hv⟩ | ⟨x, rfl, -⟩
    · exact absurd hopt.1 (by simp)
    · rcases hQ' with ⟨C, hc, -⟩ | ⟨d', hc, -, v', hvd', hv'⟩ | ⟨r, hc, -⟩ | ⟨x, hc, -⟩
      · simp at hc
      · simp only [ShockOptions.mk.injEq, Option.some.injEq] at hc
        obtain ⟨rfl, -, -⟩ := hc
        ext i j
        rw [submatrix_apply, hv, hv']
        have e1 : v' i = v (τ i) := by
          have h1 := hvd' i
          rw [← hτ i, hvd (τ i)] at h1
          exact (Option.some.inj h1).symm
        simp only [e1, τ.injective.eq_iff]
      · simp at hc
      · simp at hc
    · rcases hQ' with ⟨C, hc, -⟩ | ⟨d', hc, -⟩ | ⟨r', hc, -, hv'⟩ | ⟨x, hc, -⟩
      · simp at hc
      · simp at hc
      · simp only [ShockOptions.mk.injEq, Option.some.injEq, ShockStd.scalar.injEq] at hc
        obtain ⟨-, -, rfl⟩ := hc
        ext i j
        rw [submatrix_apply, hv, hv']
        simp only [τ.injective.eq_iff]
      · simp at hc
    · exact absurd rfl (hopt.2 x)
  -- `S` reordered solves the second equation, whose solution is unique
  have hlim' : Tendsto (fun t : ℕ => T' ^ t) atTop (𝓝 0) := by
    have hp : ∀ t : ℕ, T' ^ t = (T ^ t).submatrix σ σ := by
      intro t
      induction t with
      | zero => simp [submatrix_one_equiv]
      | succ t ih => rw [pow_succ, ih, eT, submatrix_mul_equiv, pow_succ]
    refine tendsto_pi_nhds.2 fun i => tendsto_pi_nhds.2 fun j => ?_
    have h1 := tendsto_pi_nhds.1 (tendsto_pi_nhds.1 hlim (σ i)) (σ j)
    exact h1.congr fun t => by rw [hp t]; rfl
  have hu := (C47_limit T' R' Q' S' hfix' hlim').1 (S.submatrix σ σ) (by
    rw [eT, eR, eQ, transpose_submatrix, transpose_submatrix, submatrix_mul_equiv, submatrix_mul_equiv, submatrix_mul_equiv, submatrix_mul_equiv]
    exact congrArg (fun M : Mat n n => M.submatrix σ σ) hfix)
  intro i i' j j' hi hj
  rw [← hu, submatrix_apply, hvn ((hσ i').trans hi), hvn ((hσ j').trans hj)]

/-- **C140**: impulse responses belong to names. For solutions that agree by name and a shock size given by name or alike for all shocks, the shocks
that get a response are the same, and the response to a shock agrees, period by period and variable by variable, by name -/
theorem C140_irf {n m k l : ℕ} (vn : Fin n → Str) (vn' : Fin m → Str) (sn : Fin k → Str) (sn' : Fin l → Str) (σ : Fin m ≃ Fin n) (τ : Fin l ≃ Fin k)
    (hσ : ∀ i, vn (σ i) = vn' i) (hτ : ∀ i, sn (τ i) = sn' i) (hvn : Function.Injective vn) (hsn : Function.Injective sn)
    {T : Mat n n} {R : Mat n k} {T' : Mat m m} {R' : Mat m l} (hT : SameByName vn vn' vn vn' T T') (hR : SameByName vn vn' sn sn' R R')
    (chol : Mat k k → Option (Mat k k)) (z : Fin k → ℝ) (chol' : Mat l l → Option (Mat l l)) (z' : Fin l → ℝ) (len : ℕ) (s : ShockSize)
    (hs : ∀ x, s ≠ .arr x) (rq rq' : Option Bool) (orth orth' : Bool) {sel sel' : List Str} {data : List (List (Fin n → ℝ))} {data' : List (List (Fin m → ℝ))}
    (h : impulseResponse chol z sn T R len ⟨some s, none, none⟩ rq orth = .ok (.individual sel data))
    (h' : impulseResponse chol' z' sn' T' R' len ⟨some s, none, none⟩ rq' orth' = .ok (.individual sel' data')) :
    sel'.Perm sel ∧ ∀ (p p' : ℕ) nm d d', sel[p]? = some nm → sel'[p']? = some nm → data[p]? = some d → data'[p']? = some d' →
      d'.length = d.length ∧ ∀ t < len, ∀ i i', vn' i' = vn i → atTime d' t i' = atTime d t i := by
  obtain ⟨idx, hidx, hsel, hmem, hall⟩ := C37_individual chol z sn T R len s rq orth sel data h
  obtain ⟨idx', hidx', hsel', hmem', hall'⟩ := C37_individual chol' z' sn' T' R' len s rq' orth' sel' data' h'
  have hsn' : Function.Injective sn' := fun a b hab => τ.injective (hsn (by rw [hτ, hτ, hab]))
  have eT : T' = T.submatrix σ σ := by
    ext i j
    exact hT (σ i) i (σ j) j (hσ i).symm (hσ j).symm
  have eR : R' = R.submatrix σ τ := by
    ext i j
    exact hR (σ i) i (τ j) j (hσ i).symm (hτ j).symm
  have hp : ∀ t : ℕ, T' ^ t = (T ^ t).submatrix σ σ := by
    intro t
    induction t with
    | zero => simp [submatrix_one_equiv]
    | succ t ih => rw [pow_succ, ih, eT, submatrix_mul_equiv, pow_succ]
  have hnm : ∀ i, NamesShock sn' ⟨some s, none, none⟩ i ↔ NamesShock sn ⟨some s, none, none⟩ (τ i) := by
    intro i
    unfold NamesShock
    rw [hτ]
  have hnd : idx.Nodup := by rw [hidx]; exact (List.nodup_finRange k).filter _
  have hnd' : idx'.Nodup := by rw [hidx']; exact (List.nodup_finRange l).filter _
  constructor
  · have : (idx'.map τ).Perm idx := by
      rw [List.perm_ext_iff_of_nodup (hnd'.map τ.injective) hnd]
      intro a
      rw [List.mem_map, hmem]
      constructor
      · rintro ⟨b, hb, rfl⟩
        exact (hnm b).1 ((hmem' b).1 hb)
      · intro ha
        exact ⟨τ.symm a, (hmem' _).2 ((hnm _).2 (by simpa using ha)), by simp⟩
    rw [hsel, hsel']
    have h2 := this.map sn
    rw [List.map_map] at h2
    have : sn ∘ τ = sn' := funext hτ
    rwa [this] at h2
  · intro p p' nm d d' h1 h2 h3 h4
    have get : ∀ {α β : Type} {Rl : α → β → Prop} {xs : List α} {ys : List β}, List.Forall₂ Rl xs ys → ∀ {q : ℕ} {x y}, xs[q]? = some x → ys[q]? = some y → Rl x y := by
      intro α β Rl xs ys hf
      induction hf with
      | nil => intro q x y hx; simp at hx
      | cons hr _ ih =>
        intro q x y hx hy
        cases q with
        | zero => simp at hx hy; subst hx; subst hy; exact hr
        | succ q => exact ih (by simpa using hx) (by simpa using hy)
    rw [hsel, List.getElem?_map, Option.map_eq_some_iff] at h1
    rw [hsel', List.getElem?_map, Option.map_eq_some_iff] at h2
    obtain ⟨a, ha, han⟩ := h1
    obtain ⟨b, hb, hbn⟩ := h2
    have hab : τ b = a := hsn (by rw [hτ, hbn, han])
    obtain ⟨l1, v1⟩ := get hall ha h3
    obtain ⟨l2, v2⟩ := get hall' hb h4
    refine ⟨by rw [l1, l2], fun t ht i i' hi => ?_⟩
    have hsz : specSize sn' s b = specSize sn s a := by
      subst hab
      cases s with
      | scalar r => rfl
      | arr x => exact absurd rfl (hs x)
      | dict x => simp only [specSize, hτ]
    have hi' : σ i' = i := hvn ((hσ i').trans hi)
    rw [v1 t ht, v2 t ht, hsz, hp t, eR, submatrix_mul_equiv, Pi.smul_apply, Pi.smul_apply, col_apply, col_apply, submatrix_apply, hi', hab]

/-! ## the hypotheses are met -/

namespace WOr

/-- gensys solves every model `x_t = a x_{t-1} + D ε_t` with diagonal `a` inside the unit circle -/
theorem diag_solved {n k : ℕ} {A B C : Mat n n} (a : Fin n → ℝ) (hA : A = diagonal a) (hB : B = -1) (hC : C = 0) (ha : ∀ i, |a i| < 1) {tol : ℝ}
    (h0 : 0 < tol) (h1 : tol ≤ 1) (D : Mat n k) (f : Bool) : ∃ (o : GensysOracle A B C tol) (T : Mat n n) (R : Mat n k), modelSolveGensys D o f = .solved T R := by
  have hemp : IsEmpty (Lead C tol) := ⟨fun j => absurd j.2 (by
    have : ∀ i, C i j.1 = 0 := fun i => congrFun (congrFun hC i) j.1
    simp only [this, abs_zero, Finset.sum_const_zero]
    exact h0.le.not_gt)⟩
  let ε : (Fin n ⊕ Fin 0) ≃ (Fin n ⊕ Lead C tol) := Equiv.sumCongr (Equiv.refl _) (Equiv.equivOfIsEmpty _ _)
  have hg0 : ∀ i j, (toC (setupG0 B C tol)).submatrix ε ε (.inl i) (.inl j) = ((-(B i j) : ℝ) : ℂ) := fun _ _ => rfl
  have hg1 : ∀ i j, (toC (setupG1 A C tol)).submatrix ε ε (.inl i) (.inl j) = ((A i j : ℝ) : ℂ) := fun _ _ => rfl
  let q : SortedQZ (toC (setupG0 B C tol)) (toC (setupG1 A C tol)) :=
    { ns := n, nu := 0
      Q := (1 : Matrix (Fin n ⊕ Lead C tol) (Fin n ⊕ Lead C tol) ℂ).submatrix ε id
      Z := (1 : Matrix (Fin n ⊕ Lead C tol) (Fin n ⊕ Lead C tol) ℂ).submatrix id ε
      A := (toC (setupG0 B C tol)).submatrix ε ε
      B := (toC (setupG1 A C tol)).submatrix ε ε
      Q_right := by
        rw [conjTranspose_submatrix, conjTranspose_one, ← submatrix_mul _ _ _ _ _ Function.bijective_id, Matrix.mul_one, submatrix_one_equiv]
      Q_left := by
        rw [conjTranspose_submatrix, conjTranspose_one, submatrix_mul_equiv, Matrix.mul_one, submatrix_id_id]
      Z_right := by
        rw [conjTranspose_submatrix, conjTranspose_one, submatrix_mul_equiv, Matrix.mul_one, submatrix_id_id]
      Z_left := by
        rw [conjTranspose_submatrix, conjTranspose_one, ← submatrix_mul _ _ _ _ _ Function.bijective_id, Matrix.mul_one, submatrix_one_equiv]
      A_eq := by
        ext i j
        simp [mul_apply, one_apply]
      B_eq := by
        ext i j
        simp [mul_apply, one_apply]
      A_low := fun i => i.elim0
      A_tri₁ := fun i j h => by
        rw [hg0, hB]
        simp [one_apply, h.ne']
      A_tri₂ := fun i => i.elim0
      B_low := fun i => i.elim0
      B_tri₁ := fun i j h => by
        rw [hg1, hA]
        simp [h.ne']
      B_tri₂ := fun i => i.elim0
      sorted₁ := fun i => by
        rw [hg0, hg1, hA, hB]
        simpa using ha i
      sorted₂ := fun i => i.elim0 }
  have thin : ∀ {a' : Type} [Fintype a'] (M : Matrix a' (Lead C tol) ℂ), Nonempty (ThinSVD M tol) := fun {a'} _ M =>
    ⟨{ r := 0, u := fun _ i => i.elim0, d := fun i => i.elim0, v := fun _ i => i.elim0, uu := by ext i; exact i.elim0, vv := by ext i; exact i.elim0
       big := fun i => i.elim0, exact := by ext i j; exact (hemp.false j).elim }⟩
  obtain ⟨t1⟩ := thin (q.Q2 * toC (setupPi C tol))
  obtain ⟨t2⟩ := thin (q.Q1 * toC (setupPi C tol))
  let o : GensysOracle A B C tol := ⟨q, ⟨t1, t2⟩⟩
  refine ⟨o, (C69_solved_iff h0 (fun j _ i => by rw [hC]; rfl) D f).1.2 ⟨?_, ?_⟩⟩
  · intro p hp
    rw [SortedQZ.pairs, List.mem_append, List.mem_map, List.mem_map] at hp
    rcases hp with ⟨i, -, rfl⟩ | ⟨i, -⟩
    · intro hh
      have h2 : ‖(toC (setupG0 B C tol)).submatrix ε ε (.inl i) (.inl i)‖ < tol := hh.1
      rw [hg0, hB] at h2
      simp at h2
      linarith
    · exact i.elim0
  · intro x0
    refine ⟨fun t i => a i ^ t * x0 i, ⟨⟨fun t => ?_, ?_⟩, by funext i; simp⟩, ?_⟩
    · funext i
      rw [hA, hB, hC]
      simp only [Pi.add_apply, mulVec_diagonal, neg_mulVec, one_mulVec, Pi.neg_apply, zero_mulVec, Pi.zero_apply]
      ring
    · refine tendsto_pi_nhds.2 fun i => ?_
      have := (tendsto_pow_atTop_nhds_zero_of_abs_lt_one (ha i)).mul_const (x0 i)
      simpa using this
    · rintro y ⟨⟨hy, -⟩, hy0⟩
      funext t
      induction t with
      | zero => funext i; simp [hy0]
      | succ t ih =>
        funext i
        have := congrFun (hy t) i
        rw [hA, hB, hC] at this
        simp only [Pi.add_apply, mulVec_diagonal, neg_mulVec, one_mulVec, Pi.neg_apply, zero_mulVec, Pi.zero_apply, ih] at this
        rw [pow_succ]
        linarith

def wX : TSym := ⟨"x".toList, .t 0, []⟩
def wY : TSym := ⟨"y".toList, .t 0, []⟩
def wE : TSym := ⟨"e".toList, .t 0, []⟩
def wU : TSym := ⟨"u".toList, .t 0, []⟩
/-- `x[] = a * x[-1] + e[]` -/
def wEq (a : ℚ) (x e : TSym) : SExpr := .add (.mul (.num a) (.sym (.tv (x.atT (-1))))) (.add (.mul (.num (-1)) (.sym (.tv x))) (.sym (.tv e)))
noncomputable def wSS : List (Str × ℝ) := [("x_ss".toList, 0), ("y_ss".toList, 0)]

def wq (a : ℚ) (x e v : TSym) : ℚ := a * (if x.atT (-1) = v then 1 else 0) - (if x = v then 1 else 0) + (if e = v then 1 else 0)

theorem w_entry (sh : List TSym) (a : ℚ) (x e v : TSym) : evalAt (fun _ => 0) (ssOf wSS) (jacEntry sh (wEq a x e) v) = (wq a x e v : ℝ) := by
  rw [evalAt, Ptb.jacEntry_val _ _ _ _ _ _ 0 0, ← Rsp.eval_symAt]
  have h : ∀ s : TSym, ((SExpr.sym (.tv s)).diff (.tv v)).eval ((steadyPath (fun _ => 0) (ssOf wSS) sh).val.symAt 0) = ((if s = v then 1 else 0 : ℚ) : ℝ) := fun s => by
    simp only [SExpr.diff, Sym.tv.injEq]; split <;> simp [SExpr.eval]
  have hq : ∀ q : ℚ, ((SExpr.num q).diff (.tv v)).eval ((steadyPath (fun _ => 0) (ssOf wSS) sh).val.symAt 0) = 0 := fun q => by simp [SExpr.diff, SExpr.eval]
  show (_ * _ + _ * _) + ((_ * _ + _ * _) + _) = _
  simp only [h, hq, SExpr.eval, wq]
  push_cast
  ring

theorem w_ss : ∀ v ∈ [wX, wY], (dget (normalizeConditions wSS) v.base).isSome := by
  intro v hv
  simp only [List.mem_cons, List.not_mem_nil, or_false] at hv
  rcases hv with rfl | rfl <;>
    simp [normalizeConditions, removeSuffixSS, ssSuffix, dupdate, dset, dget, wX, wY, wSS, List.isSuffixOf]

def wP : SExpr := wEq (1 / 2) wX wE
def wR : SExpr := wEq (1 / 4) wY wU
def qP (v : TSym) : ℚ := wq (1 / 2) wX wE v
def qR (v : TSym) : ℚ := wq (1 / 4) wY wU v

def wList {α : Type} (sw : Bool) (a b : α) : List α := if sw then [b, a] else [a, b]

theorem wList_perm {α : Type} (sw : Bool) (a b : α) : (wList sw a b).Perm (wList false a b) := by
  cases sw
  · exact .refl _
  · exact .swap _ _ _

/-- the matrices of the model in either order -/
theorem w_mats (sw : Bool) : ∃ m, linearMats (wList sw wX wY) (wList sw wP wR) (wList sw wE wU) [] (fun _ => 0) wSS = some m ∧
    (∃ a : Fin (wList sw wX wY).length → ℝ, m.A = diagonal a ∧ ∀ i, |a i| < 1) ∧ m.B = -1 ∧ m.C = 0 := by
  have hnd : ((wList sw wX wY).map TSym.base).Nodup := ((wList_perm sw wX wY).map _).nodup_iff.2 (by decide)
  have hone : ∀ v x, promisedScale [] v x = 1 := fun v x => by simp [promisedScale]
  have eP : ∀ sh v, evalAt (fun _ => 0) (ssOf wSS) (jacEntry sh wP v) = (qP v : ℝ) := fun sh v => w_entry sh _ _ _ v
  have eR : ∀ sh v, evalAt (fun _ => 0) (ssOf wSS) (jacEntry sh wR v) = (qR v : ℝ) := fun sh v => w_entry sh _ _ _ v
  have r1 : qP (wX.atT (-1)) = 1 / 2 := by decide +kernel
  have r2 : qP (wY.atT (-1)) = 0 := by decide +kernel
  have r3 : qR (wX.atT (-1)) = 0 := by decide +kernel
  have r4 : qR (wY.atT (-1)) = 1 / 4 := by decide +kernel
  have r5 : qP (wX.atT 0) = -1 := by decide +kernel
  have r6 : qP (wY.atT 0) = 0 := by decide +kernel
  have r7 : qR (wX.atT 0) = 0 := by decide +kernel
  have r8 : qR (wY.atT 0) = -1 := by decide +kernel
  have r9 : qP (wX.atT 1) = 0 := by decide +kernel
  have r10 : qP (wY.atT 1) = 0 := by decide +kernel
  have r11 : qR (wX.atT 1) = 0 := by decide +kernel
  have r12 : qR (wY.atT 1) = 0 := by decide +kernel
  refine ⟨_, by rw [linearMats, Ptb.linearizeModel_eq _ _ _ _ _ (evalAt fun _ => 0) hnd (fun v h => w_ss v ((wList_perm sw wX wY).mem_iff.1 h))]; rfl, ?_, ?_, ?_⟩
  · cases sw
    · refine ⟨(![1 / 2, 1 / 4] : Fin 2 → ℝ), ?_, ?_⟩
      · ext i j
        change Fin 2 at i j
        fin_cases i <;> fin_cases j <;> simp [matsOf, entryAt, wList, eP, eR, hone, r1, r2, r3, r4] <;> rfl
      · intro i
        change Fin 2 at i
        fin_cases i <;> simp [abs_lt] <;> norm_num
    · refine ⟨(![1 / 4, 1 / 2] : Fin 2 → ℝ), ?_, ?_⟩
      · ext i j
        change Fin 2 at i j
        fin_cases i <;> fin_cases j <;> simp [matsOf, entryAt, wList, eP, eR, hone, r1, r2, r3, r4] <;> rfl
      · intro i
        change Fin 2 at i
        fin_cases i <;> simp [abs_lt] <;> norm_num
  · cases sw <;> ext i j <;> change Fin 2 at i j <;> fin_cases i <;> fin_cases j <;>
      simp [matsOf, entryAt, wList, eP, eR, hone, r5, r6, r7, r8] <;> first | rfl | exact (neg_zero (G := ℝ)).symm
  · cases sw <;> ext i j <;> change Fin 2 at i j <;> fin_cases i <;> fin_cases j <;>
      simp [matsOf, entryAt, wList, eP, eR, hone, r9, r10, r11, r12] <;> rfl

theorem w_solved (sw : Bool) : ∃ gen T R, solveModel (some (wSS, true)) (linearMats (wList sw wX wY) (wList sw wP wR) (wList sw wE wU) [] fun _ => 0) (1 / 100) gen 5 false
    "gensys".toList "error".toList = .ok (some (T, R)) := by
  classical
  obtain ⟨m, hm, ⟨a, hA, ha⟩, hB, hC⟩ := w_mats sw
  obtain ⟨o, T, R, ho⟩ := diag_solved a hA hB hC ha (tol := 1 / 100) (by norm_num) (by norm_num) m.D true
  refine ⟨fun A B C => if h : A = m.A ∧ B = m.B ∧ C = m.C then some (by rw [h.1, h.2.1, h.2.2]; exact o) else none, T, R, ?_⟩
  unfold solveModel
  rw [if_neg (by simp)]
  dsimp only
  rw [hm]
  dsimp only
  unfold solveLinear
  simp [ho]

end WOr
open WOr

/-- the hypotheses of `C140_solution` are met: `x[] = x[-1]/2 + e[]` and `y[] = y[-1]/4 + u[]`, written in both orders, are solved by gensys -/
example : ∃ T R T' R' gen gen',
    solveModel (some (wSS, true)) (linearMats [wX, wY] [wP, wR] [wE, wU] [] fun _ => 0) (1 / 100) gen 5 false "gensys".toList "error".toList = .ok (some (T, R)) ∧
    solveModel (some (wSS, true)) (linearMats [wY, wX] [wR, wP] [wU, wE] [] fun _ => 0) (1 / 100) gen' 5 false "gensys".toList "error".toList = .ok (some (T', R')) ∧
    T' ⟨1, by simp⟩ ⟨0, by simp⟩ = T ⟨0, by simp⟩ ⟨1, by simp⟩ ∧ R' ⟨1, by simp⟩ ⟨1, by simp⟩ = R ⟨0, by simp⟩ ⟨0, by simp⟩ := by
  obtain ⟨gen, T, R, h⟩ := w_solved false
  obtain ⟨gen', T', R', h'⟩ := w_solved true
  refine ⟨T, R, T', R', gen, gen', h, h', ?_⟩
  obtain ⟨h1, h2⟩ := C140_solution [wX, wY] [wY, wX] [wP, wR] [wR, wP] [wE, wU] [wU, wE] [] [] (fun _ => 0) wSS (.swap _ _ _) (.swap _ _ _) (.swap _ _ _) (.refl _)
    (by decide) (by decide) rfl w_ss (1 / 100) (by norm_num) gen gen' true true 5 5 _ _ (fun m hm => by
      obtain ⟨m', hm', -, -, hC⟩ := w_mats false
      have : m = m' := Option.some.inj (hm.symm.trans hm')
      subst this
      intro j _ i
      rw [hC]; rfl) h h'
  exact ⟨h1 _ _ _ _ rfl rfl, h2 _ _ _ _ rfl rfl⟩

end GE
