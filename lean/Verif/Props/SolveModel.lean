import Verif.Model.Diagnostics
import Verif.Props.GensysSolution
import Verif.Props.GensysExample
/-! # C89: what `solve_model` returns, for every solver, failure policy and steady state -/

open Matrix

namespace GE

namespace SlvM

variable {n k : ℕ} {tol : ℝ} {gen : GenOracle n tol} {maxIter : ℕ} {m : LinMats n k}

theorem back (solver : Str) (f : Bool) : solveLinear tol gen maxIter true solver f m =
    (match solveBackwardDirect m.A m.B m.C m.D with
      | none => .error (.numpy .singular)
      | some r => .ok (some r)) := by
  unfold solveLinear
  simp only [if_true]
  rw [if_neg (by decide), if_neg (by decide)]
  rfl

theorem gens (f : Bool) : solveLinear tol gen maxIter false "gensys".toList f m =
    (match gen m.A m.B m.C with
      | none => .error .lapack
      | some o =>
        match modelSolveGensys m.D o f with
        | .solved T R => .ok (some (T, R))
        | .nothing => .ok none
        | .failedException => .error .gensysFailed) := by
  unfold solveLinear
  simp only [Bool.false_eq_true, if_false]
  rw [if_pos trivial]
  rfl

theorem cr (f : Bool) : solveLinear tol gen maxIter false "cycle_reduction".toList f m =
    (match solveWithCR m.A m.B m.C m.D maxIter tol with
      | .error e => .error (.numpy e)
      | .ok r => .ok r) := by
  unfold solveLinear
  simp only [Bool.false_eq_true, if_false]
  rw [if_neg (by decide), if_pos trivial]
  rfl

theorem bd (f : Bool) : solveLinear tol gen maxIter false "backward_direct".toList f m = .error .notBackwardLooking := by
  unfold solveLinear
  simp only [Bool.false_eq_true, if_false]
  rw [if_neg (by decide), if_neg (by decide), if_pos trivial]

theorem unk (solver : Str) (f : Bool) (h1 : solver ≠ "gensys".toList) (h2 : solver ≠ "cycle_reduction".toList) (h3 : solver ≠ "backward_direct".toList) :
    solveLinear tol gen maxIter false solver f m = .error .unknownSolver := by
  unfold solveLinear
  simp only [Bool.false_eq_true, if_false]
  rw [if_neg h1, if_neg h2, if_neg h3]

/-- a run of `solve_model` that returns has a linear system -/
theorem inv {S : Type} {steady : Option (S × Bool)} {linearize : S → Option (LinMats n k)} {backward : Bool} {solver onFailure : Str}
    {r : Option (Mat n n × Mat n k)} (h : solveModel steady linearize tol gen maxIter backward solver onFailure = .ok r) :
    (onFailure = "error".toList ∨ onFailure = "ignore".toList) ∧ ∃ ss b m, steady = some (ss, b) ∧ linearize ss = some m ∧
      solveLinear tol gen maxIter backward solver (decide (onFailure = "error".toList)) m = .ok r := by
  unfold solveModel at h
  split at h
  · cases h
  · rename_i hf
    rw [not_and_or, not_ne_iff, not_ne_iff] at hf
    refine ⟨hf, ?_⟩
    split at h
    · cases h
    · rename_i ss b
      split at h
      · cases h
      · rename_i m hm
        exact ⟨ss, b, m, rfl, hm, h⟩

theorem sol_cases {backward : Bool} {solver : Str} {f : Bool} {r : Option (Mat n n × Mat n k)}
    (h : solveLinear tol gen maxIter backward solver f m = .ok r) :
    (backward = true ∧ ∃ p, r = some p ∧ solveBackwardDirect m.A m.B m.C m.D = some p) ∨
      (backward = false ∧ solver = "gensys".toList ∧ ∃ o, gen m.A m.B m.C = some o ∧
        ((∃ T R, modelSolveGensys m.D o f = .solved T R ∧ r = some (T, R)) ∨ (modelSolveGensys m.D o f = .nothing ∧ r = none))) ∨
      (backward = false ∧ solver = "cycle_reduction".toList ∧ solveWithCR m.A m.B m.C m.D maxIter tol = .ok r) := by
  cases backward with
  | true =>
    rw [back] at h
    left
    refine ⟨rfl, ?_⟩
    split at h
    · cases h
    · rename_i p hp
      simp only [Except.ok.injEq] at h
      exact ⟨p, h.symm, hp⟩
  | false =>
    right
    by_cases h1 : solver = "gensys".toList
    · subst h1
      left
      rw [gens] at h
      split at h
      · cases h
      · rename_i o ho
        refine ⟨rfl, rfl, o, ho, ?_⟩
        split at h
        · rename_i T R hm
          simp only [Except.ok.injEq] at h
          exact Or.inl ⟨T, R, hm, h.symm⟩
        · rename_i hm
          simp only [Except.ok.injEq] at h
          exact Or.inr ⟨hm, h.symm⟩
        · cases h
    · by_cases h2 : solver = "cycle_reduction".toList
      · subst h2
        right
        rw [cr] at h
        split at h
        · cases h
        · rename_i r' hr
          simp only [Except.ok.injEq] at h
          exact ⟨rfl, rfl, by rw [hr, h]⟩
      · by_cases h3 : solver = "backward_direct".toList
        · subst h3
          rw [bd] at h
          cases h
        · rw [unk _ _ h1 h2 h3] at h
          cases h

end SlvM

/-- **C89.** A pair `T, R` returned by `solve_model` comes from the linearised system at the steady state found, and `R` solves
`B R + C T R + D = 0`; `T` solves `A + B T + C T² = 0` unless cycle reduction computed it (for which see C61: then `T` is what the iteration
returned). For gensys the tolerance must be positive and not hide leads; a backward-looking model has no leads. -/
theorem C89_sound {n k : ℕ} {S : Type} (steady : Option (S × Bool)) (linearize : S → Option (LinMats n k)) (tol : ℝ) (gen : GenOracle n tol)
    (maxIter : ℕ) (backward : Bool) (solver onFailure : Str) (T : Mat n n) (R : Mat n k) (htol : 0 < tol)
    (hclean : ∀ ss m, linearize ss = some m → CleanLeads m.C tol) (hback : ∀ ss m, linearize ss = some m → backward = true → m.C = 0)
    (h : solveModel steady linearize tol gen maxIter backward solver onFailure = .ok (some (T, R))) :
    ∃ ss b m, steady = some (ss, b) ∧ linearize ss = some m ∧ m.B * R + m.C * T * R + m.D = 0 ∧
      (m.A + m.B * T + m.C * T * T = 0 ∨ (backward = false ∧ solver = "cycle_reduction".toList ∧
        ∃ r, cycleReduction m.A m.B m.C maxIter tol = some r ∧ r.X = some T)) := by
  obtain ⟨-, ss, b, m, hs, hl, hr⟩ := SlvM.inv h
  refine ⟨ss, b, m, hs, hl, ?_⟩
  rcases SlvM.sol_cases hr with ⟨hb, p, hp, hd⟩ | ⟨-, -, o, -, ⟨T', R', hm, hTR⟩ | ⟨-, h0⟩⟩ | ⟨hb, hsol, hw⟩
  · cases hp
    have h0 := hback ss m hl hb
    obtain ⟨-, h1, h2⟩ := ((C36_backward m.A m.B m.C m.D).2 T R).mp hd
    rw [h0]
    simp only [Matrix.zero_mul, add_zero]
    exact ⟨h2, Or.inl h1⟩
  · cases hTR
    obtain ⟨h1, h2, -, -⟩ := C68_solution htol (hclean ss m hl) hm
    exact ⟨h2, Or.inl h1⟩
  · cases h0
  · unfold solveWithCR at hw
    split at hw
    · cases hw
    · rename_i p hp
      simp only [Except.ok.injEq, Option.some.injEq, Prod.mk.injEq] at hw
      obtain ⟨rfl, rfl⟩ := hw
      obtain ⟨h1, h2, -⟩ := C61_policy m.A m.B m.C m.D maxIter tol p hp
      refine ⟨?_, Or.inr ⟨hb, hsol, h1⟩⟩
      rw [← h2, Matrix.add_mul]
      abel

/-- **C89.** With `on_failure="error"` the result is never `None`: a solution is returned or an exception is raised. -/
theorem C89_error_never_none {n k : ℕ} {S : Type} (steady : Option (S × Bool)) (linearize : S → Option (LinMats n k)) (tol : ℝ) (gen : GenOracle n tol)
    (maxIter : ℕ) (backward : Bool) (solver : Str) :
    solveModel steady linearize tol gen maxIter backward solver "error".toList ≠ .ok none := by
  intro h
  obtain ⟨-, ss, b, m, hs, hl, hr⟩ := SlvM.inv h
  rcases SlvM.sol_cases hr with ⟨-, p, hp, -⟩ | ⟨-, -, o, -, ⟨T', R', hm, hTR⟩ | ⟨hm, -⟩⟩ | ⟨-, -, hw⟩
  · cases hp
  · cases hTR
  · simp only [decide_true] at hm
    unfold modelSolveGensys solveWithGensys at hm
    dsimp only at hm
    by_cases hz : (gensysCore (toC (setupPsi m.C m.D tol)) o.svd).eu.1 = -2 ∧ (gensysCore (toC (setupPsi m.C m.D tol)) o.svd).eu.2.1 = -2
    · rw [if_pos hz] at hm
      dsimp only at hm
      rw [if_neg (by rw [hz.1, hz.2]; decide)] at hm
      simp at hm
    · rw [if_neg hz] at hm
      dsimp only at hm
      split at hm <;> simp at hm
  · exact (C61_failure_violated m.A m.B m.C m.D maxIter tol).2 hw

/-- **C89.** Solving with gensys and `on_failure="ignore"`: unless LAPACK fails, no exception is raised after the linearisation; `None` is returned
exactly when it is not the case that zeros do not coincide and every initial state starts exactly one vanishing path. -/
theorem C89_ignore_gensys {n k : ℕ} {S : Type} (ss : S) (b : Bool) (linearize : S → Option (LinMats n k)) (m : LinMats n k) (tol : ℝ)
    (gen : GenOracle n tol) (o : GensysOracle m.A m.B m.C tol) (maxIter : ℕ) (htol : 0 < tol) (hl : linearize ss = some m)
    (hclean : CleanLeads m.C tol) (ho : gen m.A m.B m.C = some o) :
    let r := solveModel (some (ss, b)) linearize tol gen maxIter false "gensys".toList "ignore".toList
    (∃ x, r = .ok x) ∧ (r = .ok none ↔ ¬(NoCoincidentZeros o ∧ ∀ x0, ∃! x, VanishingPath m.A m.B m.C x ∧ x 0 = x0)) := by
  have e : solveModel (some (ss, b)) linearize tol gen maxIter false "gensys".toList "ignore".toList =
      (match modelSolveGensys m.D o false with
        | .solved T R => .ok (some (T, R))
        | .nothing => .ok none
        | .failedException => .error .gensysFailed) := by
    unfold solveModel
    rw [if_neg (by simp)]
    dsimp only
    rw [hl]
    dsimp only
    rw [show decide ("ignore".toList = "error".toList) = false by decide, SlvM.gens, ho]
  intro r
  have hr : r = _ := e
  obtain ⟨h1, h2⟩ := C69_solved_iff (o := o) htol hclean m.D false
  rw [← h1]
  by_cases hs : ∃ T R, modelSolveGensys m.D o false = .solved T R
  · obtain ⟨T, R, hs'⟩ := hs
    rw [hr, hs']
    exact ⟨⟨_, rfl⟩, by simp⟩
  · have := h2 hs
    simp only [Bool.false_eq_true, if_false] at this
    rw [hr, this]
    exact ⟨⟨_, rfl⟩, by simp⟩

/-- **C89, false for cycle reduction.** With `on_failure="ignore"` a cycle reduction that does not converge raises instead of returning `None`:
there is a one-variable model for which this happens. -/
theorem C89_ignore_violated : ∃ (m : LinMats 1 1) (tol : ℝ), 0 < tol ∧ ∀ gen : GenOracle 1 tol,
    solveModel (some ((), true)) (fun _ => some m) tol gen 1 false "cycle_reduction".toList "ignore".toList = .error (.numpy .badOperand) := by
  refine ⟨⟨Lin.sc 1, Lin.sc 1, Lin.sc 1, Lin.sc 1⟩, 1 / 2, by norm_num, fun gen => ?_⟩
  have hst := Lin.sc_step (a := 1) (b := 1) (c := 1) (d := 1) one_ne_zero
  have hl : crLoop (1 / 2) 1 ⟨Lin.sc 1, Lin.sc 1, Lin.sc 1, Lin.sc 1⟩ = some (.early .failed (Real.log (norm1 (Lin.sc (1 - 1 * (1⁻¹ * 1) - 1 * (1⁻¹ * 1)))))) := by
    unfold crLoop
    rw [hst]
    dsimp only
    rw [if_neg (by rw [Lin.sc_norm]; norm_num), if_pos rfl, if_neg (by rw [Lin.sc_norm]; norm_num)]
  have hc : cycleReduction (Lin.sc 1) (Lin.sc 1) (Lin.sc 1) 1 (1 / 2) =
      some ⟨none, none, .failed, Real.log (norm1 (Lin.sc (1 - 1 * (1⁻¹ * 1) - 1 * (1⁻¹ * 1))))⟩ := by
    unfold cycleReduction
    rw [hl]
  unfold solveModel
  rw [if_neg (by simp)]
  dsimp only
  rw [show decide ("ignore".toList = "error".toList) = false by decide, SlvM.cr, (C61_failure_violated _ _ _ _ _ _).1 _ hc rfl]

/-- **C89.** Arguments are validated: an `on_failure` other than the two documented values is refused before anything is computed; for a model with
leads a solver other than the three documented ones is refused, and so is the backward-looking solver. -/
theorem C89_arguments {n k : ℕ} {S : Type} (steady : Option (S × Bool)) (linearize : S → Option (LinMats n k)) (tol : ℝ) (gen : GenOracle n tol)
    (maxIter : ℕ) (backward : Bool) (solver onFailure : Str) :
    (onFailure ≠ "error".toList → onFailure ≠ "ignore".toList →
      solveModel steady linearize tol gen maxIter backward solver onFailure = .error .badOnFailure) ∧
    (backward = false → solver ≠ "gensys".toList → solver ≠ "cycle_reduction".toList →
      ∀ r, solveModel steady linearize tol gen maxIter backward solver onFailure ≠ .ok r) ∧
    (∀ ss b m, backward = false → (onFailure = "error".toList ∨ onFailure = "ignore".toList) → steady = some (ss, b) → linearize ss = some m →
      solver ≠ "gensys".toList → solver ≠ "cycle_reduction".toList →
      solveModel steady linearize tol gen maxIter backward solver onFailure =
        .error (if solver = "backward_direct".toList then .notBackwardLooking else .unknownSolver)) := by
  refine ⟨fun h1 h2 => ?_, fun hb h1 h2 r h => ?_, fun ss b m hb hf hs hl h1 h2 => ?_⟩
  · unfold solveModel
    rw [if_pos ⟨h1, h2⟩]
  · obtain ⟨-, ss, b, m, hs, hl, hr⟩ := SlvM.inv h
    rcases SlvM.sol_cases hr with ⟨hb', -⟩ | ⟨-, hs', -⟩ | ⟨-, hs', -⟩
    · rw [hb] at hb'; cases hb'
    · exact h1 hs'
    · exact h2 hs'
  · unfold solveModel
    rw [if_neg (by rcases hf with h | h <;> simp [h]), hs]
    dsimp only
    rw [hl, hb]
    dsimp only
    by_cases h3 : solver = "backward_direct".toList
    · rw [if_pos h3, h3, SlvM.bd]
    · rw [if_neg h3, SlvM.unk _ _ h1 h2 h3]

/-- **C89, false for backward-looking models.** The solver named by the caller is replaced: every name, also one that does not exist, gives the same result. -/
theorem C89_backward_any_solver_violated {n k : ℕ} {S : Type} (steady : Option (S × Bool)) (linearize : S → Option (LinMats n k)) (tol : ℝ)
    (gen : GenOracle n tol) (maxIter : ℕ) (s1 s2 onFailure : Str) :
    solveModel steady linearize tol gen maxIter true s1 onFailure = solveModel steady linearize tol gen maxIter true s2 onFailure := by
  unfold solveModel
  split
  · rfl
  · split
    · rfl
    · split
      · rfl
      · rw [SlvM.back, SlvM.back]

/-- **C89, false in general.** A steady state that the solver reports as not found is used like any other: the success flag has no influence. -/
theorem C89_failed_steady_state_violated {n k : ℕ} {S : Type} (ss : S) (linearize : S → Option (LinMats n k)) (tol : ℝ) (gen : GenOracle n tol)
    (maxIter : ℕ) (backward : Bool) (solver onFailure : Str) :
    solveModel (some (ss, false)) linearize tol gen maxIter backward solver onFailure =
      solveModel (some (ss, true)) linearize tol gen maxIter backward solver onFailure := rfl

namespace SlvM

variable {n k maxIter : ℕ} {m : LinMats n k}

/-- the diagnostics solver with `cycle_reduction` or `gensys` -/
theorem pert_cr (tol : ℝ) (gen : GenOracle n tol) : solvePerturbation tol gen maxIter false "cycle_reduction".toList m =
    (match solvePolicyCR m.A m.B m.C m.D maxIter tol with
      | .error e => npCall n e
      | .ok p => .ret (some (p.T, p.R))) := by
  unfold solvePerturbation
  simp only [Bool.false_eq_true, if_false]
  rw [if_pos trivial]
  rfl

theorem pert_gens (tol : ℝ) (gen : GenOracle n tol) : solvePerturbation tol gen maxIter false "gensys".toList m =
    (match gen m.A m.B m.C with
      | none => .numeric
      | some o =>
        match solveWithGensys m.D o with
        | (some (G1, impact), eu) =>
          if eu.1 = 1 ∧ eu.2.1 = 1 then .ret (some (G1.submatrix Sum.inl Sum.inl, impact.submatrix Sum.inl id)) else .ret none
        | (none, _) => .ret none) := by
  unfold solvePerturbation
  simp only [Bool.false_eq_true, if_false]
  rw [if_neg (by decide), if_pos trivial]
  cases gen m.A m.B m.C with
  | none => rfl
  | some o =>
    dsimp only
    rcases solveWithGensys m.D o with ⟨_ | ⟨G, i⟩, eu⟩ <;> rfl

theorem pert_bd (tol : ℝ) (gen : GenOracle n tol) (backward : Bool) (solver : Str) (h : backward = true ∨ solver = "backward_direct".toList) :
    solvePerturbation tol gen maxIter backward solver m =
    (match solveBackwardDirect m.A m.B m.C m.D with
      | none => .numeric
      | some r => .ret (some r)) := by
  have e : (if backward then "backward_direct".toList else solver) = "backward_direct".toList := by
    rcases h with h | h
    · simp [h]
    · rw [h]; exact ite_self _
  unfold solvePerturbation
  simp only [e]
  rw [if_neg (by decide), if_neg (by decide)]
  rfl

end SlvM

/-- **C89, C86.** The solvability check solves exactly as `solve_model` with `on_failure="ignore"` does: for the solvers `solve_model` accepts, the one
returns a result exactly when the other does, and it is the same. -/
theorem C89_diagnostics_agree {n k : ℕ} (tol : ℝ) (gen : GenOracle n tol) (maxIter : ℕ) (backward : Bool) (solver : Str) (m : LinMats n k)
    (hs : backward = true ∨ solver = "gensys".toList ∨ solver = "cycle_reduction".toList) (r : Option (Mat n n × Mat n k)) :
    solvePerturbation tol gen maxIter backward solver m = .ret r ↔
      solveModel (some ((), true)) (fun _ => some m) tol gen maxIter backward solver "ignore".toList = .ok r := by
  have e : solveModel (some ((), true)) (fun _ => some m) tol gen maxIter backward solver "ignore".toList =
      solveLinear tol gen maxIter backward solver false m := by
    unfold solveModel
    rw [if_neg (by simp)]
    dsimp only
    rw [show decide ("ignore".toList = "error".toList) = false by decide]
  rw [e]
  cases backward with
  | true =>
    rw [SlvM.back, SlvM.pert_bd _ _ _ _ (Or.inl rfl)]
    cases solveBackwardDirect m.A m.B m.C m.D <;> simp
  | false =>
    rcases hs with h | h | h
    · cases h
    · subst h
      rw [SlvM.gens, SlvM.pert_gens]
      cases ho : gen m.A m.B m.C with
      | none => simp
      | some o =>
        dsimp only
        unfold modelSolveGensys
        rcases hw : solveWithGensys m.D o with ⟨_ | ⟨G1, impact⟩, eu⟩
        · dsimp only
          by_cases he : eu.1 = 1 ∧ eu.2.1 = 1 <;> simp [he]
        · dsimp only
          by_cases he : eu.1 = 1 ∧ eu.2.1 = 1 <;> simp [he]
    · subst h
      rw [SlvM.cr, SlvM.pert_cr]
      unfold solveWithCR
      cases solvePolicyCR m.A m.B m.C m.D maxIter tol with
      | ok p => simp
      | error er =>
        simp only [npCall]
        cases er
        · simp
        · simp only [reduceCtorEq, iff_false]
          split <;> simp

/-- the one-variable model of `GenEx` is solved by gensys through `solve_model` -/
example : ∃ (gen : GenOracle 1 GenEx.eTol) (T : Mat 1 1) (R : Mat 1 1),
    solveModel (some ((), true)) (fun _ => some ⟨GenEx.eA, GenEx.eB, GenEx.eC, GenEx.eD⟩) GenEx.eTol gen 1 false "gensys".toList "error".toList = .ok (some (T, R)) := by
  classical
  obtain ⟨T, R, h⟩ : ∃ T R, modelSolveGensys GenEx.eD GenEx.eO true = .solved T R := by
    rw [Gen.model_eq, GenEx.eEU]; exact ⟨_, _, rfl⟩
  refine ⟨fun A B C => if h : A = GenEx.eA ∧ B = GenEx.eB ∧ C = GenEx.eC then some (by rw [h.1, h.2.1, h.2.2]; exact GenEx.eO) else none, T, R, ?_⟩
  unfold solveModel
  rw [if_neg (by simp)]
  dsimp only
  rw [show decide ("error".toList = "error".toList) = true by decide, SlvM.gens]
  simp only [and_self, dite_true]
  simp [h]

end GE
