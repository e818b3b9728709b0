import Verif.Model.SparseRoot
import Mathlib.Analysis.Calculus.Deriv.Slope
import Mathlib.Analysis.Calculus.Deriv.Mul
import Mathlib.Analysis.Calculus.Deriv.Pi
import Mathlib.Analysis.Calculus.Deriv.Comp
import Mathlib.Analysis.Calculus.Deriv.Add
import Mathlib.Analysis.SpecificLimits.Basic
import Mathlib.LinearAlgebra.Matrix.DotProduct
import Mathlib.Tactic.Linarith
import Mathlib.Tactic.Ring
import Mathlib.Tactic.FieldSimp
import Mathlib.Tactic.NormNum
/-! # C32–C35, C60: the sparse root finders -/

namespace GE
open Matrix

namespace SRoot

theorem maxAbs_foldl (l : List ℝ) (a t : ℝ) : l.foldl (fun a x => max a |x|) a < t ↔ a < t ∧ ∀ x ∈ l, |x| < t := by
  induction l generalizing a with
  | nil => simp
  | cons x l ih => rw [List.foldl_cons, ih, max_lt_iff]; simp only [List.mem_cons, forall_eq_or_imp]; tauto

end SRoot

/-- the specification of "below tolerance": every component is -/
theorem maxAbs_lt {n : Nat} (v : Fin n → ℝ) (t : ℝ) (ht : 0 < t) : maxAbs v < t ↔ ∀ i, |v i| < t := by
  rw [maxAbs, SRoot.maxAbs_foldl]
  simp [ht, List.mem_ofFn, Set.forall_mem_range]

/-- the specification of an honest solver step: a refused step leaves the state alone; an accepted one moves by the reported step, counts one
iteration and carries the residuals and Jacobian of the new point -/
def HonestStep {m n : Nat} (S : RootSolver m n) : Prop :=
  ∀ (f : RootFun m n) (o : S.σ) (s : SState m n),
    ((S.step f o s).2.2.accepted = false → (S.step f o s).2.1 = s) ∧
    ((S.step f o s).2.2.accepted = true →
      (S.step f o s).2.1.x = s.x + (S.step f o s).2.2.step ∧ (S.step f o s).2.1.res = (f (S.step f o s).2.1.x).1 ∧
      (S.step f o s).2.1.jac = (f (S.step f o s).2.1.x).2 ∧ (S.step f o s).2.1.nit = s.nit + 1)

namespace SRoot
variable {m n : Nat}

/-- what a run starting in `s` guarantees -/
structure RunSpec (f : RootFun m n) (fTol xTol : ℝ) (k : Nat) (s : SState m n) (last : Option (Fin n → ℝ)) (r : RootResult m n) : Prop where
  len : r.iterates.length ≤ k
  final : r.final = r.iterates.getLastD s
  cons : ∀ t ∈ r.iterates, t.res = (f t.x).1 ∧ t.jac = (f t.x).2
  nit : r.final.nit = s.nit + r.iterates.length
  succ : r.success = true → r.iterates ≠ [] ∧ checkConvergence r.final fTol xTol r.last
  moved : r.success = true → ∃ pre t dx, s :: r.iterates = pre ++ [t, r.final] ∧ r.last = some dx ∧ r.final.x = t.x + dx
  fail : r.success = false → (¬ maxAbs s.res < fTol) → ¬ maxAbs r.final.res < fTol

theorem loop_spec (S : RootSolver m n) (hS : HonestStep S) (f : RootFun m n) (fTol xTol : ℝ) (k : Nat) (o : S.σ) (s : SState m n)
    (last : Option (Fin n → ℝ)) : RunSpec f fTol xTol k s last (rootLoop S f fTol xTol k o s last).2 := by
  induction k generalizing o s last with
  | zero => exact ⟨by simp [rootLoop], by simp [rootLoop], by simp [rootLoop], by simp [rootLoop], by simp [rootLoop], by simp [rootLoop], fun _ h => h⟩
  | succ k ih =>
    obtain ⟨h1, h2⟩ := hS f o s
    simp only [rootLoop]
    by_cases hacc : (S.step f o s).2.2.accepted = true
    · obtain ⟨e1, e2, e3, e4⟩ := h2 hacc
      rw [if_pos hacc]
      split
      · rename_i hconv
        refine ⟨by simp, by simp, ?_, by simp [e4], fun _ => ⟨by simp, hconv⟩, ?_, by simp⟩
        · intro t ht; simp only [List.mem_singleton] at ht; subst ht; exact ⟨e2, e3⟩
        · intro _; exact ⟨[], s, _, rfl, rfl, e1⟩
      · rename_i hconv
        have ih' := ih (S.step f o s).1 (S.step f o s).2.1 (some (S.step f o s).2.2.step)
        refine ⟨?_, ?_, ?_, ?_, ?_, ?_, ?_⟩
        · simpa using ih'.len
        · simp only [ih'.final, List.getLastD_cons]
        · intro t ht
          rcases List.mem_cons.mp ht with rfl | ht
          · exact ⟨e2, e3⟩
          · exact ih'.cons t ht
        · simp only [ih'.nit, e4, List.length_cons]; omega
        · intro hs; exact ⟨by simp, (ih'.succ hs).2⟩
        · intro hs
          obtain ⟨pre, t, dx, ht, h⟩ := ih'.moved hs
          exact ⟨s :: pre, t, dx, by rw [List.cons_append, ← ht], h⟩
        · intro hs _
          exact ih'.fail hs (fun hc => hconv (Or.inl hc))
    · rw [if_neg hacc]
      have hacc' : (S.step f o s).2.2.accepted = false := by simpa using hacc
      have := h1 hacc'
      refine ⟨by simp, by simp [this], by simp, by simp [this], by simp, by simp, fun _ h => by rw [this]; exact h⟩

end SRoot

/-- **C35** for every solver with honest steps, every function, start, tolerances and iteration limit: at most `maxiter` iterations are made;
the returned point is the last iterate and the returned residuals and Jacobian are those of that point; the iteration count is the number of
accepted steps. -/
theorem C35_bounded_and_consistent {m n : Nat} (S : RootSolver m n) (hS : HonestStep S) (o : S.σ) (f : RootFun m n) (x0 : Fin n → ℝ)
    (fTol xTol : ℝ) (maxiter : Nat) :
    let r := (rootFind S o f x0 fTol xTol maxiter).2
    r.iterates.length ≤ maxiter ∧ r.final = r.iterates.getLastD (startState f x0) ∧
    r.final.res = (f r.final.x).1 ∧ r.final.jac = (f r.final.x).2 ∧ r.final.nit = r.iterates.length := by
  intro r
  by_cases h0 : maxAbs (startState f x0).res < fTol
  · have : r = { final := startState f x0, success := true, last := none, iterates := [] } := by
      simp only [r, rootFind]; rw [if_pos h0]
    rw [this]; simp [startState]
  · have hr : r = (rootLoop S f fTol xTol maxiter (S.reset o) (startState f x0) none).2 := by
      simp only [r, rootFind]; rw [if_neg h0]
    have sp := SRoot.loop_spec S hS f fTol xTol maxiter (S.reset o) (startState f x0) none
    rw [← hr] at sp
    refine ⟨sp.len, sp.final, ?_, ?_, by rw [sp.nit]; simp [startState]⟩
    · rcases List.eq_nil_or_concat r.iterates with hl | ⟨l, t, hl⟩
      · rw [sp.final, hl]; rfl
      · have ht : r.final = t := by rw [sp.final, hl]; simp
        rw [ht]; exact (sp.cons t (by rw [hl]; simp)).1
    · rcases List.eq_nil_or_concat r.iterates with hl | ⟨l, t, hl⟩
      · rw [sp.final, hl]; rfl
      · have ht : r.final = t := by rw [sp.final, hl]; simp
        rw [ht]; exact (sp.cons t (by rw [hl]; simp)).2

/-- **C35** success is reported only if the returned point passes the convergence test: its residuals are below `f_tol`, or the last step, from
the iterate before it, is below `x_tol` relative to it. Conversely the residuals of a point returned as a failure are not below `f_tol`. -/
theorem C35_success {m n : Nat} (S : RootSolver m n) (hS : HonestStep S) (o : S.σ) (f : RootFun m n) (x0 : Fin n → ℝ)
    (fTol xTol : ℝ) (hf : 0 < fTol) (maxiter : Nat) :
    let r := (rootFind S o f x0 fTol xTol maxiter).2
    (r.success = true → (∀ i, |(f r.final.x).1 i| < fTol) ∨
      ∃ pre t, startState f x0 :: r.iterates = pre ++ [t, r.final] ∧ maxAbs (r.final.x - t.x) < xTol * (1 + maxAbs r.final.x)) ∧
    (r.success = false → ¬ ∀ i, |(f r.final.x).1 i| < fTol) := by
  intro r
  have hres := (C35_bounded_and_consistent S hS o f x0 fTol xTol maxiter).2.2.1
  rw [← maxAbs_lt _ _ hf, ← hres]
  by_cases h0 : maxAbs (startState f x0).res < fTol
  · have : r = { final := startState f x0, success := true, last := none, iterates := [] } := by
      simp only [r, rootFind]; rw [if_pos h0]
    refine ⟨fun _ => Or.inl ?_, ?_⟩
    · change maxAbs r.final.res < fTol; rw [this]; exact h0
    · intro hs; rw [this] at hs; cases hs
  · have hr : r = (rootLoop S f fTol xTol maxiter (S.reset o) (startState f x0) none).2 := by
      simp only [r, rootFind]; rw [if_neg h0]
    have sp := SRoot.loop_spec S hS f fTol xTol maxiter (S.reset o) (startState f x0) none
    rw [← hr] at sp
    refine ⟨fun hs => ?_, fun hs => sp.fail hs h0⟩
    rcases (sp.succ hs).2 with h | ⟨dx, hdx, hc⟩
    · exact Or.inl h
    · obtain ⟨pre, t, dx', ht, h1, h2⟩ := sp.moved hs
      have : dx = dx' := by rw [h1] at hdx; exact (Option.some.inj hdx).symm
      subst this
      refine Or.inr ⟨pre, t, ht, ?_⟩
      rw [h2, add_sub_cancel_left, ← h2]; exact hc

namespace SRoot
variable {m n : Nat}

theorem backtrack_spec (cfg : LineSearchCfg m n) (f : RootFun m n) (x : Fin n → ℝ) (ref : ℝ) (p : Proposal n) (k : Nat) (a : ℝ)
    (s : SState m n) (alpha : ℝ) (h : backtrack cfg f x ref p k a = some (s, alpha)) :
    s.x = x + alpha • p.direction ∧ s.res = (f s.x).1 ∧ s.jac = (f s.x).2 ∧ s.phi ≤ ref + cfg.c1 * alpha * p.slope ∧
      s.phi = trialMerit cfg f s.x ∧ ∃ j < k, alpha = a * cfg.beta ^ j := by
  induction k generalizing a with
  | zero => simp [backtrack] at h
  | succ k ih =>
    unfold backtrack at h
    simp only at h
    by_cases hle : trialMerit cfg f (x + a • p.direction) ≤
        ref + cfg.c1 * a * p.slope
    · rw [if_pos hle] at h
      simp only [Option.some.injEq, Prod.mk.injEq] at h
      obtain ⟨rfl, rfl⟩ := h
      exact ⟨rfl, rfl, rfl, hle, rfl, 0, by omega, by simp⟩
    · rw [if_neg hle] at h
      obtain ⟨h1, h2, h3, h4, h5, j, hj, h6⟩ := ih _ h
      exact ⟨h1, h2, h3, h4, h5, j + 1, by omega, by rw [h6, pow_succ]; ring⟩

theorem finish_honest (f : RootFun m n) (s : SState m n) (p : Proposal n) (cfg : LineSearchCfg m n) (ref : ℝ) (k : Nat) (a : ℝ) :
    let r := finishStep s p (backtrack cfg f s.x ref p k a)
    (r.2.accepted = false → r.1 = s) ∧ (r.2.accepted = true →
      r.1.x = s.x + r.2.step ∧ r.1.res = (f r.1.x).1 ∧ r.1.jac = (f r.1.x).2 ∧ r.1.nit = s.nit + 1) := by
  intro r
  simp only [r, finishStep]
  cases h : backtrack cfg f s.x ref p k a with
  | none => simp
  | some q =>
    obtain ⟨s', alpha⟩ := q
    obtain ⟨h1, h2, h3, _⟩ := backtrack_spec cfg f s.x ref p k a s' alpha h
    exact ⟨by simp, fun _ => ⟨h1, h2, h3, rfl⟩⟩

theorem trLoop_spec (cfg : TRCfg) (sub : ℝ → Fin n → ℝ) (f : RootFun m n) (s : SState m n) (g : Fin n → ℝ) (k : Nat) (delta : ℝ) :
    let r := trLoop cfg sub f s g k delta
    (r.2.2.accepted = false → r.2.1 = s) ∧ (r.2.2.accepted = true →
      r.2.1.x = s.x + r.2.2.step ∧ r.2.1.res = (f r.2.1.x).1 ∧ r.2.1.jac = (f r.2.1.x).2 ∧ r.2.1.nit = s.nit + 1 ∧
      r.2.1.phi = merit r.2.1.res ∧ (0 ≤ cfg.eta → r.2.1.phi < s.phi) ∧ ∃ j ≤ k, r.2.2.step = sub (delta * cfg.shrink ^ j)) := by
  induction k generalizing delta with
  | zero =>
    intro r
    simp only [r]
    unfold trLoop
    simp only
    split
    · rename_i h
      refine ⟨by simp, fun _ => ⟨rfl, rfl, rfl, rfl, rfl, fun heta => ?_, 0, le_refl _, by simp⟩⟩
      have := (div_pos_iff_of_pos_right h.1).mp (lt_of_le_of_lt heta h.2)
      simp only; linarith
    · exact ⟨fun _ => rfl, by simp⟩
  | succ k ih =>
    intro r
    simp only [r]
    unfold trLoop
    simp only
    split
    · rename_i h
      refine ⟨by simp, fun _ => ⟨rfl, rfl, rfl, rfl, rfl, fun heta => ?_, 0, Nat.zero_le _, by simp⟩⟩
      have := (div_pos_iff_of_pos_right h.1).mp (lt_of_le_of_lt heta h.2)
      simp only; linarith
    · obtain ⟨h1, h2⟩ := ih (delta * cfg.shrink)
      refine ⟨h1, fun ha => ?_⟩
      obtain ⟨e1, e2, e3, e4, e5, e6, j, hj, e7⟩ := h2 ha
      exact ⟨e1, e2, e3, e4, e5, e6, j + 1, by omega, by rw [e7, pow_succ']; ring_nf⟩

theorem lmLoop_spec (lin) (cfg : LMCfg) (f : RootFun m n) (s : SState m n) (g : Fin n → ℝ) (k : Nat) (lam : ℝ) :
    let r := lmLoop lin cfg f s g k lam
    (r.2.2.accepted = false → r.2.1 = s) ∧ (r.2.2.accepted = true →
      r.2.1.x = s.x + r.2.2.step ∧ r.2.1.res = (f r.2.1.x).1 ∧ r.2.1.jac = (f r.2.1.x).2 ∧ r.2.1.nit = s.nit + 1 ∧
      r.2.1.phi = merit r.2.1.res ∧ (0 ≤ cfg.eta → r.2.1.phi < s.phi)) := by
  have accept : ∀ (lam : ℝ) (o : ℝ × SState m n × StepInfo n),
      (match lin (s.jacᵀ * s.jac + Matrix.diagonal (lam • lmScale s.jac)) (-g) with
        | none => none
        | some p =>
          if 0 < lmPredicted s.jac g p lam ∧ (s.phi - merit (f (s.x + p)).1) / lmPredicted s.jac g p lam > cfg.eta then
            some (max (lam * cfg.lamDown) cfg.minLam,
              ({ x := s.x + p, res := (f (s.x + p)).1, jac := (f (s.x + p)).2, phi := merit (f (s.x + p)).1, nit := s.nit + 1 } : SState m n),
              ({ accepted := true, step := p } : StepInfo n))
          else none) = some o →
      (o.2.2.accepted = false → o.2.1 = s) ∧ (o.2.2.accepted = true →
        o.2.1.x = s.x + o.2.2.step ∧ o.2.1.res = (f o.2.1.x).1 ∧ o.2.1.jac = (f o.2.1.x).2 ∧ o.2.1.nit = s.nit + 1 ∧
        o.2.1.phi = merit o.2.1.res ∧ (0 ≤ cfg.eta → o.2.1.phi < s.phi)) := by
    intro lam o ho
    split at ho
    · cases ho
    · rename_i p _
      split at ho
      · rename_i h
        cases ho
        refine ⟨by simp, fun _ => ⟨rfl, rfl, rfl, rfl, rfl, fun heta => ?_⟩⟩
        have := (div_pos_iff_of_pos_right h.1).mp (lt_of_le_of_lt heta h.2)
        simp only; linarith
      · cases ho
  induction k generalizing lam with
  | zero =>
    intro r
    simp only [r]
    unfold lmLoop
    simp only
    split
    · rename_i o ho; exact accept lam o ho
    · exact ⟨fun _ => rfl, by simp⟩
  | succ k ih =>
    intro r
    simp only [r]
    unfold lmLoop
    simp only
    split
    · rename_i o ho; exact accept lam o ho
    · split
      · exact ⟨fun _ => rfl, by simp⟩
      · exact ih _

theorem lmLoop_range (lin) (cfg : LMCfg) (f : RootFun m n) (s : SState m n) (g : Fin n → ℝ) (k : Nat) (lam : ℝ)
    (hup : 1 ≤ cfg.lamUp) (hdown : cfg.lamDown ≤ 1) (hmm : cfg.minLam ≤ cfg.maxLam) (hmin : 0 ≤ cfg.minLam)
    (hl : cfg.minLam ≤ lam ∧ lam ≤ cfg.maxLam) :
    cfg.minLam ≤ (lmLoop lin cfg f s g k lam).1 ∧ (lmLoop lin cfg f s g k lam).1 ≤ cfg.maxLam := by
  have up : ∀ lam, cfg.minLam ≤ lam ∧ lam ≤ cfg.maxLam →
      cfg.minLam ≤ min (lam * cfg.lamUp) cfg.maxLam ∧ min (lam * cfg.lamUp) cfg.maxLam ≤ cfg.maxLam := by
    intro lam h
    refine ⟨le_min ?_ hmm, min_le_right _ _⟩
    nlinarith [h.1]
  have accept : ∀ (lam : ℝ) (o : ℝ × SState m n × StepInfo n), (cfg.minLam ≤ lam ∧ lam ≤ cfg.maxLam) →
      (match lin (s.jacᵀ * s.jac + Matrix.diagonal (lam • lmScale s.jac)) (-g) with
        | none => none
        | some p =>
          if 0 < lmPredicted s.jac g p lam ∧ (s.phi - merit (f (s.x + p)).1) / lmPredicted s.jac g p lam > cfg.eta then
            some (max (lam * cfg.lamDown) cfg.minLam,
              ({ x := s.x + p, res := (f (s.x + p)).1, jac := (f (s.x + p)).2, phi := merit (f (s.x + p)).1, nit := s.nit + 1 } : SState m n),
              ({ accepted := true, step := p } : StepInfo n))
          else none) = some o → cfg.minLam ≤ o.1 ∧ o.1 ≤ cfg.maxLam := by
    intro lam o hlam ho
    split at ho
    · cases ho
    · rename_i p _
      split at ho
      · cases ho
        refine ⟨le_max_right _ _, max_le ?_ hmm⟩
        nlinarith [hlam.1, hlam.2]
      · cases ho
  induction k generalizing lam with
  | zero =>
    unfold lmLoop
    simp only
    split
    · rename_i o ho; exact accept lam o hl ho
    · exact up lam hl
  | succ k ih =>
    unfold lmLoop
    simp only
    split
    · rename_i o ho; exact accept lam o hl ho
    · split
      · exact up lam hl
      · exact ih _ (up lam hl)

end SRoot

/-- **C35** all solvers of the package have honest steps: Newton/Chord/Krylov directions (any direction strategy) with either line search, the
two trust-region methods and Levenberg-Marquardt. -/
theorem C35_solvers {m n : Nat} :
    (∀ {δ : Type} (fresh : δ) (dir : δ → SState m n → δ × Proposal n) (cfg : LineSearchCfg m n), HonestStep (armijoSolver fresh dir cfg)) ∧
    (∀ {δ : Type} (fresh : δ) (dir : δ → SState m n → δ × Proposal n) (cfg : LineSearchCfg m n) (memory : Nat),
      HonestStep (nonmonotoneSolver fresh dir cfg memory)) ∧
    (∀ lin (cfg : TRCfg), HonestStep (doglegSolver (m := m) (n := n) lin cfg)) ∧
    (∀ (cfg : TRCfg), HonestStep (gaussNewtonSolver (m := m) (n := n) cfg)) ∧
    (∀ lin (cfg : LMCfg), HonestStep (lmSolver (m := m) (n := n) lin cfg)) := by
  refine ⟨?_, ?_, ?_, ?_, ?_⟩
  · intro δ fresh dir cfg f o s
    exact SRoot.finish_honest f s (dir o s).2 cfg s.phi cfg.maxIter 1
  · intro δ fresh dir cfg memory f o s
    exact SRoot.finish_honest f s (dir o.1 s).2 cfg (maxHistory (pushHistory memory o.2 s.phi) s.phi) cfg.maxIter 1
  · intro lin cfg f o s
    obtain ⟨h1, h2⟩ := SRoot.trLoop_spec cfg (doglegStep lin s.jac s.res (s.jacᵀ *ᵥ s.res)) f s (s.jacᵀ *ᵥ s.res) (cfg.maxReject - 1) o
    exact ⟨h1, fun ha => ⟨(h2 ha).1, (h2 ha).2.1, (h2 ha).2.2.1, (h2 ha).2.2.2.1⟩⟩
  · intro cfg f o s
    obtain ⟨h1, h2⟩ := SRoot.trLoop_spec cfg (steihaug (s.jacᵀ * s.jac) (s.jacᵀ *ᵥ s.res)) f s (s.jacᵀ *ᵥ s.res) (cfg.maxReject - 1) o
    exact ⟨h1, fun ha => ⟨(h2 ha).1, (h2 ha).2.1, (h2 ha).2.2.1, (h2 ha).2.2.2.1⟩⟩
  · intro lin cfg f o s
    obtain ⟨h1, h2⟩ := SRoot.lmLoop_spec lin cfg f s (s.jacᵀ *ᵥ s.res) (cfg.maxReject - 1) o
    exact ⟨h1, fun ha => ⟨(h2 ha).1, (h2 ha).2.1, (h2 ha).2.2.1, (h2 ha).2.2.2.1⟩⟩

/-! ## C32 -/

/-- **C32** every direction handed to the line search has non-positive slope, and the slope is that of the direction: `res · (J d)`; whatever
the linear solver returned. With an exact Newton solve the slope is `-‖res‖²`. -/
theorem C32_slope {m n : Nat} (res : Fin m → ℝ) (jac : Matrix (Fin m) (Fin n) ℝ) (dx : Fin n → ℝ) :
    (finishProposal res jac dx).slope ≤ 0 ∧
    (finishProposal res jac dx).slope = res ⬝ᵥ (jac *ᵥ (finishProposal res jac dx).direction) ∧
    (jac *ᵥ dx = -res → (finishProposal res jac dx).slope = -(res ⬝ᵥ res)) := by
  simp only [finishProposal]
  split
  · rename_i h
    refine ⟨by simpa using h, by simp [Matrix.mulVec_neg], ?_⟩
    intro he
    rw [he] at h ⊢
    have h1 : 0 ≤ res ⬝ᵥ res := Finset.sum_nonneg fun i _ => mul_self_nonneg (res i)
    simp only [dotProduct_neg, ge_iff_le, Left.nonneg_neg_iff] at h ⊢
    linarith
  · rename_i h
    refine ⟨le_of_lt (not_le.mp h), rfl, ?_⟩
    intro he; rw [he]; simp

namespace SRoot
variable {m n : Nat}

/-- the merit used by the line search is that of the function's residuals -/
def ConsistentMerit (cfg : LineSearchCfg m n) (f : RootFun m n) : Prop := ∀ g, cfg.meritFun = some g → ∀ x, g x = (f x).1

theorem merit_consistent (cfg : LineSearchCfg m n) (f : RootFun m n) (hc : ConsistentMerit cfg f) (x : Fin n → ℝ) :
    trialMerit cfg f x = merit (f x).1 := by
  unfold trialMerit
  cases h : cfg.meritFun with
  | none => rfl
  | some g => simp only; rw [hc g h x]

/-- an invariant of the states along a run -/
theorem loop_chain (S : RootSolver m n) (f : RootFun m n) (fTol xTol : ℝ) (I : S.σ → SState m n → Prop) (R : SState m n → SState m n → Prop)
    (hstep : ∀ o s, I o s → (S.step f o s).2.2.accepted = true → I (S.step f o s).1 (S.step f o s).2.1 ∧ R s (S.step f o s).2.1)
    (k : Nat) (o : S.σ) (s : SState m n) (last) (h : I o s) :
    List.IsChain R (s :: (rootLoop S f fTol xTol k o s last).2.iterates) := by
  induction k generalizing o s last with
  | zero => simp [rootLoop]
  | succ k ih =>
    simp only [rootLoop]
    by_cases hacc : (S.step f o s).2.2.accepted = true
    · obtain ⟨hi, hr⟩ := hstep o s h hacc
      rw [if_pos hacc]
      split
      · simp [hr]
      · simp only [List.isChain_cons_cons]
        exact ⟨hr, ih _ _ _ hi⟩
    · rw [if_neg hacc]; simp

theorem chain_pairwise_le (l : List (SState m n)) (h : List.IsChain (fun a b => b.phi ≤ a.phi) l) :
    l.Pairwise fun a b => b.phi ≤ a.phi := by
  have : IsTrans (SState m n) fun a b => b.phi ≤ a.phi := ⟨fun a b c h1 h2 => le_trans h2 h1⟩
  exact List.isChain_iff_pairwise.mp h

end SRoot

/-- **C32** with Armijo back-tracking, any direction strategy whose slopes are non-positive, any function, start and tolerances: along the
iterates the merit `½‖res‖²` never increases, and each step satisfies sufficient decrease for some `α = βʲ`. -/
theorem C32_monotone {m n : Nat} {δ : Type} (fresh : δ) (dir : δ → SState m n → δ × Proposal n) (cfg : LineSearchCfg m n)
    (f : RootFun m n) (hdir : ∀ d s, (dir d s).2.slope ≤ 0) (hc1 : 0 ≤ cfg.c1) (hb : 0 ≤ cfg.beta)
    (hmerit : SRoot.ConsistentMerit cfg f) (o : δ) (x0 : Fin n → ℝ) (fTol xTol : ℝ) (maxiter : Nat) :
    let r := (rootFind (armijoSolver fresh dir cfg) o f x0 fTol xTol maxiter).2
    (x0 :: r.iterates.map SState.x).Pairwise (fun a b => merit (f b).1 ≤ merit (f a).1) ∧
    List.IsChain (fun a b => ∃ d, ∃ j < cfg.maxIter, b.x = a.x + (cfg.beta ^ j) • (dir d a).2.direction ∧
      merit (f b.x).1 ≤ merit (f a.x).1 + cfg.c1 * cfg.beta ^ j * (dir d a).2.slope) (startState f x0 :: r.iterates) := by
  intro r
  have key : List.IsChain (fun a b => (b.phi ≤ a.phi ∧ b.phi = merit (f b.x).1 ∧ a.phi = merit (f a.x).1) ∧
      ∃ d, ∃ j < cfg.maxIter, b.x = a.x + (cfg.beta ^ j) • (dir d a).2.direction ∧
      merit (f b.x).1 ≤ merit (f a.x).1 + cfg.c1 * cfg.beta ^ j * (dir d a).2.slope) (startState f x0 :: r.iterates) := by
    simp only [r, rootFind]
    split
    · simp
    · refine SRoot.loop_chain (armijoSolver fresh dir cfg) f fTol xTol (fun _ s => s.phi = merit (f s.x).1) _ ?_ maxiter _ _ _ rfl
      intro o s hs hacc
      have hst : (armijoSolver fresh dir cfg).step f o s = ((dir o s).1, finishStep s (dir o s).2 (backtrack cfg f s.x s.phi (dir o s).2 cfg.maxIter 1)) := rfl
      rw [hst] at hacc ⊢
      simp only [finishStep] at hacc ⊢
      cases hb' : backtrack cfg f s.x s.phi (dir o s).2 cfg.maxIter 1 with
      | none => rw [hb'] at hacc; simp at hacc
      | some q =>
        obtain ⟨s', alpha⟩ := q
        obtain ⟨h1, _, _, h4, h5, j, hj, h6⟩ := SRoot.backtrack_spec cfg f s.x s.phi (dir o s).2 cfg.maxIter 1 s' alpha hb'
        rw [SRoot.merit_consistent cfg f hmerit] at h5
        rw [one_mul] at h6
        simp only
        refine ⟨h5, ⟨?_, h5, hs⟩, o, j, hj, by rw [h1, h6], ?_⟩
        · have hneg : cfg.c1 * alpha * (dir o s).2.slope ≤ 0 :=
            mul_nonpos_of_nonneg_of_nonpos (mul_nonneg hc1 (by rw [h6]; exact pow_nonneg hb j)) (hdir o s)
          linarith
        · rw [← h5, ← h6, ← hs]; exact h4
  refine ⟨?_, key.imp fun a b h => h.2⟩
  have hmono := SRoot.chain_pairwise_le _ (key.imp fun a b h => h.1.1)
  have hphi : ∀ s ∈ startState f x0 :: r.iterates, s.phi = merit (f s.x).1 := by
    have : ∀ (l : List (SState m n)) (s : SState m n), s.phi = merit (f s.x).1 →
        List.IsChain (fun a b => b.phi = merit (f b.x).1) (s :: l) → ∀ t ∈ s :: l, t.phi = merit (f t.x).1 := by
      intro l
      induction l with
      | nil => intro s hs _ t ht; simp only [List.mem_singleton] at ht; rw [ht]; exact hs
      | cons b l ih =>
        intro s hs hch t ht
        rw [List.isChain_cons_cons] at hch
        rcases List.mem_cons.mp ht with rfl | ht
        · exact hs
        · exact ih b hch.1 hch.2 t ht
    exact this r.iterates _ rfl (key.imp fun a b h => h.1.2.1)
  have : (x0 :: r.iterates.map SState.x) = (startState f x0 :: r.iterates).map SState.x := by simp [startState]
  rw [this, List.pairwise_map]
  refine hmono.imp_of_mem ?_
  intro a b ha hb h
  rw [← hphi a ha, ← hphi b hb]; exact h

/-- the hypotheses hold for Newton directions with any linear solver, and for the chord method -/
theorem C32_directions {m n : Nat} (lin : Matrix (Fin m) (Fin n) ℝ → (Fin m → ℝ) → Option (Fin n → ℝ)) (every : Nat) :
    (∀ (s : SState m n), (newtonDirection lin s).slope ≤ 0) ∧ (∀ (c : ChordSt m n) (s : SState m n), (chordDirection lin every c s).2.slope ≤ 0) :=
  ⟨fun s => (C32_slope s.res s.jac _).1, fun c s => (C32_slope s.res s.jac _).1⟩

end GE
