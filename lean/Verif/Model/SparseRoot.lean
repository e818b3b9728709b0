import Mathlib.Data.Matrix.Mul
import Mathlib.Analysis.Real.Sqrt
/-!
# `gEconpy/solvers/sparse_root/`

Vectors are `Fin n → ℝ` (exact arithmetic instead of floats: no NaN or overflow), sparse matrices are matrices. A linear solver
(`scipy.sparse.linalg.spsolve` or a Krylov method) is an arbitrary function, `none` standing for an exception or a non-finite result.
`args` are part of the function. `ObjectiveWrapper` / `optimizer_early_stopping_wrapper` of the `better_optimize` package (progress bar and
evaluation budget) are not modelled.
-/

namespace GE
open Matrix

noncomputable section

/-- `np.linalg.norm(v)` -/
def norm2 {n : Nat} (v : Fin n → ℝ) : ℝ := √(v ⬝ᵥ v)

/-- `np.max(np.abs(v))` for a non-empty vector -/
def maxAbs {n : Nat} (v : Fin n → ℝ) : ℝ := (List.ofFn v).foldl (fun a x => max a |x|) 0

/-- `merit` (base.py:75-76) -/
def merit {m : Nat} (res : Fin m → ℝ) : ℝ := 0.5 * (res ⬝ᵥ res)

/-- a `RootFunction` (base.py:14-15): residuals and Jacobian -/
abbrev RootFun (m n : Nat) := (Fin n → ℝ) → (Fin m → ℝ) × Matrix (Fin m) (Fin n) ℝ

/-- `SolverState` with its `IterationStats` (base.py:32-55); `nfev`, `njev`, `nsolve`, `nreject` count work only and are left out -/
structure SState (m n : Nat) where
  x : Fin n → ℝ
  res : Fin m → ℝ
  jac : Matrix (Fin m) (Fin n) ℝ
  phi : ℝ
  nit : Nat

/-- `StepInfo` (base.py:58-62) -/
structure StepInfo (n : Nat) where
  accepted : Bool
  step : Fin n → ℝ
  message : List Char := []

/-- the state every solver's `init` builds from the function at `x0` (line_search.py:58-60, dogleg.py:55-57, gauss_newton.py:107-110,
levenberg_marquardt.py:60-62) -/
def startState {m n : Nat} (f : RootFun m n) (x0 : Fin n → ℝ) : SState m n :=
  { x := x0, res := (f x0).1, jac := (f x0).2, phi := merit (f x0).1, nit := 0 }

/-- a `RootSolver` (base.py:24-29). `σ` is the mutable state of the solver object, which survives between solves; `reset` is what `init` does
to it. -/
structure RootSolver (m n : Nat) where
  σ : Type
  reset : σ → σ
  step : RootFun m n → σ → SState m n → σ × SState m n × StepInfo n

/-- `check_step_convergence` (base.py:79-80) -/
def checkStep {n : Nat} (dx xNew : Fin n → ℝ) (tol : ℝ) : Prop := maxAbs dx < tol * (1 + maxAbs xNew)

/-- `default_check_convergence` (base.py:65-68) -/
def checkConvergence {m n : Nat} (s : SState m n) (fTol xTol : ℝ) (lastStep : Option (Fin n → ℝ)) : Prop :=
  maxAbs s.res < fTol ∨ ∃ dx, lastStep = some dx ∧ checkStep dx s.x xTol

/-- `OptimizeResult` as built by `_make_result` (sparse_root.py:23-32); the whole final state is kept. `last` and `iterates` (the states
after each accepted step) are recorded for the statements only. -/
structure RootResult (m n : Nat) where
  final : SState m n
  success : Bool
  last : Option (Fin n → ℝ)
  iterates : List (SState m n)

open Classical in
/-- the loop of `_root_find_core` (sparse_root.py:44-52), `k` iterations left; also returns the solver object's state -/
def rootLoop {m n : Nat} (S : RootSolver m n) (f : RootFun m n) (fTol xTol : ℝ) :
    Nat → S.σ → SState m n → Option (Fin n → ℝ) → S.σ × RootResult m n
  | 0, o, s, last => (o, { final := s, success := false, last := last, iterates := [] })
  | k + 1, o, s, last =>
    let r := S.step f o s
    if r.2.2.accepted then
      if checkConvergence r.2.1 fTol xTol (some r.2.2.step) then
        (r.1, { final := r.2.1, success := true, last := some r.2.2.step, iterates := [r.2.1] })
      else
        let t := rootLoop S f fTol xTol k r.1 r.2.1 (some r.2.2.step)
        (t.1, { t.2 with iterates := r.2.1 :: t.2.iterates })
    else (r.1, { final := r.2.1, success := false, last := last, iterates := [] })

open Classical in
/-- `_root_find_core` (sparse_root.py:35-52) with the default convergence test -/
def rootFind {m n : Nat} (S : RootSolver m n) (o : S.σ) (f : RootFun m n) (x0 : Fin n → ℝ) (fTol xTol : ℝ) (maxiter : Nat) :
    S.σ × RootResult m n :=
  let s := startState f x0
  if maxAbs s.res < fTol then (S.reset o, { final := s, success := true, last := none, iterates := [] })
  else rootLoop S f fTol xTol maxiter (S.reset o) s none

/-! ## direction.py -/

/-- `DirectionProposal` (direction.py:10-14) without its label -/
structure Proposal (n : Nat) where
  direction : Fin n → ℝ
  slope : ℝ

open Classical in
/-- the last lines of every `compute` (direction.py:45-51, 108-114, 195-201): slope with the current Jacobian, flipped if not negative -/
def finishProposal {m n : Nat} (res : Fin m → ℝ) (jac : Matrix (Fin m) (Fin n) ℝ) (dx : Fin n → ℝ) : Proposal n :=
  let slope := res ⬝ᵥ (jac *ᵥ dx)
  if slope ≥ 0 then { direction := -dx, slope := -slope } else { direction := dx, slope := slope }

/-- `solver(J, -res)` with the gradient fallback of every `compute` (direction.py:35-43, 97-105, 181-188) -/
def solveOrGradient {m n : Nat} (lin : Matrix (Fin m) (Fin n) ℝ → (Fin m → ℝ) → Option (Fin n → ℝ)) (J : Matrix (Fin m) (Fin n) ℝ)
    (res : Fin m → ℝ) : Fin n → ℝ :=
  (lin J (-res)).getD (-(Jᵀ *ᵥ res))

/-- `NewtonDirection.compute` (direction.py:29-51) -/
def newtonDirection {m n : Nat} (lin : Matrix (Fin m) (Fin n) ℝ → (Fin m → ℝ) → Option (Fin n → ℝ)) (s : SState m n) : Proposal n :=
  finishProposal s.res s.jac (solveOrGradient lin s.jac s.res)

/-- the state of `ChordDirection` (direction.py:72-73) -/
structure ChordSt (m n : Nat) where
  cached : Option (Matrix (Fin m) (Fin n) ℝ) := none
  calls : Nat := 0

/-- `ChordDirection.compute` (direction.py:84-114) -/
def chordDirection {m n : Nat} (lin : Matrix (Fin m) (Fin n) ℝ → (Fin m → ℝ) → Option (Fin n → ℝ)) (every : Nat) (c : ChordSt m n)
    (s : SState m n) : ChordSt m n × Proposal n :=
  let J := if c.calls % every = 0 then s.jac else c.cached.getD s.jac
  ({ cached := some J, calls := c.calls + 1 }, finishProposal s.res s.jac (solveOrGradient lin J s.res))

/-! ## globalization.py -/

/-- `ArmijoBacktracking` / `NonmonotoneBacktracking` parameters (globalization.py:62-65, 132-136). `meritFun = none` evaluates the full
function. -/
structure LineSearchCfg (m n : Nat) where
  c1 : ℝ
  beta : ℝ
  maxIter : Nat
  meritFun : Option ((Fin n → ℝ) → Fin m → ℝ) := none

/-- the merit of a trial point (globalization.py:83-89, 160-166): from `merit_fun` if given, from the full function otherwise -/
def trialMerit {m n : Nat} (cfg : LineSearchCfg m n) (f : RootFun m n) (x : Fin n → ℝ) : ℝ :=
  merit (match cfg.meritFun with | none => (f x).1 | some g => g x)

open Classical in
/-- the back-tracking loop (globalization.py:79-99, 156-176), `k` evaluations left: `ref` is the merit compared with. Returns the accepted
point with its `α`; `none` is the RuntimeError. The merit of a trial point comes from `merit_fun` if given; the new state's residuals and
Jacobian always come from the full function. -/
def backtrack {m n : Nat} (cfg : LineSearchCfg m n) (f : RootFun m n) (x : Fin n → ℝ) (ref : ℝ) (p : Proposal n) :
    Nat → ℝ → Option (SState m n × ℝ)
  | 0, _ => none
  | k + 1, alpha =>
    let xt := x + alpha • p.direction
    let phi := trialMerit cfg f xt
    if phi ≤ ref + cfg.c1 * alpha * p.slope then some ({ x := xt, res := (f xt).1, jac := (f xt).2, phi := phi, nit := 0 }, alpha)
    else backtrack cfg f x ref p k (alpha * cfg.beta)

/-- the end of `LineSearchSolver.step` (line_search.py:65-78) -/
def finishStep {m n : Nat} (s : SState m n) (p : Proposal n) (ls : Option (SState m n × ℝ)) : SState m n × StepInfo n :=
  match ls with
  | none => (s, { accepted := false, step := 0 })
  | some (s', alpha) => ({ s' with nit := s.nit + 1 }, { accepted := true, step := alpha • p.direction })

/-- `LineSearchSolver` (line_search.py:32-78) with a direction strategy of internal state `δ` and `ArmijoBacktracking`; `init` resets the
direction (line_search.py:55-56) -/
def armijoSolver {m n : Nat} {δ : Type} (fresh : δ) (dir : δ → SState m n → δ × Proposal n) (cfg : LineSearchCfg m n) : RootSolver m n where
  σ := δ
  reset := fun _ => fresh
  step := fun f d s =>
    let q := dir d s
    let r := finishStep s q.2 (backtrack cfg f s.x s.phi q.2 cfg.maxIter 1)
    (q.1, r.1, r.2)

/-- `deque(maxlen=memory).append` (globalization.py:140, 150); the newest value comes first here -/
def pushHistory (memory : Nat) (h : List ℝ) (phi : ℝ) : List ℝ := (phi :: h).take memory

/-- `max(self._phi_history)` (globalization.py:151) of a non-empty history -/
def maxHistory (h : List ℝ) (phi : ℝ) : ℝ := h.foldl max phi

/-- `LineSearchSolver` with `NonmonotoneBacktracking` (globalization.py:104-178): the history belongs to the globalization object, and `init`
resets the direction only (line_search.py:53-60). `memory ≥ 1` (with 0 the code raises). -/
def nonmonotoneSolver {m n : Nat} {δ : Type} (fresh : δ) (dir : δ → SState m n → δ × Proposal n) (cfg : LineSearchCfg m n) (memory : Nat) :
    RootSolver m n where
  σ := δ × List ℝ
  reset := fun o => (fresh, o.2)
  step := fun f o s =>
    let q := dir o.1 s
    let h := pushHistory memory o.2 s.phi
    let r := finishStep s q.2 (backtrack cfg f s.x (maxHistory h s.phi) q.2 cfg.maxIter 1)
    ((q.1, h), r.1, r.2)

/-! ## trust regions: dogleg.py, gauss_newton.py -/

/-- the parameters of `SparseDogleg` (dogleg.py:39-44) and `GaussNewtonTrustRegion` (gauss_newton.py:97-102) -/
structure TRCfg where
  delta0 : ℝ
  deltaMax : ℝ
  eta : ℝ
  shrink : ℝ
  grow : ℝ
  maxReject : Nat

/-- predicted reduction (dogleg.py:128-129, gauss_newton.py:130-131) -/
def predicted {m n : Nat} (J : Matrix (Fin m) (Fin n) ℝ) (g p : Fin n → ℝ) : ℝ := -(g ⬝ᵥ p + 0.5 * ((J *ᵥ p) ⬝ᵥ (J *ᵥ p)))

open Classical in
/-- the `while True` loop of both `step` methods (dogleg.py:119-164, gauss_newton.py:121-168): `k` more rejections are allowed after this
one; `sub delta` is the trust-region step. -/
def trLoop {m n : Nat} (cfg : TRCfg) (sub : ℝ → Fin n → ℝ) (f : RootFun m n) (s : SState m n) (g : Fin n → ℝ) :
    Nat → ℝ → ℝ × SState m n × StepInfo n
  | k, delta =>
    let p := sub delta
    let xt := s.x + p
    let phi := merit (f xt).1
    let pred := predicted s.jac g p
    let rho := (s.phi - phi) / pred
    if 0 < pred ∧ rho > cfg.eta then
      let delta' := if rho > 0.75 ∧ norm2 p > 0.9 * delta then min (cfg.grow * delta) cfg.deltaMax else delta
      (delta', { x := xt, res := (f xt).1, jac := (f xt).2, phi := phi, nit := s.nit + 1 }, { accepted := true, step := p })
    else match k with
      | 0 => (delta * cfg.shrink, s, { accepted := false, step := 0 })
      | k + 1 => trLoop cfg sub f s g k (delta * cfg.shrink)

open Classical in
/-- `_compute_dogleg_step` (dogleg.py:59-109) -/
def doglegStep {m n : Nat} (lin : Matrix (Fin m) (Fin n) ℝ → (Fin m → ℝ) → Option (Fin n → ℝ)) (J : Matrix (Fin m) (Fin n) ℝ)
    (r : Fin m → ℝ) (g : Fin n → ℝ) (delta : ℝ) : Fin n → ℝ :=
  let Jg := J *ᵥ g
  let gTg := g ⬝ᵥ g
  let JgTJg := Jg ⬝ᵥ Jg
  if JgTJg < 1e-30 then
    if norm2 g < 1e-30 then 0 else -((delta / norm2 g) • g)
  else
    let pc := -((gTg / JgTJg) • g)
    match lin J (-r) with
    | none => if norm2 pc ≤ delta then pc else (delta / norm2 pc) • pc
    | some pn =>
      if norm2 pn ≤ delta then pn
      else if norm2 pc ≥ delta then (delta / norm2 pc) • pc
      else
        let diff := pn - pc
        let dd := diff ⬝ᵥ diff
        let cd := pc ⬝ᵥ diff
        let cc := pc ⬝ᵥ pc
        let disc := cd * cd - dd * (cc - delta * delta)
        let tau := (-cd + √(max disc 0)) / dd
        pc + tau • diff

/-- `_boundary_step` (gauss_newton.py:61-70) -/
def boundaryStep {n : Nat} (p d : Fin n → ℝ) (delta : ℝ) : Fin n → ℝ :=
  let pp := p ⬝ᵥ p
  let pd := p ⬝ᵥ d
  let dd := d ⬝ᵥ d
  let disc := pd * pd - dd * (pp - delta * delta)
  let tau := (-pd + √(max disc 0)) / dd
  p + tau • d

open Classical in
/-- the loop of `_steihaug_cg` (gauss_newton.py:29-58), `k` iterations left. The boundary step is an argument, so that it can be stated that
it is never asked for a zero direction (a division by zero). -/
def steihaugLoop {n : Nat} (bstep : (Fin n → ℝ) → (Fin n → ℝ) → ℝ → Fin n → ℝ) (H : Matrix (Fin n) (Fin n) ℝ) (g : Fin n → ℝ) (delta : ℝ) :
    Nat → (Fin n → ℝ) → (Fin n → ℝ) → (Fin n → ℝ) → Fin n → ℝ
  | 0, p, _, _ => p
  | k + 1, p, r, d =>
    let Hd := H *ᵥ d
    let dHd := d ⬝ᵥ Hd
    if dHd ≤ 0 then bstep p d delta
    else
      let alpha := (r ⬝ᵥ r) / dHd
      let pNext := p + alpha • d
      if norm2 pNext ≥ delta then bstep p d delta
      else
        let r' := r + alpha • Hd
        if √(r' ⬝ᵥ r') < 1e-10 * norm2 g then pNext
        else
          let beta := (r' ⬝ᵥ r') / (r ⬝ᵥ r)
          steihaugLoop bstep H g delta k pNext r' (beta • d - r')

open Classical in
/-- `_steihaug_cg` (gauss_newton.py:9-58) as called without `max_cg_iter` (line 122) -/
def steihaugWith {n : Nat} (bstep : (Fin n → ℝ) → (Fin n → ℝ) → ℝ → Fin n → ℝ) (H : Matrix (Fin n) (Fin n) ℝ) (g : Fin n → ℝ)
    (delta : ℝ) : Fin n → ℝ :=
  if √(g ⬝ᵥ g) < 1e-15 then 0 else steihaugLoop bstep H g delta (2 * n) 0 g (-g)

/-- `_steihaug_cg` with its `_boundary_step` -/
def steihaug {n : Nat} (H : Matrix (Fin n) (Fin n) ℝ) (g : Fin n → ℝ) (delta : ℝ) : Fin n → ℝ := steihaugWith boundaryStep H g delta

/-- `SparseDogleg` (dogleg.py:12-164): its state is the radius -/
def doglegSolver {m n : Nat} (lin : Matrix (Fin m) (Fin n) ℝ → (Fin m → ℝ) → Option (Fin n → ℝ)) (cfg : TRCfg) : RootSolver m n where
  σ := ℝ
  reset := fun _ => cfg.delta0
  step := fun f delta s =>
    trLoop cfg (doglegStep lin s.jac s.res (s.jacᵀ *ᵥ s.res)) f s (s.jacᵀ *ᵥ s.res) (cfg.maxReject - 1) delta

/-- `GaussNewtonTrustRegion` (gauss_newton.py:73-168) -/
def gaussNewtonSolver {m n : Nat} (cfg : TRCfg) : RootSolver m n where
  σ := ℝ
  reset := fun _ => cfg.delta0
  step := fun f delta s =>
    trLoop cfg (steihaug (s.jacᵀ * s.jac) (s.jacᵀ *ᵥ s.res)) f s (s.jacᵀ *ᵥ s.res) (cfg.maxReject - 1) delta

/-! ## levenberg_marquardt.py -/

/-- the parameters of `LevenbergMarquardt` (levenberg_marquardt.py:40-47) -/
structure LMCfg where
  lam0 : ℝ
  lamUp : ℝ
  lamDown : ℝ
  eta : ℝ
  minLam : ℝ
  maxLam : ℝ
  maxReject : Nat

/-- `D_diag = np.maximum(1.0, diag(JtJ))` (levenberg_marquardt.py:71-72) -/
def lmScale {m n : Nat} (J : Matrix (Fin m) (Fin n) ℝ) : Fin n → ℝ := fun i => max 1 ((Jᵀ * J) i i)

/-- predicted reduction of the damped model (levenberg_marquardt.py:108-109) -/
def lmPredicted {m n : Nat} (J : Matrix (Fin m) (Fin n) ℝ) (g p : Fin n → ℝ) (lam : ℝ) : ℝ :=
  -(g ⬝ᵥ p + 0.5 * ((J *ᵥ p) ⬝ᵥ (J *ᵥ p) + lam * (lmScale J ⬝ᵥ (p * p))))

open Classical in
/-- the `while True` loop of `LevenbergMarquardt.step` (levenberg_marquardt.py:81-147): `k` more rejections allowed after this one -/
def lmLoop {m n : Nat} (lin : Matrix (Fin n) (Fin n) ℝ → (Fin n → ℝ) → Option (Fin n → ℝ)) (cfg : LMCfg) (f : RootFun m n)
    (s : SState m n) (g : Fin n → ℝ) : Nat → ℝ → ℝ × SState m n × StepInfo n
  | k, lam =>
    let lhs := s.jacᵀ * s.jac + Matrix.diagonal (lam • lmScale s.jac)
    let attempt : Option (ℝ × SState m n × StepInfo n) :=
      match lin lhs (-g) with
      | none => none
      | some p =>
        let xt := s.x + p
        let phi := merit (f xt).1
        let pred := lmPredicted s.jac g p lam
        if 0 < pred ∧ (s.phi - phi) / pred > cfg.eta then
          some (max (lam * cfg.lamDown) cfg.minLam, { x := xt, res := (f xt).1, jac := (f xt).2, phi := phi, nit := s.nit + 1 },
            { accepted := true, step := p })
        else none
    match attempt with
    | some r => r
    | none =>
      let lam' := min (lam * cfg.lamUp) cfg.maxLam
      match k with
      | 0 => (lam', s, { accepted := false, step := 0 })
      | k + 1 => if lam' ≥ cfg.maxLam then (lam', s, { accepted := false, step := 0 }) else lmLoop lin cfg f s g k lam'

/-- `LevenbergMarquardt` (levenberg_marquardt.py:11-147): its state is the damping parameter (the rejection counter only counts) -/
def lmSolver {m n : Nat} (lin : Matrix (Fin n) (Fin n) ℝ → (Fin n → ℝ) → Option (Fin n → ℝ)) (cfg : LMCfg) : RootSolver m n where
  σ := ℝ
  reset := fun _ => cfg.lam0
  step := fun f lam s => lmLoop lin cfg f s (s.jacᵀ *ᵥ s.res) (cfg.maxReject - 1) lam

end

end GE
