import Verif.Model.SolverReuse
import Verif.Props.SparseRoot2
import Verif.Props.PFSolve
/-!
# C134: a solver object used again
-/

namespace GE
open Matrix

namespace Reu

theorem same_of_reset {m n : Nat} (S : RootSolver m n) (h : ∀ o o', S.reset o = S.reset o') (o o' : S.σ) (f : RootFun m n) (x0 : Fin n → ℝ)
    (ft xt : ℝ) (k : Nat) : rootFind S o f x0 ft xt k = rootFind S o' f x0 ft xt k := by
  simp only [rootFind, h o o']

theorem radius_same (S : ∀ n : Nat, RootSolver n n) (hσ : ∀ n, (S n).σ = ℝ) (h : ∀ n o o', (S n).reset o = (S n).reset o') (o o' : ℝ)
    (c : SolveCall) : radiusCall S hσ o c = radiusCall S hσ o' c := by
  cases c with
  | root n f x0 ft xt k => simp only [radiusCall]; rw [same_of_reset (S n) (h n) (cast (hσ n).symm o) (cast (hσ n).symm o')]
  | foresight n f g x0 => simp only [radiusCall]; rw [same_of_reset (S n) (h n) (cast (hσ n).symm o) (cast (hσ n).symm o')]

variable {δ : Type}

theorem solveWith_same (cls : LSClass δ) (hm : cls.memory = none) (o o' : LSObj δ) {n : Nat} (mf) (f : RootFun n n) (x0 : Fin n → ℝ) (ft xt : ℝ)
    (k : Nat) : (o.solveWith cls mf f x0 ft xt k).2 = (o'.solveWith cls mf f x0 ft xt k).2 := by
  have h := congrArg Prod.snd (same_of_reset (armijoSolver cls.fresh (cls.dir n)
    { c1 := cls.c1, beta := cls.beta, maxIter := cls.maxIter, meritFun := mf }) (fun _ _ => rfl) o.mem o'.mem f x0 ft xt k)
  simp only [LSObj.solveWith, hm]
  exact h

theorem sparseRoot_same (cls : LSClass δ) (hm : cls.memory = none) (o o' : LSObj δ) (hs : o.meritFun = o'.meritFun) {n : Nat} (f : RootFun n n)
    (x0 : Fin n → ℝ) (ft xt : ℝ) (k : Nat) : (o.sparseRoot cls f x0 ft xt k).2 = (o'.sparseRoot cls f x0 ft xt k).2 := by
  unfold LSObj.sparseRoot
  rw [hs]
  split
  · exact congrArg some (solveWith_same cls hm o o' none f x0 ft xt k)
  · split
    · exact congrArg some (solveWith_same cls hm o o' _ f x0 ft xt k)
    · split
      · exact congrArg some (solveWith_same cls hm o o' none f x0 ft xt k)
      · rfl

theorem sparseRoot_slot (cls : LSClass δ) (o : LSObj δ) {n : Nat} (f : RootFun n n) (x0 : Fin n → ℝ) (ft xt : ℝ) (k : Nat) :
    (o.sparseRoot cls f x0 ft xt k).1.meritFun = o.meritFun := by
  have key : ∀ mf, (o.solveWith cls mf f x0 ft xt k).1.meritFun = o.meritFun := by
    intro mf; unfold LSObj.solveWith; split <;> rfl
  unfold LSObj.sparseRoot
  split
  · exact key none
  · split
    · exact key _
    · split
      · exact key none
      · rfl

theorem wrong_size (cls : LSClass δ) (o : LSObj δ) (N : Nat) (g) (hs : o.meritFun = some ⟨N, g⟩) {n : Nat} (f : RootFun n n) (x0 : Fin n → ℝ)
    (ft xt : ℝ) (k : Nat) (hN : N ≠ n) (h : ¬ maxAbs (f x0).1 < ft) (hk : k ≠ 0) (hc : cls.maxIter ≠ 0) :
    (o.sparseRoot cls f x0 ft xt k).2 = none := by
  simp only [LSObj.sparseRoot, hs, dif_neg hN, h, hk, hc, or_self, if_false]

/-- Newton's method with the default line search, of any size: the linear solver divides where there is one unknown -/
noncomputable def newtonCls : LSClass Unit where
  c1 := 1e-4
  beta := 0.5
  maxIter := 50
  fresh := ()
  dir := fun n _ s => ((), newtonDirection (fun J r => some fun i => r i / J i i) s)

/-- `x - 100` -/
noncomputable def hundred : RootFun 1 1 := fun x => (fun _ => x 0 - 100, fun _ _ => 1)

/-- `x` -/
noncomputable def plain : RootFun 1 1 := fun x => (fun _ => x 0, fun _ _ => 1)

theorem newton_unit (r : ℝ) (s : SState 1 1) (h1 : s.res = (fun _ => r)) (h2 : s.jac = (fun _ _ => 1)) (hr : r ≠ 0) :
    newtonDirection (fun J r => some fun i => r i / J i i) s = Proposal.mk (fun _ => -r) (-(r * r)) := by
  have e : (fun (J : Matrix (Fin 1) (Fin 1) ℝ) (r : Fin 1 → ℝ) => some fun i => r i / J i i) = SRoot.divLin := by
    funext J r; simp only [SRoot.divLin]; congr 1; funext i; rw [Subsingleton.elim i 0]
  rw [e, SRoot.newton_scalar r 1 s h1 h2 hr one_ne_zero]
  simp

/-- the Newton step is accepted and solves the equation -/
theorem full_step (o : LSObj Unit) (mf) (f : RootFun 1 1) (x0 : Fin 1 → ℝ) (r ft xt : ℝ) (k : Nat) (hres : (f x0).1 = fun _ => r)
    (hjac : (f x0).2 = fun _ _ => 1) (hr : r ≠ 0) (hft : 0 < ft) (hbig : ¬ |r| < ft) (hzero : (f (x0 + (1 : ℝ) • fun _ => -r)).1 = 0)
    (hmf : ∀ g, mf = some g → g (x0 + (1 : ℝ) • fun _ => -r) = 0) :
    (o.solveWith newtonCls mf f x0 ft xt (k + 1)).2.success = true ∧ (o.solveWith newtonCls mf f x0 ft xt (k + 1)).2.final.res = 0 := by
  set cfg : LineSearchCfg 1 1 := { c1 := 1e-4, beta := 0.5, maxIter := 50, meritFun := mf } with hcfg
  set S : RootSolver 1 1 := armijoSolver () (newtonCls.dir 1) cfg with hS
  have e : (o.solveWith newtonCls mf f x0 ft xt (k + 1)).2 = (rootFind S () f x0 ft xt (k + 1)).2 := rfl
  rw [e]
  have q := newton_unit r (startState f x0) hres hjac hr
  have st : S.step f () (startState f x0) = ((), finishStep (startState f x0) (newtonDirection (fun J r => some fun i => r i / J i i) (startState f x0))
      (backtrack cfg f x0 (merit (f x0).1) (newtonDirection (fun J r => some fun i => r i / J i i) (startState f x0)) 50 1)) := rfl
  have ht : trialMerit cfg f (x0 + (1 : ℝ) • fun _ => -r) = 0 := by
    unfold trialMerit
    cases hg : mf with
    | none => simp only [hcfg, hg]; rw [hzero]; simp [SRoot.merit_one]
    | some g => simp only [hcfg, hg]; rw [hmf g hg]; simp [SRoot.merit_one]
  rw [q, SRoot.backtrack_first] at st
  · simp only [rootFind]
    have hreset : S.reset () = () := rfl
    rw [if_neg, hreset, SRoot.loop_accept _ _ _ _ k _ _ _ _ _ _ st rfl, if_pos]
    · exact ⟨rfl, hzero⟩
    · left
      show maxAbs (f (x0 + (1 : ℝ) • fun _ => -r)).1 < ft
      rw [hzero]
      simp [SRoot.maxAbs_one, hft]
    · show ¬ maxAbs (f x0).1 < ft
      rw [hres, SRoot.maxAbs_one]
      exact hbig
  · rw [ht, hres, SRoot.merit_one]
    have : 0 < r * r := mul_self_pos.mpr hr
    simp only [hcfg]
    nlinarith

end Reu

/-- **C134** the trust-region and damping solvers: whatever they were used for before, with systems of whatever sizes, directly or by
`solve_perfect_foresight`, each call answers as the first call of a new object would -/
theorem C134_trust_regions (lin : ∀ n : Nat, Matrix (Fin n) (Fin n) ℝ → (Fin n → ℝ) → Option (Fin n → ℝ)) (tr : TRCfg) (lm : LMCfg) (o : ℝ)
    (before : List SolveCall) (c : SolveCall) :
    AnswersAfresh (radiusCall (fun n => doglegSolver (lin n) tr) fun _ => rfl) o before c ∧
    AnswersAfresh (radiusCall (fun _ => gaussNewtonSolver tr) fun _ => rfl) o before c ∧
    AnswersAfresh (radiusCall (fun n => lmSolver (lin n) lm) fun _ => rfl) o before c :=
  ⟨congrArg Prod.snd (Reu.radius_same _ (fun _ => rfl) (fun _ _ _ => rfl) _ _ c),
    congrArg Prod.snd (Reu.radius_same _ (fun _ => rfl) (fun _ _ _ => rfl) _ _ c),
    congrArg Prod.snd (Reu.radius_same _ (fun _ => rfl) (fun _ _ _ => rfl) _ _ c)⟩

/-- **C134** a solver with Armijo's line search and any direction strategy (also one that caches Jacobians): after any calls, a
`solve_perfect_foresight` call answers as that of a new object -/
theorem C134_foresight_calls {δ : Type} (cls : LSClass δ) (armijo : cls.memory = none) (o : LSObj δ) (before : List SolveCall) (n : Nat)
    (f : RootFun n n) (g : (Fin n → ℝ) → Fin n → ℝ) (x0 : Fin n → ℝ) :
    AnswersAfresh (LSObj.call cls) o before (.foresight n f g x0) :=
  Reu.sparseRoot_same cls armijo { after (LSObj.call cls) o before with meritFun := some ⟨n, g⟩ } { o with meritFun := some ⟨n, g⟩ } rfl f x0 _ _ _

/-- **C134** and a `sparse_root` call answers as that of a new object as long as the object was not used by `solve_perfect_foresight` before.
What is missing: `C134_stale_violated`, and the non-monotone line search (`C33_reuse_violated`). -/
theorem C134_root_calls_partial {δ : Type} (cls : LSClass δ) (armijo : cls.memory = none) (o : LSObj δ) (before : List SolveCall)
    (direct : ∀ c ∈ before, ∃ n f x0 ft xt k, c = .root n f x0 ft xt k) (c : SolveCall) : AnswersAfresh (LSObj.call cls) o before c := by
  have slot : (after (LSObj.call cls) o before).meritFun = o.meritFun := by
    clear c
    induction before generalizing o with
    | nil => rfl
    | cons d ds ih =>
      obtain ⟨n, f, x0, ft, xt, k, rfl⟩ := direct d (List.mem_cons_self ..)
      exact (ih _ fun c hc => direct c (List.mem_cons_of_mem _ hc)).trans (Reu.sparseRoot_slot cls o f x0 ft xt k)
  cases c with
  | root n f x0 ft xt k => exact Reu.sparseRoot_same cls armijo _ _ slot f x0 ft xt k
  | foresight n f g x0 => exact C134_foresight_calls cls armijo o before n f g x0

/-- **C134** `solve_perfect_foresight` as a whole: which calls the passed Armijo solver has gone through makes no difference -/
theorem C134_solve_perfect_foresight {δ : Type} (cls : LSClass δ) (armijo : cls.memory = none) (o : LSObj δ) (before : List SolveCall)
    (ord : List TSym → List TSym) (so : List (Sym × SExpr) → List (Sym × SExpr)) (m : PFModel) (pm : ParamModel ℝ)
    (steady : List (Str × ℝ) → Option (List (Str × ℝ))) (a : RunArgs) :
    solvePF ord so m pm steady ((after (LSObj.call cls) o before).forPF cls) a = solvePF ord so m pm steady (o.forPF cls) a := by
  have key : ∀ (u v : LSObj δ) c p x0 yi yt x P T, runSolver c p (u.forPF cls) x0 yi yt x P T = runSolver c p (v.forPF cls) x0 yi yt x P T := by
    intro u v c p x0 yi yt x P T
    unfold runSolver LSObj.forPF
    rw [armijo]
    simp only
    rw [Reu.same_of_reset (armijoSolver cls.fresh _ _) (fun _ _ => rfl) u.mem v.mem]
  unfold solvePF
  simp only [key (after (LSObj.call cls) o before) o]

/-- **C134** violated: `solve_perfect_foresight` leaves its residual function in the object it was passed. `sparse_root` for `x = 0` from 1,
which succeeds with a new object, fails without a step after the object was used for a perfect-foresight problem with the solution 100; and for
a system of another size than that problem, it raises. -/
theorem C134_stale_violated :
    let o : LSObj Unit := { mem := () }
    let first : SolveCall := .foresight 1 Reu.hundred (fun x => (Reu.hundred x).1) fun _ => 1
    let second : SolveCall := .root 1 Reu.plain (fun _ => 1) 1e-8 1e-8 100
    let wide : SolveCall := .root 2 (fun x => (x, 1)) (fun _ => 1) 1e-8 1e-8 100
    (∃ r, (o.call Reu.newtonCls first).2 = some r ∧ r.success = true) ∧
    (∃ r, (o.call Reu.newtonCls second).2 = some r ∧ r.success = true ∧ r.final.res = 0) ∧
    (∃ r, ((after (LSObj.call Reu.newtonCls) o [first]).call Reu.newtonCls second).2 = some r ∧ r.success = false ∧ r.iterates = []) ∧
    (∃ r, (o.call Reu.newtonCls wide).2 = some r) ∧
    ((after (LSObj.call Reu.newtonCls) o [first]).call Reu.newtonCls wide).2 = none := by
  intro o first second wide
  have slot : (after (LSObj.call Reu.newtonCls) o [first]).meritFun = some ⟨1, fun x => (Reu.hundred x).1⟩ :=
    Reu.sparseRoot_slot Reu.newtonCls { o with meritFun := some ⟨1, fun x => (Reu.hundred x).1⟩ } Reu.hundred (fun _ => 1) 1e-10 1e-10 1000
  refine ⟨?_, ?_, ?_, ?_, ?_⟩
  · have h := Reu.full_step { o with meritFun := some ⟨1, fun x => (Reu.hundred x).1⟩ } (some fun x => (Reu.hundred x).1) Reu.hundred (fun _ => 1) (-99)
      1e-10 1e-10 999 (by funext; simp [Reu.hundred]; norm_num) rfl (by norm_num) (by norm_num) (by norm_num)
      (by funext i; simp [Reu.hundred]; norm_num) (by rintro g ⟨rfl⟩; funext i; simp [Reu.hundred]; norm_num)
    refine ⟨_, ?_, h.1⟩
    show (LSObj.sparseRoot Reu.newtonCls _ _ _ _ _ _).2 = _
    unfold LSObj.sparseRoot
    simp
    rfl
  · have h := Reu.full_step o none Reu.plain (fun _ => 1) 1 1e-8 1e-8 99 rfl rfl (by norm_num) (by norm_num) (by norm_num)
      (by funext i; simp [Reu.plain]) (by simp)
    exact ⟨_, rfl, h.1, h.2⟩
  · generalize hu : after (LSObj.call Reu.newtonCls) o [first] = u at slot ⊢
    set mf : Option ((Fin 1 → ℝ) → Fin 1 → ℝ) := some fun x => (Reu.hundred x).1 with hmf
    have e : (u.call Reu.newtonCls second).2 = some (u.solveWith Reu.newtonCls mf Reu.plain (fun _ => 1) 1e-8 1e-8 100).2 := by
      show (LSObj.sparseRoot Reu.newtonCls _ _ _ _ _ _).2 = _
      unfold LSObj.sparseRoot
      rw [slot]
      simp [hmf]
      rfl
    refine ⟨_, e, ?_⟩
    set cfg : LineSearchCfg 1 1 := { c1 := 1e-4, beta := 0.5, maxIter := 50, meritFun := mf } with hcfg
    set S : RootSolver 1 1 := armijoSolver () (Reu.newtonCls.dir 1) cfg with hS
    have e' : (u.solveWith Reu.newtonCls mf Reu.plain (fun _ => 1) 1e-8 1e-8 100).2 = (rootFind S () Reu.plain (fun _ => 1) 1e-8 1e-8 100).2 := rfl
    rw [e']
    have q := Reu.newton_unit 1 (startState Reu.plain fun _ => 1) rfl rfl one_ne_zero
    have st : S.step Reu.plain () (startState Reu.plain fun _ => 1) = ((), finishStep (startState Reu.plain fun _ => 1)
        (newtonDirection (fun J r => some fun i => r i / J i i) (startState Reu.plain fun _ => 1))
        (backtrack cfg Reu.plain (fun _ => 1) (merit (Reu.plain fun _ => 1).1)
          (newtonDirection (fun J r => some fun i => r i / J i i) (startState Reu.plain fun _ => 1)) 50 1)) := rfl
    rw [q, SRoot.backtrack_never] at st
    · simp only [rootFind]
      have hreset : S.reset () = () := rfl
      rw [if_neg, hreset, SRoot.loop_reject _ _ _ _ 99 _ _ _ _ _ _ st rfl]
      · exact ⟨rfl, rfl⟩
      · show ¬ maxAbs (Reu.plain fun _ => 1).1 < 1e-8
        rw [SRoot.maxAbs_one]; simp [Reu.plain]; norm_num
    · norm_num
    · norm_num [hcfg]
    · intro a ha
      have : trialMerit cfg Reu.plain ((fun _ => 1) + a • fun _ => -1) = 0.5 * ((1 - a - 100) * (1 - a - 100)) := by
        simp only [trialMerit, hcfg, hmf, SRoot.merit_one, Reu.hundred]
        have : ((fun _ => (1 : ℝ)) + a • (fun _ => (-1 : ℝ)) : Fin 1 → ℝ) 0 = 1 - a := by simp; ring
        rw [this]
      rw [this, SRoot.merit_one]
      simp only [Reu.plain, hcfg]
      nlinarith
  · exact ⟨_, rfl⟩
  · generalize hu : after (LSObj.call Reu.newtonCls) o [first] = u at slot ⊢
    refine Reu.wrong_size Reu.newtonCls u 1 _ slot (fun x => (x, 1)) _ _ _ _ (by decide) ?_ (by decide) (by decide)
    show ¬ (maxAbs (fun _ => 1 : Fin 2 → ℝ) < 1e-8)
    simp [maxAbs]
    norm_num

/-- **C134** the two models of a perfect-foresight call with an object agree: the root finder's result is the answer of `LSObj.foresight` -/
theorem C134_same_call {δ : Type} (cls : LSClass δ) (o : LSObj δ) (c : PFCompiled) (p : PFParts) (x0 : Nat → ℝ) (yi yt : List ℝ)
    (x P : Nat → Nat → ℝ) (T : Nat) :
    (o.foresight cls (pfSystem c (fun i => (yi[i]?).getD 0) (fun i => (yt[i]?).getD 0) x P c.varNames.length T)
      (pfMerit p (fun i => (yi[i]?).getD 0) (fun i => (yt[i]?).getD 0) x P c.varNames.length T) (fun i => x0 i)).2 =
    some (runSolver c p (o.forPF cls) x0 yi yt x P T).result := by
  simp only [LSObj.foresight, LSObj.sparseRoot, LSObj.solveWith, runSolver, LSObj.forPF, dif_pos]
  cases hm : cls.memory <;> rfl

/-- **C134** the same for an object without a line search -/
theorem C134_same_call_radius (S : ∀ n : Nat, RootSolver n n) (hσ : ∀ n, (S n).σ = ℝ) (o : ℝ) (c : PFCompiled) (p : PFParts) (x0 : Nat → ℝ)
    (yi yt : List ℝ) (x P : Nat → Nat → ℝ) (T : Nat) :
    (radiusCall S hσ o (.foresight (T * c.varNames.length)
      (pfSystem c (fun i => (yi[i]?).getD 0) (fun i => (yt[i]?).getD 0) x P c.varNames.length T)
      (pfMerit p (fun i => (yi[i]?).getD 0) (fun i => (yt[i]?).getD 0) x P c.varNames.length T) (fun i => x0 i))).2 =
    some (runSolver c p (fun N _ => ⟨S N, cast (hσ N).symm o⟩) x0 yi yt x P T).result := rfl

/-- **C134** a start that already solves the system is returned at once by every line-search object, whatever it was used for before (also by
`solve_perfect_foresight` for a system of another size) -/
theorem C134_already_solved {δ : Type} (cls : LSClass δ) (o : LSObj δ) (before : List SolveCall) (n : Nat) (f : RootFun n n) (x0 : Fin n → ℝ)
    (fTol xTol : ℝ) (k : Nat) (solved : ∀ i, |(f x0).1 i| < fTol) (pos : 0 < fTol) :
    ∃ r, (LSObj.call cls (after (LSObj.call cls) o before) (.root n f x0 fTol xTol k)).2 = some r ∧
      r.success = true ∧ r.final.x = x0 ∧ r.final.nit = 0 := by
  have hm : maxAbs (f x0).1 < fTol := (maxAbs_lt _ _ pos).2 solved
  generalize after (LSObj.call cls) o before = u
  have key : ∀ mf, ∃ r, (u.solveWith cls mf f x0 fTol xTol k).2 = r ∧ r.success = true ∧ r.final.x = x0 ∧ r.final.nit = 0 := by
    intro mf
    unfold LSObj.solveWith rootFind
    cases cls.memory with
    | none => simp only [startState, hm, if_true]; exact ⟨_, rfl, rfl, rfl, rfl⟩
    | some M => simp only [startState, hm, if_true]; exact ⟨_, rfl, rfl, rfl, rfl⟩
  show ∃ r, (u.sparseRoot cls f x0 fTol xTol k).2 = some r ∧ _
  unfold LSObj.sparseRoot
  split
  · obtain ⟨r, h, h'⟩ := key none
    exact ⟨r, congrArg some h, h'⟩
  · split
    · obtain ⟨r, h, h'⟩ := key _
      exact ⟨r, congrArg some h, h'⟩
    · rw [if_pos (.inl hm)]
      obtain ⟨r, h, h'⟩ := key none
      exact ⟨r, congrArg some h, h'⟩

/-- **C134** an Armijo object that may not try any step size never looks at a merit function, so all its calls answer as those of a new
object, whatever it was used for before -/
theorem C134_no_trials {δ : Type} (cls : LSClass δ) (armijo : cls.memory = none) (none_tried : cls.maxIter = 0) (o : LSObj δ)
    (before : List SolveCall) (c : SolveCall) : AnswersAfresh (LSObj.call cls) o before c := by
  have solver : ∀ (n : Nat) (mf mf' : Option ((Fin n → ℝ) → Fin n → ℝ)),
      armijoSolver cls.fresh (cls.dir n) { c1 := cls.c1, beta := cls.beta, maxIter := cls.maxIter, meritFun := mf } =
      armijoSolver cls.fresh (cls.dir n) { c1 := cls.c1, beta := cls.beta, maxIter := cls.maxIter, meritFun := mf' } := by
    intro n mf mf'
    simp only [armijoSolver, none_tried, backtrack]
  have base : ∀ (u v : LSObj δ) (n : Nat) (mf mf') (f : RootFun n n) (x0 : Fin n → ℝ) (ft xt : ℝ) (k : Nat),
      (u.solveWith cls mf f x0 ft xt k).2 = (v.solveWith cls mf' f x0 ft xt k).2 := by
    intro u v n mf mf' f x0 ft xt k
    rw [Reu.solveWith_same cls armijo u v]
    simp only [LSObj.solveWith, armijo]
    have : ∀ (S S' : RootSolver n n) (h : S = S') (q : S.σ) (q' : S'.σ), (∀ a b, S.reset a = S.reset b) →
        (rootFind S q f x0 ft xt k).2 = (rootFind S' q' f x0 ft xt k).2 := by
      rintro S _ rfl q q' hr
      rw [Reu.same_of_reset S hr q q']
    exact this _ _ (solver n mf mf') _ _ (fun _ _ => rfl)
  have all : ∀ (u : LSObj δ) (n : Nat) (f : RootFun n n) (x0 : Fin n → ℝ) (ft xt : ℝ) (k : Nat),
      (u.sparseRoot cls f x0 ft xt k).2 = some (o.solveWith cls none f x0 ft xt k).2 := by
    intro u n f x0 ft xt k
    unfold LSObj.sparseRoot
    split
    · exact congrArg some (base _ _ _ _ _ _ _ _ _ _)
    · split
      · exact congrArg some (base _ _ _ _ _ _ _ _ _ _)
      · rw [if_pos (.inr (.inr none_tried))]
        exact congrArg some (base _ _ _ _ _ _ _ _ _ _)
  cases c with
  | root n f x0 ft xt k => exact (all _ n f x0 ft xt k).trans (all _ n f x0 ft xt k).symm
  | foresight n f g x0 => exact (all _ n f x0 _ _ _).trans (all _ n f x0 _ _ _).symm

/-- the chord method with the line search's default constants, which caches a Jacobian of the system's size -/
noncomputable def Reu.chordCls : LSClass (ChordSt 1 1) where
  c1 := 1e-4
  beta := 0.5
  maxIter := 50
  fresh := {}
  dir := fun n d s => if h : n = 1 then (by subst h; exact chordDirection SRoot.divLin 5 d s) else (d, ⟨0, 0⟩)

/-- **C134** the chord method used for two other problems: the third solve is that of a new object -/
example (f : RootFun 1 1) (x0 : Fin 1 → ℝ) : AnswersAfresh (LSObj.call Reu.chordCls) { mem := {} }
    [.root 1 Reu.hundred (fun _ => 1) 1e-8 1e-8 100, .root 1 Reu.plain (fun _ => 7) 1e-8 1e-8 3] (.root 1 f x0 1e-8 1e-8 100) :=
  C134_root_calls_partial Reu.chordCls rfl _ _ (by
    intro c hc
    rcases List.mem_cons.mp hc with rfl | hc
    · exact ⟨_, _, _, _, _, _, rfl⟩
    · rcases List.mem_singleton.mp hc with rfl
      exact ⟨_, _, _, _, _, _, rfl⟩) _

/-- Newton's method with the non-monotone line search over the last ten merits -/
noncomputable def Reu.nonmonotoneCls : LSClass Unit where
  c1 := 1e-4
  beta := 0.5
  maxIter := 20
  fresh := ()
  dir := fun n _ s => ((), newtonDirection (fun J r => some fun i => r i / J i i) s)
  memory := some 10

theorem Reu.nonmonotone_root (o : LSObj Unit) (ho : o.meritFun = none) (f : RootFun 1 1) (x0 : Fin 1 → ℝ) (ft xt : ℝ) (k : Nat) :
    o.call Reu.nonmonotoneCls (.root 1 f x0 ft xt k) =
      ({ o with history := (rootFind SRoot.newtonNM ((), o.history) f x0 ft xt k).1.2 }, some (rootFind SRoot.newtonNM ((), o.history) f x0 ft xt k).2) := by
  have hd : Reu.nonmonotoneCls.dir 1 = fun _ s => ((), newtonDirection SRoot.divLin s) := by
    funext u s
    show ((), newtonDirection (fun J r => some fun i => r i / J i i) s) = _
    have e : (fun (J : Matrix (Fin 1) (Fin 1) ℝ) (r : Fin 1 → ℝ) => some fun i => r i / J i i) = SRoot.divLin := by
      funext J r; simp only [SRoot.divLin]; congr 1; funext i; rw [Subsingleton.elim i 0]
    rw [e]
  have key : ∀ d : Unit → SState 1 1 → Unit × Proposal 1, Reu.nonmonotoneCls.dir 1 = d → o.call Reu.nonmonotoneCls (.root 1 f x0 ft xt k) =
      ({ o with history := (rootFind (nonmonotoneSolver () d { c1 := 1e-4, beta := 0.5, maxIter := 20 } 10) ((), o.history) f x0 ft xt k).1.2 },
        some (rootFind (nonmonotoneSolver () d { c1 := 1e-4, beta := 0.5, maxIter := 20 } 10) ((), o.history) f x0 ft xt k).2) := by
    rintro d rfl
    obtain ⟨mem, mf, hist⟩ := o
    cases ho
    rfl
  exact key _ hd

/-- **C134** violated, without any perfect-foresight call: an object with the non-monotone line search still has the merits of its first
`sparse_root` call in the second call, which accepts a step a new object refuses -/
theorem C134_history_violated :
    let o : LSObj Unit := { mem := () }
    let first : SolveCall := .root 1 SRoot.firstProblem 0 1e-8 1e-8 1
    let second : SolveCall := .root 1 SRoot.secondProblem 0 1e-8 1e-8 1
    (∃ r, (o.call Reu.nonmonotoneCls second).2 = some r ∧ r.iterates = []) ∧
    (∃ r, ((after (LSObj.call Reu.nonmonotoneCls) o [first]).call Reu.nonmonotoneCls second).2 = some r ∧ r.iterates.length = 1 ∧
      merit (SRoot.secondProblem 0).1 = 0.5 ∧ merit r.final.res = 50) ∧
    ¬ AnswersAfresh (LSObj.call Reu.nonmonotoneCls) o [first] second := by
  intro o first second
  obtain ⟨s, hs, h1, h2, h3, h4⟩ := C33_reuse_violated
  obtain ⟨⟨⟩, H⟩ : Unit × List ℝ := s
  have e0 : (o.call Reu.nonmonotoneCls second).2 = some (rootFind SRoot.newtonNM ((), []) SRoot.secondProblem 0 1e-8 1e-8 1).2 :=
    congrArg Prod.snd (Reu.nonmonotone_root { mem := (), history := [] } rfl SRoot.secondProblem 0 1e-8 1e-8 1)
  have ea : after (LSObj.call Reu.nonmonotoneCls) o [first] = { mem := (), history := H } := by
    have := congrArg Prod.fst (Reu.nonmonotone_root { mem := (), history := [] } rfl SRoot.firstProblem 0 1e-8 1e-8 1)
    simp only at this
    rw [← hs] at this
    exact this
  have e1 : ((after (LSObj.call Reu.nonmonotoneCls) o [first]).call Reu.nonmonotoneCls second).2 =
      some (rootFind SRoot.newtonNM ((), H) SRoot.secondProblem 0 1e-8 1e-8 1).2 := by
    rw [ea]
    exact congrArg Prod.snd (Reu.nonmonotone_root { mem := (), history := H } rfl SRoot.secondProblem 0 1e-8 1e-8 1)
  refine ⟨⟨_, e0, h4⟩, ⟨_, e1, h2, h1, h3⟩, fun h => ?_⟩
  have h' := e1.symm.trans (Eq.trans h e0)
  have h5 := congrArg (fun r => (r.iterates.length)) (Option.some.inj h')
  have h6 := congrArg List.length h4
  have h7 := h2.symm.trans (h5.trans h6)
  exact absurd h7 (by simp)

end GE
