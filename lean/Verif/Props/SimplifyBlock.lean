import Verif.Model.SimplifyBlock
import Verif.Props.Solve
/-! # C50: eliminating generated multipliers -/

namespace GE

/-- everything at its steady state -/
def RealPath.atRest (P : RealPath) : RealPath := { P with path := fun b a _ => P.ss b a }

/-- a path with its steady state solves a system of equations: they hold at every date and at rest -/
def RealPath.Solves (P : RealPath) (eqs : List SExpr) : Prop :=
  ∀ e ∈ eqs, (∀ t, e.val P t = 0) ∧ (∀ t, e.val P.atRest t = 0)

/-- sympy's solver is right: a solution it returns holds whenever the equation does -/
def Solver.Sound (solve : Solver) : Prop :=
  ∀ e x rhs, solve e x = some rhs → ∀ (P : RealPath) t, e.val P t = 0 → P.val.symAt t (.tv x) = rhs.val P t

/-- sympy's automatic evaluation does not change values -/
def SameValues (norm : SExpr → SExpr) : Prop := ∀ e (P : RealPath) t, (norm e).val P t = e.val P t

/-- the solutions are of the kind the docstring announces: a (dated) variable at the same date as the multiplier, or a constant -/
def Solver.Direct (solve : Solver) : Prop :=
  ∀ e x rhs, solve e x = some rhs → (∃ k, x.idx = .t k) ∧ (rhs.tsyms = [] ∨ ∃ y : TSym, rhs = .sym (.tv y) ∧ y.idx = x.idx)

namespace Smp
open DTT

theorem atRest_atRest (P : RealPath) : P.atRest.atRest = P.atRest := rfl

theorem mem_dset' {κ ν} [DecidableEq κ] (d : List (κ × ν)) (k : κ) (v : ν) (p) (h : p ∈ dset d k v) : p ∈ d ∨ p = (k, v) :=
  Lag.mem_dset d k v p h

/-- the entries of the expanded dictionary -/
theorem mem_expand (x : TSym) (rhs : SExpr) (p) (h : p ∈ expandSubsAllTimes [(x, rhs)]) :
    ∃ i, p.1 = .tv { x with idx := i } ∧ p.2 = rhs.setDate i := by
  simp only [expandSubsAllTimes, List.foldl_cons, List.foldl_nil] at h
  rcases Lag.mem_dset _ _ _ _ h with h | rfl
  · rcases Lag.mem_dset _ _ _ _ h with h | rfl
    · rcases Lag.mem_dset _ _ _ _ h with h | rfl
      · rcases Lag.mem_dset _ _ _ _ h with h | rfl
        · simp at h
        · exact ⟨_, rfl, rfl⟩
      · exact ⟨_, rfl, rfl⟩
    · exact ⟨_, rfl, rfl⟩
  · exact ⟨_, rfl, rfl⟩

/-- the multiplier has the solved value at every date and at rest -/
def Holds (P : RealPath) (x : TSym) (rhs : SExpr) : Prop :=
  ∀ t, P.val.symAt t (.tv x) = rhs.val P t ∧ P.atRest.val.symAt t (.tv x) = rhs.val P.atRest t

theorem expand_val (P : RealPath) (x : TSym) (k : Int) (hk : x.idx = .t k) (rhs : SExpr)
    (hd : rhs.tsyms = [] ∨ ∃ y : TSym, rhs = .sym (.tv y) ∧ y.idx = x.idx) (h : Holds P x rhs) :
    ∀ p ∈ expandSubsAllTimes [(x, rhs)], ∀ t, p.2.val P t = P.val.symAt t p.1 := by
  intro p hp t
  obtain ⟨i, h1, h2⟩ := mem_expand x rhs p hp
  obtain ⟨xb, xi, xa⟩ := x
  simp only at hk; subst hk
  have hpath : ∀ u, P.path xb xa u = rhs.val P (u - k) := by
    intro u
    have := (h (u - k)).1
    simpa [Valuation.symAt, RealPath.val] using this
  have hrest : P.ss xb xa = rhs.val P.atRest 0 := by
    simpa [Valuation.symAt, RealPath.val, RealPath.atRest] using (h 0).2
  rw [h1, h2]
  rcases hd with hd | ⟨y, rfl, hy⟩
  · have hm : rhs.setDate i = rhs := by
      cases rhs with
      | sym s => cases s with
        | tv y => simp [SExpr.tsyms, SExpr.syms] at hd
        | par n => rfl
      | _ => rfl
    rw [hm]
    cases i with
    | t j =>
      have : P.val.symAt t (.tv ⟨xb, .t j, xa⟩) = P.path xb xa (t + j) := rfl
      rw [this, hpath]
      exact val_const P rhs hd _ _
    | ss =>
      have : P.val.symAt t (.tv ⟨xb, .ss, xa⟩) = P.ss xb xa := rfl
      rw [this, hrest]
      have h3 : rhs.val P.atRest 0 = rhs.val P 0 := by
        refine replace_at_const P rhs hd
      rw [h3]; exact val_const P rhs hd _ _
  · obtain ⟨yb, yi, ya⟩ := y
    simp only at hy; subst hy
    cases i with
    | t j =>
      have e1 : P.val.symAt t (.tv ⟨xb, .t j, xa⟩) = P.path xb xa (t + j) := rfl
      rw [e1, hpath]
      simp [SExpr.setDate, SExpr.val, SExpr.at, Valuation.symAt, RealPath.val]
    | ss =>
      have e1 : P.val.symAt t (.tv ⟨xb, .ss, xa⟩) = P.ss xb xa := rfl
      rw [e1, hrest]
      simp [SExpr.setDate, SExpr.val, SExpr.at, Valuation.symAt, RealPath.val, RealPath.atRest]
where
  replace_at_const (P : RealPath) (e : SExpr) (h : e.tsyms = []) : e.val P.atRest 0 = e.val P 0 := by
    have key : ∀ e : SExpr, (∀ s ∈ e.syms, ∃ n, s = .par n) → e.val P.atRest 0 = e.val P 0 := by
      intro e
      induction e with
      | num q => intro _; rfl
      | sym s => intro h; obtain ⟨n, hn⟩ := h s (by simp [SExpr.syms]); subst hn; rfl
      | exp a ih => intro h; exact congrArg Real.exp (ih h)
      | log a ih => intro h; exact congrArg Real.log (ih h)
      | add a b iha ihb =>
        intro h
        exact congrArg₂ (· + ·) (iha fun s hs => h s (by simp [SExpr.syms, hs])) (ihb fun s hs => h s (by simp [SExpr.syms, hs]))
      | mul a b iha ihb =>
        intro h
        exact congrArg₂ (· * ·) (iha fun s hs => h s (by simp [SExpr.syms, hs])) (ihb fun s hs => h s (by simp [SExpr.syms, hs]))
      | pow a b iha ihb =>
        intro h
        exact congrArg₂ (· ^ ·) (iha fun s hs => h s (by simp [SExpr.syms, hs])) (ihb fun s hs => h s (by simp [SExpr.syms, hs]))
    refine key e fun s hs => ?_
    cases s with
    | par n => exact ⟨n, rfl⟩
    | tv s => have := mem_tsyms.mpr hs; rw [h] at this; simp at this

theorem holds_rest {P : RealPath} {x rhs} (h : Holds P x rhs) : Holds P.atRest x rhs := fun t => ⟨(h t).2, (h t).2⟩

/-- one elimination changes no value as long as the eliminated multiplier has its solved value -/
theorem eliminate_solves (solve : Solver) (hdir : solve.Direct) (hs : solve.Sound) (eqs eqs' : List SExpr) (x : TSym)
    (h : eliminateOne solve eqs x = some eqs') (P : RealPath) (hP : P.Solves eqs) : P.Solves eqs' := by
  unfold eliminateOne at h
  split at h
  · cases h; exact hP
  · rename_i e he
    split at h
    · cases h
    · rename_i rhs hr
      cases h
      have hmem : e ∈ eqs := by
        have := List.mem_of_find?_eq_some he
        exact (List.mem_filter.mp this).1
      obtain ⟨⟨k, hk⟩, hd⟩ := hdir e x rhs hr
      have hh : Holds P x rhs := fun t => ⟨hs e x rhs hr P t ((hP e hmem).1 t), hs e x rhs hr P.atRest t ((hP e hmem).2 t)⟩
      intro q hq
      obtain ⟨w, hw, rfl⟩ := List.mem_map.mp hq
      refine ⟨fun t => ?_, fun t => ?_⟩
      · exact (subsSeq_same_value P.val t w _ fun p hp => expand_val P x k hk rhs hd hh p hp t).trans ((hP w hw).1 t)
      · exact (subsSeq_same_value P.atRest.val t w _ fun p hp => expand_val P.atRest x k hk rhs hd (holds_rest hh) p hp t).trans ((hP w hw).2 t)

theorem fold_solves (solve : Solver) (hdir : solve.Direct) (hs : solve.Sound) (order : List TSym) (eqs eqs' : List SExpr)
    (h : order.foldlM (eliminateOne solve) eqs = some eqs') (P : RealPath) (hP : P.Solves eqs) : P.Solves eqs' := by
  induction order generalizing eqs with
  | nil => simp only [List.foldlM_nil] at h; cases h; exact hP
  | cons x order ih =>
    rw [List.foldlM_cons] at h
    cases h1 : eliminateOne solve eqs x with
    | none => rw [h1] at h; cases h
    | some e1 =>
      rw [h1] at h
      exact ih e1 h (eliminate_solves solve hdir hs eqs e1 x h1 P hP)

end Smp

open Smp DTT

/-- **C50** holds when sympy returns only the announced kind of solutions (a variable of the same date, or a constant): every solution
of the unsimplified system, with its steady state, solves the simplified one, whatever the order of elimination. For other
solutions, which the code accepts too, it is false (`C50_log_utility_violated`, `C50_offset_violated`). -/
theorem C50_direct_partial (solve : Solver) (norm : SExpr → SExpr) (hs : solve.Sound) (hn : SameValues norm) (hdir : solve.Direct)
    (order : List TSym) (eqs eqs' : List SExpr) (h : simplifySystem solve norm order eqs = some eqs')
    (P : RealPath) (hP : P.Solves eqs) : P.Solves eqs' := by
  unfold simplifySystem at h
  cases hf : order.foldlM (eliminateOne solve) eqs with
  | none => rw [hf] at h; cases h
  | some s =>
    rw [hf] at h
    cases h
    have := fold_solves solve hdir hs order eqs s hf P hP
    intro e he
    obtain ⟨w, hw, rfl⟩ := List.mem_map.mp (List.mem_filter.mp he).1
    exact ⟨fun t => by rw [hn]; exact (this w hw).1 t, fun t => by rw [hn]; exact (this w hw).2 t⟩

/-- **C50** is violated by logarithmic utility. The consumption condition `1/C[] - lambda__H_1[] = 0` has three atoms and sympy's (right) solution
is `lambda__H_1[] = 1/C[]`; it is substituted *undated* for `lambda__H_1[1]` as well, so the Euler equation
`lambda__H_1[] = b*lambda__H_1[1]` becomes `1/C[] = b/C[]`. The path `C_t = 2^(-t)`, `b = 1/2` solves the original system and not
the simplified one; this for every sound solver that returns that solution and every value-preserving evaluation. -/
theorem C50_log_utility_violated (solve : Solver) (norm : SExpr → SExpr) (hn : SameValues norm)
    (lam : Str) (hlam : lam ≠ ['C']) :
    let C := SExpr.sym (.tv ⟨['C'], .t 0, []⟩)
    let l := fun k => TSym.mk lam (.t k) []
    let foc : SExpr := .sub (.pow C (.num (-1))) (.sym (.tv (l 0)))
    let euler : SExpr := .sub (.sym (.tv (l 0))) (.mul (.sym (.par ['b'])) (.sym (.tv (l 1))))
    solve foc (l 0) = some (.pow C (.num (-1))) →
    ∃ eqs' P, simplifySystem solve norm [l 0] [foc, euler] = some eqs' ∧
      (∀ e ∈ [foc, euler], ∀ t, e.val P t = 0) ∧ ∃ e ∈ eqs', ∀ t, e.val P t ≠ 0 := by
  intro C l foc euler hsol
  let P : RealPath := ⟨fun _ => 1/2, fun n _ t => if n = ['C'] then (2:ℝ) ^ (-t) else (2:ℝ) ^ t, fun _ _ => 0⟩
  have hfind : ([foc, euler].filter fun e => e.tsyms.contains (l 0)).find? (fun e => e.atoms.eraseDups.length ≤ 3) = some foc := by
    have h1 : foc.tsyms.contains (l 0) = true := by simp [foc, C, SExpr.sub, SExpr.tsyms, SExpr.syms]
    have h2 : foc.atoms.eraseDups.length ≤ 3 := by
      have hne : l 0 ≠ ⟨['C'], .t 0, []⟩ := fun h => hlam (congrArg TSym.base h)
      have e : foc.atoms = [.sym (.tv ⟨['C'], .t 0, []⟩), .num (-1), .num (-1), .sym (.tv (l 0))] := rfl
      rw [e, List.eraseDups_cons, List.filter_cons_of_pos (by simp), List.filter_cons_of_pos (by simp), List.filter_cons_of_pos (by simp [hne]),
        List.eraseDups_cons, List.filter_nil, List.filter_cons_of_neg (by simp), List.filter_cons_of_pos (by simp), List.eraseDups_cons]
      simp
    rw [List.filter_cons, if_pos h1, List.find?_cons]
    simp [h2]
  have hout : simplifySystem solve norm [l 0] [foc, euler] = some (([foc, euler].map fun e =>
      norm (e.subsSeq (expandSubsAllTimes [(l 0, .pow C (.num (-1)))]))).filter fun e => decide (e ≠ .num 0)) := by
    simp only [simplifySystem, List.foldlM_cons, List.foldlM_nil, eliminateOne, hfind, hsol]
    simp [List.map_map]
  have hval : ∀ t, (norm (euler.subsSeq (expandSubsAllTimes [(l 0, .pow C (.num (-1)))]))).val P t ≠ 0 := by
    intro t
    rw [hn]
    have : (euler.subsSeq (expandSubsAllTimes [(l 0, .pow C (.num (-1)))])) =
        .sub (.pow C (.num (-1))) (.mul (.sym (.par ['b'])) (.pow C (.num (-1)))) := by
      simp [expandSubsAllTimes, dset, SExpr.setDate, SExpr.subsSeq, SExpr.subs1, SExpr.replace, euler, l, C, SExpr.sub, hlam.symm]
    rw [this]
    simp [C, P, SExpr.val, SExpr.at, SExpr.sub, Valuation.symAt, RealPath.val, Real.rpow_neg_one]
    have : (2:ℝ)^t > 0 := by positivity
    intro h
    linarith
  refine ⟨_, P, hout, ?_, norm (euler.subsSeq (expandSubsAllTimes [(l 0, .pow C (.num (-1)))])), ?_, ?_⟩
  · intro e he t
    simp only [List.mem_cons, List.not_mem_nil, or_false] at he
    rcases he with rfl | rfl
    · simp [foc, C, l, P, SExpr.val, SExpr.at, SExpr.sub, Valuation.symAt, RealPath.val, hlam, Real.rpow_neg_one]
    · simp [euler, C, l, P, SExpr.val, SExpr.at, SExpr.sub, Valuation.symAt, RealPath.val, hlam]
      rw [zpow_add₀ (by norm_num)]
      ring
  · rw [List.mem_filter]
    refine ⟨by simp, ?_⟩
    have := hval 0
    simp only [decide_eq_true_eq]
    intro h
    rw [h] at this
    exact this (by simp)
  · exact hval

/-- **C50** is violated when the short equation has the multiplier at another date than the variable: `set_t` puts both sides at the
same date. From `lambda[1] = y[]` the code derives `lambda[] = y[]`; with the further equation `lambda[] = z[]`, the path
`y_t = t`, `lambda_t = z_t = t - 1` solves the system but not the simplified one. -/
theorem C50_offset_violated (solve : Solver) (norm : SExpr → SExpr) (hn : SameValues norm) (lam : Str)
    (h1 : lam ≠ ['y']) (h2 : lam ≠ ['z']) :
    let v := fun (n : Str) k => TSym.mk n (.t k) []
    let e1 : SExpr := .sub (.sym (.tv (v lam 1))) (.sym (.tv (v ['y'] 0)))
    let e2 : SExpr := .sub (.sym (.tv (v lam 0))) (.sym (.tv (v ['z'] 0)))
    solve e1 (v lam 1) = some (.sym (.tv (v ['y'] 0))) →
    ∃ eqs' P, simplifySystem solve norm [v lam 1] [e1, e2] = some eqs' ∧
      (∀ e ∈ [e1, e2], ∀ t, e.val P t = 0) ∧ ∃ e ∈ eqs', ∀ t, e.val P t ≠ 0 := by
  intro v e1 e2 hsol
  let P : RealPath := ⟨fun _ => 0, fun n _ t => if n = ['y'] then (t : ℝ) else (t : ℝ) - 1, fun _ _ => 0⟩
  have hfind : ([e1, e2].filter fun e => e.tsyms.contains (v lam 1)).find? (fun e => e.atoms.eraseDups.length ≤ 3) = some e1 := by
    have a1 : e1.tsyms.contains (v lam 1) = true := by simp [e1, SExpr.sub, SExpr.tsyms, SExpr.syms]
    have a2 : e1.atoms.eraseDups.length ≤ 3 := by
      have hne : v ['y'] 0 ≠ v lam 1 := fun h => h1 (congrArg TSym.base h).symm
      have e : e1.atoms = [.sym (.tv (v lam 1)), .num (-1), .sym (.tv (v ['y'] 0))] := rfl
      rw [e, List.eraseDups_cons, List.filter_cons_of_pos (by simp), List.filter_cons_of_pos (by simp [hne]), List.filter_nil,
        List.eraseDups_cons, List.filter_cons_of_pos (by simp), List.filter_nil, List.eraseDups_cons]
      simp
    rw [List.filter_cons, if_pos a1, List.find?_cons]
    simp [a2]
  have hout : simplifySystem solve norm [v lam 1] [e1, e2] = some (([e1, e2].map fun e =>
      norm (e.subsSeq (expandSubsAllTimes [(v lam 1, .sym (.tv (v ['y'] 0)))]))).filter fun e => decide (e ≠ .num 0)) := by
    simp only [simplifySystem, List.foldlM_cons, List.foldlM_nil, eliminateOne, hfind, hsol]
    simp
  have hval : ∀ t, (norm (e2.subsSeq (expandSubsAllTimes [(v lam 1, .sym (.tv (v ['y'] 0)))]))).val P t ≠ 0 := by
    intro t
    rw [hn]
    have : (e2.subsSeq (expandSubsAllTimes [(v lam 1, .sym (.tv (v ['y'] 0)))])) =
        .sub (.sym (.tv (v ['y'] 0))) (.sym (.tv (v ['z'] 0))) := by
      simp [expandSubsAllTimes, dset, SExpr.setDate, SExpr.subsSeq, SExpr.subs1, SExpr.replace, e2, v, SExpr.sub, h1.symm, h2.symm]
    rw [this]
    simp [P, v, SExpr.val, SExpr.at, SExpr.sub, Valuation.symAt, RealPath.val]
  refine ⟨_, P, hout, ?_, norm (e2.subsSeq (expandSubsAllTimes [(v lam 1, .sym (.tv (v ['y'] 0)))])), ?_, ?_⟩
  · intro e he t
    simp only [List.mem_cons, List.not_mem_nil, or_false] at he
    rcases he with rfl | rfl
    · simp [e1, v, P, SExpr.val, SExpr.at, SExpr.sub, Valuation.symAt, RealPath.val, h1]
    · simp [e2, v, P, SExpr.val, SExpr.at, SExpr.sub, Valuation.symAt, RealPath.val, h1]
  · rw [List.mem_filter]
    refine ⟨by simp, ?_⟩
    have := hval 0
    simp only [decide_eq_true_eq]
    intro h
    rw [h] at this
    exact this (by simp)
  · exact hval

/-- non-vacuity of `C50_direct_partial`: a solver that solves `y[k] - x[k] = 0` for `x[k]` is sound and direct, and it eliminates -/
example : ∃ solve : Solver, solve.Sound ∧ solve.Direct ∧
    ∃ x e1 e2, simplifySystem solve id [x] [e1, e2] ≠ some [e1, e2] ∧ ∃ P : RealPath, P.Solves [e1, e2] := by
  let solve : Solver := fun e x =>
    match e with
    | .add (.sym (.tv y)) (.mul (.num q) (.sym (.tv z))) =>
      if q = -1 ∧ z = x ∧ y.idx = x.idx ∧ x.idx ≠ .ss then some (.sym (.tv y)) else none
    | _ => none
  refine ⟨solve, ?_, ?_, ⟨['l'], .t 0, []⟩, .sub (.sym (.tv ⟨['y'], .t 0, []⟩)) (.sym (.tv ⟨['l'], .t 0, []⟩)),
    .sub (.sym (.tv ⟨['l'], .t 0, []⟩)) (.sym (.tv ⟨['l'], .t 1, []⟩)), ?_, ⟨fun _ => 0, fun _ _ _ => 0, fun _ _ => 0⟩, ?_⟩
  · intro e x rhs h P t h0
    simp only [solve] at h
    split at h
    · split at h
      · rename_i hc
        obtain ⟨rfl, rfl, _, _⟩ := hc
        cases h
        simp [SExpr.val, SExpr.at, RealPath.val] at h0
        simp [SExpr.val, SExpr.at, RealPath.val]
        linarith
      · cases h
    · cases h
  · intro e x rhs h
    simp only [solve] at h
    split at h
    · split at h
      · rename_i y _ _ hc
        cases h
        refine ⟨?_, .inr ⟨y, rfl, hc.2.2.1⟩⟩
        cases hx : x.idx with
        | ss => exact absurd hx hc.2.2.2
        | t k => exact ⟨k, rfl⟩
      · cases h
    · cases h
  · decide +kernel
  · intro e he
    simp at he
    rcases he with rfl | rfl <;> simp [SExpr.val, SExpr.at, SExpr.sub, Valuation.symAt, RealPath.val, RealPath.atRest]

end GE
