import Verif.Props.Sym
import Mathlib.Analysis.SpecialFunctions.Pow.Deriv
import Mathlib.Topology.Algebra.InfiniteSum.NatInt
import Mathlib.Topology.Instances.Real.Lemmas
import Mathlib.Analysis.SpecificLimits.Basic
/-! # C14: `diff_through_time` is the derivative of the discounted objective -/

namespace GE

/-! ## specification -/

/-- real values of parameters, of the variables at every date, and of their steady states -/
structure RealPath where
  par : Str → ℝ
  path : Str → Asm → Int → ℝ
  ss : Str → Asm → ℝ

/-- real arithmetic -/
noncomputable def RealPath.val (P : RealPath) : Valuation ℝ where
  num q := (q : ℝ)
  add := (· + ·)
  mul := (· * ·)
  pow := fun x y => x ^ y
  exp := Real.exp
  log := Real.log
  par := P.par
  path := P.path
  ss := P.ss

/-- the real value of an equation at date `t` along the path `P` -/
noncomputable def SExpr.val (e : SExpr) (P : RealPath) (t : Int) : ℝ := e.at P.val t

/-- the same path with variable `(base, asm)` set to `y` at the single calendar date `d` -/
def RealPath.bump (P : RealPath) (base : Str) (asm : Asm) (d : Int) (y : ℝ) : RealPath :=
  { P with path := fun b a k => if b = base ∧ a = asm ∧ k = d then y else P.path b a k }

/-- the equation is evaluated in the open domain of its operations at date `t`: logarithms of non-zero numbers, powers of
positive numbers or constant powers of non-zero numbers -/
def SExpr.Smooth (P : RealPath) (t : Int) : SExpr → Prop
  | .num _ => True
  | .sym _ => True
  | .add a b => a.Smooth P t ∧ b.Smooth P t
  | .mul a b => a.Smooth P t ∧ b.Smooth P t
  | .pow a b => a.Smooth P t ∧ b.Smooth P t ∧ (0 < a.val P t ∨ (a.val P t ≠ 0 ∧ ∃ q, b = .num q))
  | .exp a => a.Smooth P t
  | .log a => a.Smooth P t ∧ a.val P t ≠ 0

/-- the discounted objective from date `t` over `n` periods: `Σ_{k<n} β^k L_{t+k}` -/
noncomputable def discounted (L : SExpr) (β : ℝ) (t : Int) (n : Nat) (P : RealPath) : ℝ :=
  ∑ k ∈ Finset.range n, β ^ k * L.val P (t + k)

/-- the discounted objective over the infinite horizon -/
noncomputable def discountedInf (L : SExpr) (β : ℝ) (t : Int) (P : RealPath) : ℝ :=
  ∑' k : ℕ, β ^ k * L.val P (t + k)

/-! ## helpers -/

namespace DTT

@[simp] theorem val_num (P t q) : (SExpr.num q).val P t = (q : ℝ) := rfl
@[simp] theorem val_add (P t a b) : (SExpr.add a b).val P t = a.val P t + b.val P t := rfl
@[simp] theorem val_mul (P t a b) : (SExpr.mul a b).val P t = a.val P t * b.val P t := rfl
@[simp] theorem val_pow (P t a b) : (SExpr.pow a b).val P t = a.val P t ^ b.val P t := rfl
@[simp] theorem val_exp (P t a) : (SExpr.exp a).val P t = Real.exp (a.val P t) := rfl
@[simp] theorem val_log (P t a) : (SExpr.log a).val P t = Real.log (a.val P t) := rfl
@[simp] theorem val_div (P t a b) : (SExpr.div a b).val P t = a.val P t / b.val P t := by
  simp [SExpr.div, Real.rpow_neg_one, div_eq_mul_inv]
@[simp] theorem val_sub (P t a b) : (SExpr.sub a b).val P t = a.val P t - b.val P t := by
  simp [SExpr.sub]; ring
@[simp] theorem val_neg (P t a) : (SExpr.neg a).val P t = - a.val P t := by
  simp [SExpr.neg]

theorem bump_self (P : RealPath) (b a d) : P.bump b a d (P.path b a d) = P := by
  obtain ⟨p, q, r⟩ := P
  simp only [RealPath.bump, RealPath.mk.injEq, true_and, and_true]
  funext b' a' k
  split
  · rename_i h; rw [h.1, h.2.1, h.2.2]
  · rfl

theorem val_bump_of_not (P : RealPath) (base asm d y) (e : SExpr) (t : Int)
    (h : ∀ s ∈ e.tsyms, ∀ k, s.base = base → s.idx = .t k → t + k ≠ d) :
    e.val (P.bump base asm d y) t = e.val P t := by
  have key : ∀ s ∈ e.syms, (P.bump base asm d y).val.symAt t s = P.val.symAt t s := by
    intro s hs
    cases s with
    | par n => rfl
    | tv s =>
      have h' := h s (mem_tsyms.mpr hs)
      obtain ⟨b, i, a⟩ := s
      cases i with
      | ss => rfl
      | t k =>
        simp only [Valuation.symAt, RealPath.val, RealPath.bump]
        rw [if_neg]
        rintro ⟨h1, _, h3⟩
        exact h' k h1 rfl h3
  clear h
  unfold SExpr.val
  induction e with
  | num q => rfl
  | sym s => exact key s (by simp [SExpr.syms])
  | exp a ih => exact congrArg Real.exp (ih (by simpa [SExpr.syms] using key))
  | log a ih => exact congrArg Real.log (ih (by simpa [SExpr.syms] using key))
  | add a b iha ihb =>
    exact congrArg₂ (· + ·) (iha fun s hs => key s (by simp [SExpr.syms, hs])) (ihb fun s hs => key s (by simp [SExpr.syms, hs]))
  | mul a b iha ihb =>
    exact congrArg₂ (· * ·) (iha fun s hs => key s (by simp [SExpr.syms, hs])) (ihb fun s hs => key s (by simp [SExpr.syms, hs]))
  | pow a b iha ihb =>
    exact congrArg₂ (· ^ ·) (iha fun s hs => key s (by simp [SExpr.syms, hs])) (ihb fun s hs => key s (by simp [SExpr.syms, hs]))

theorem val_shift (P : RealPath) (e : SExpr) (k t : Int) (h : ∀ s ∈ e.tsyms, s.idx ≠ .ss) :
    (shiftE k e).val P t = e.val P (t + k) := shiftE_at _ _ _ _ h

theorem tsyms_add (a b : SExpr) : (SExpr.add a b).tsyms = a.tsyms ++ b.tsyms := by simp [SExpr.tsyms, SExpr.syms]
theorem tsyms_mul (a b : SExpr) : (SExpr.mul a b).tsyms = a.tsyms ++ b.tsyms := by simp [SExpr.tsyms, SExpr.syms]
theorem tsyms_pow (a b : SExpr) : (SExpr.pow a b).tsyms = a.tsyms ++ b.tsyms := by simp [SExpr.tsyms, SExpr.syms]
theorem tsyms_exp (a : SExpr) : (SExpr.exp a).tsyms = a.tsyms := by simp [SExpr.tsyms, SExpr.syms]
theorem tsyms_log (a : SExpr) : (SExpr.log a).tsyms = a.tsyms := by simp [SExpr.tsyms, SExpr.syms]

theorem smooth_shift (P : RealPath) (e : SExpr) (k t : Int) (h : ∀ s ∈ e.tsyms, s.idx ≠ .ss)
    (hs : e.Smooth P (t + k)) : (shiftE k e).Smooth P t := by
  induction e with
  | num q => trivial
  | sym s => cases s <;> trivial
  | exp a ih => exact ih (by rwa [tsyms_exp] at h) hs
  | log a ih =>
    rw [tsyms_log] at h
    exact ⟨ih h hs.1, by have := val_shift P a k t h; unfold shiftE at this; rw [this]; exact hs.2⟩
  | add a b iha ihb =>
    rw [tsyms_add] at h
    exact ⟨iha (fun s hs => h s (by simp [hs])) hs.1, ihb (fun s hs => h s (by simp [hs])) hs.2⟩
  | mul a b iha ihb =>
    rw [tsyms_mul] at h
    exact ⟨iha (fun s hs => h s (by simp [hs])) hs.1, ihb (fun s hs => h s (by simp [hs])) hs.2⟩
  | pow a b iha ihb =>
    rw [tsyms_pow] at h
    have ha : ∀ s ∈ a.tsyms, s.idx ≠ .ss := fun s hs => h s (by simp [hs])
    refine ⟨iha ha hs.1, ihb (fun s hs => h s (by simp [hs])) hs.2.1, ?_⟩
    have := val_shift P a k t ha
    unfold shiftE at this
    rw [this]
    rcases hs.2.2 with h0 | ⟨h0, q, rfl⟩
    · exact .inl h0
    · exact .inr ⟨h0, q, rfl⟩

/-- `eq.diff(x)` is the partial derivative with respect to the value of `x` at its date -/
theorem diff_correct (P : RealPath) (x : TSym) (i t : Int) (hx : x.idx = .t i) (e : SExpr) (hs : e.Smooth P t) :
    HasDerivAt (fun y => e.val (P.bump x.base x.asm (t + i) y) t) ((e.diff (.tv x)).val P t)
      (P.path x.base x.asm (t + i)) := by
  induction e with
  | num q => simpa [SExpr.diff, val_num] using hasDerivAt_const _ (q : ℝ)
  | sym s =>
    by_cases h : s = .tv x
    · subst h
      have : (fun y => (SExpr.sym (.tv x)).val (P.bump x.base x.asm (t + i) y) t) = fun y => y := by
        funext y
        simp [SExpr.val, SExpr.at, Valuation.symAt, hx, RealPath.val, RealPath.bump]
      rw [this]
      simpa [SExpr.diff] using hasDerivAt_id' (P.path x.base x.asm (t + i))
    · have : (fun y => (SExpr.sym s).val (P.bump x.base x.asm (t + i) y) t) = fun _ => (SExpr.sym s).val P t := by
        funext y
        cases s with
        | par n => rfl
        | tv s =>
          obtain ⟨b, j, a⟩ := s
          obtain ⟨xb, xj, xa⟩ := x
          cases j with
          | ss => rfl
          | t j =>
            simp only [SExpr.val, SExpr.at, Valuation.symAt, RealPath.val, RealPath.bump]
            rw [if_neg]
            rintro ⟨h1, h2, h3⟩
            apply h
            simp only at hx h1 h2
            subst h1 h2 hx
            have : j = i := by omega
            rw [this]
      rw [this]
      simpa [SExpr.diff, h] using hasDerivAt_const _ _
  | add a b iha ihb => exact (iha hs.1).add (ihb hs.2)
  | mul a b iha ihb =>
    have := (iha hs.1).fun_mul (ihb hs.2)
    simp only [bump_self] at this
    simpa [SExpr.diff] using this
  | exp a ih =>
    have := (ih hs).exp
    simp only [bump_self] at this
    simpa [SExpr.diff] using this
  | log a ih =>
    have := (ih hs.1).log (by simpa only [bump_self] using hs.2)
    simp only [bump_self] at this
    simpa [SExpr.diff] using this
  | pow a b iha ihb =>
    rcases hs.2.2 with h0 | ⟨h0, q, rfl⟩
    · have := (iha hs.1).rpow (ihb hs.2.1) (by simpa only [bump_self] using h0)
      simp only [bump_self] at this
      simp only [SExpr.diff, val_mul, val_add, val_pow, val_div, val_log]
      convert this using 1
      rw [Real.rpow_sub_one h0.ne']
      field_simp
      ring
    · have := (iha hs.1).rpow_const (p := (q : ℝ)) (.inl (by simpa only [bump_self] using h0))
      simp only [bump_self] at this
      simp only [SExpr.diff, val_mul, val_add, val_pow, val_div, val_log, val_num]
      convert this using 1
      rw [Real.rpow_sub_one h0]
      push_cast
      field_simp
      ring

theorem minTime_mem {ts : List TIdx} {m : Int} (h : minTime ts = some m) : ∀ i ∈ ts, ∃ k, i = .t k ∧ m ≤ k := by
  induction ts generalizing m with
  | nil => simp
  | cons a rest ih =>
    cases a with
    | ss => cases rest <;> simp [minTime] at h
    | t k =>
      cases rest with
      | nil => simp [minTime] at h; subst h; simp
      | cons b rest =>
        simp only [minTime, Option.map_eq_some_iff] at h
        obtain ⟨m', h1, rfl⟩ := h
        intro i hi
        rcases List.mem_cons.mp hi with rfl | hi
        · exact ⟨k, rfl, by omega⟩
        · obtain ⟨j, hj, hle⟩ := ih h1 i hi
          exact ⟨j, hj, by omega⟩

theorem minTime_some {ts : List TIdx} (h : ∀ i ∈ ts, i ≠ .ss) (hne : ts ≠ []) : ∃ m, minTime ts = some m := by
  induction ts with
  | nil => simp at hne
  | cons a rest ih =>
    cases a with
    | ss => simp at h
    | t k =>
      cases rest with
      | nil => exact ⟨k, rfl⟩
      | cons b rest =>
        obtain ⟨m, hm⟩ := ih (fun i hi => h i (List.mem_cons_of_mem _ hi)) (by simp)
        exact ⟨min k m, by simp [minTime, hm]⟩

theorem minTime_attained {ts : List TIdx} {m : Int} (h : minTime ts = some m) : TIdx.t m ∈ ts := by
  induction ts generalizing m with
  | nil => simp [minTime] at h
  | cons a rest ih =>
    cases a with
    | ss => cases rest <;> simp [minTime] at h
    | t k =>
      cases rest with
      | nil => simp [minTime] at h; subst h; simp
      | cons b rest =>
        simp only [minTime, Option.map_eq_some_iff] at h
        obtain ⟨m', h1, rfl⟩ := h
        have := ih h1
        rcases le_total k m' with hk | hk
        · rw [min_eq_left hk]; exact List.mem_cons_self ..
        · rw [min_eq_right hk]; exact List.mem_cons_of_mem _ this

theorem shift_const (b : SExpr) (hb : b.tsyms = []) : shiftE 1 b = b := by
  refine Eq.trans (replace_congr _ _ .sym ?_) (replace_id b)
  intro s hs
  cases s with
  | par n => rfl
  | tv s => have := mem_tsyms.mpr hs; rw [hb] at this; simp at this

theorem val_const (P : RealPath) (b : SExpr) (hb : b.tsyms = []) (t u : Int) : b.val P t = b.val P u := by
  have h := val_shift P b (u - t) t (by rw [hb]; simp)
  have h2 : shiftE (u - t) b = b := by
    refine Eq.trans (replace_congr _ _ .sym ?_) (replace_id b)
    intro s hs
    cases s with
    | par n => rfl
    | tv s => have := mem_tsyms.mpr hs; rw [hb] at this; simp at this
  rw [h2] at h
  rw [h]; congr 1; omega

/-- the equation after `k` turns of the loop -/
def turn (L b : SExpr) : Nat → SExpr
  | 0 => L
  | k + 1 => .mul (shiftE 1 (turn L b k)) b

theorem turn_noss (L b : SExpr) (hL : ∀ s ∈ L.tsyms, s.idx ≠ .ss) (hb : b.tsyms = []) (k : Nat) :
    ∀ s ∈ (turn L b k).tsyms, s.idx ≠ .ss := by
  induction k with
  | zero => exact hL
  | succ k ih =>
    intro s hs
    rw [turn, tsyms_mul, hb, List.append_nil] at hs
    obtain ⟨q, hq, rfl⟩ := mem_tsyms_shiftE.mp hs
    have := ih q hq
    obtain ⟨b, i, a⟩ := q
    cases i <;> simp_all [shiftSym]

theorem turn_val (L b : SExpr) (hL : ∀ s ∈ L.tsyms, s.idx ≠ .ss) (hb : b.tsyms = []) (P : RealPath) (k : Nat) (t : Int) :
    (turn L b k).val P t = b.val P t ^ k * L.val P (t + k) := by
  induction k generalizing t with
  | zero => simp [turn]
  | succ k ih =>
    rw [turn, val_mul, val_shift _ _ _ _ (turn_noss L b hL hb k), ih, val_const P b hb (t + 1) t, pow_succ]
    rw [show t + 1 + (k : Int) = t + ((k + 1 : Nat) : Int) by push_cast; ring]
    ring

theorem smooth_const (P : RealPath) (b : SExpr) (hb : b.tsyms = []) (t u : Int) (h : b.Smooth P t) : b.Smooth P u := by
  have h2 : shiftE (t - u) b = b := by
    refine Eq.trans (replace_congr _ _ .sym ?_) (replace_id b)
    intro s hs
    cases s with
    | par n => rfl
    | tv s => have := mem_tsyms.mpr hs; rw [hb] at this; simp at this
  have := smooth_shift P b (t - u) u (by rw [hb]; simp) (by rwa [show u + (t - u) = t by ring])
  rwa [h2] at this

theorem turn_smooth (L b : SExpr) (hL : ∀ s ∈ L.tsyms, s.idx ≠ .ss) (hb : b.tsyms = []) (P : RealPath) (k : Nat) (t : Int)
    (h1 : L.Smooth P (t + k)) (h2 : b.Smooth P t) : (turn L b k).Smooth P t := by
  induction k generalizing t with
  | zero => simpa [turn] using h1
  | succ k ih =>
    refine ⟨smooth_shift P _ 1 t (turn_noss L b hL hb k) (ih _ ?_ (smooth_const P b hb t _ h2)), h2⟩
    rwa [show t + 1 + (k : Int) = t + ((k + 1 : Nat) : Int) by push_cast; ring]

theorem loop_val (x : TSym) (L b : SExpr) (hL : ∀ s ∈ L.tsyms, s.idx ≠ .ss) (hb : b.tsyms = []) (n k : Nat) (total : SExpr) :
    ∃ r, dttLoop x n (turn L b k) (.expr b) total = .ok r ∧
      ∀ P t, r.val P t = total.val P t + ∑ j ∈ Finset.range n, ((turn L b (k + j)).diff (.tv x)).val P t := by
  induction n generalizing k total with
  | zero => exact ⟨total, rfl, by simp⟩
  | succ n ih =>
    obtain ⟨r, h1, h2⟩ := ih (k + 1) (.add total ((turn L b k).diff (.tv x)))
    refine ⟨r, ?_, ?_⟩
    · simp only [dttLoop, stepFwd_shift _ (turn_noss L b hL hb k), Disc.step,
        stepFwd_shift b (by rw [hb]; simp), shift_const b hb]
      exact h1
    · intro P t
      rw [h2, Finset.sum_range_succ', val_add, add_assoc]
      congr 1
      rw [add_comm]
      congr 1
      apply Finset.sum_congr rfl
      intro j _
      rw [show k + 1 + j = k + (j + 1) by omega]

end DTT

open DTT

/-- **C14** finite horizon. For an equation without steady-state symbols and a discount factor made of parameters only, the
result exists, and (for every path along which everything is evaluated inside its domain) it is the derivative, with respect
to the value of `x` at its date, of the discounted sum over every horizon long enough to contain the last period whose equation
mentions that value. -/
theorem C14_finite_horizon (L b : SExpr) (x : TSym) (i : Int) (hx : x.idx = .t i)
    (hL : ∀ s ∈ L.tsyms, s.idx ≠ .ss) (hb : b.tsyms = []) :
    ∃ r, diffThroughTime L x (.expr b) = .ok r ∧
      ∀ (P : RealPath) (t : Int), b.Smooth P t → (∀ k : Nat, L.Smooth P (t + k)) →
        ∀ N : Nat, (∀ s ∈ L.tsyms, ∀ j, s.base = x.base → s.idx = .t j → i - j < N) →
          HasDerivAt (fun y => discounted L (b.val P t) t N (P.bump x.base x.asm (t + i) y))
            (r.val P t) (P.path x.base x.asm (t + i)) := by
  -- every term, for any number of periods
  have term : ∀ (P : RealPath) (t : Int), b.Smooth P t → (∀ k : Nat, L.Smooth P (t + k)) → ∀ k : Nat,
      HasDerivAt (fun y => b.val P t ^ k * L.val (P.bump x.base x.asm (t + i) y) (t + k))
        (((turn L b k).diff (.tv x)).val P t) (P.path x.base x.asm (t + i)) := by
    intro P t h1 h2 k
    have := diff_correct P x i t hx (turn L b k) (turn_smooth L b hL hb P k t (h2 k) h1)
    have hbv : ∀ y, b.val (P.bump x.base x.asm (t + i) y) t = b.val P t := fun y =>
      val_bump_of_not P _ _ _ _ b t (by rw [hb]; simp)
    simpa only [turn_val L b hL hb, hbv] using this
  -- terms past the last occurrence do not move
  have late : ∀ (P : RealPath) (t : Int) (k : Nat),
      (∀ s ∈ L.tsyms, ∀ j, s.base = x.base → s.idx = .t j → i - j < (k : Int)) → ∀ y,
      L.val (P.bump x.base x.asm (t + i) y) (t + k) = L.val P (t + k) := by
    intro P t k h y
    refine val_bump_of_not P _ _ _ _ L _ ?_
    intro s hs j h1 h2 h3
    have := h s hs j h1 h2
    omega
  have main : ∀ n : Nat, (∀ s ∈ L.tsyms, ∀ j, s.base = x.base → s.idx = .t j → i - j < (n : Int)) →
      ∀ r : SExpr, (∀ P t, r.val P t = ∑ j ∈ Finset.range n, ((turn L b j).diff (.tv x)).val P t) →
      ∀ (P : RealPath) (t : Int), b.Smooth P t → (∀ k : Nat, L.Smooth P (t + k)) →
        ∀ N : Nat, (∀ s ∈ L.tsyms, ∀ j, s.base = x.base → s.idx = .t j → i - j < N) →
          HasDerivAt (fun y => discounted L (b.val P t) t N (P.bump x.base x.asm (t + i) y))
            (r.val P t) (P.path x.base x.asm (t + i)) := by
    intro n hn r hr P t h1 h2 N hN
    have hz : ∀ k : Nat, (∀ s ∈ L.tsyms, ∀ j, s.base = x.base → s.idx = .t j → i - j < (k : Int)) →
        ((turn L b k).diff (.tv x)).val P t = 0 := by
      intro k hk
      have h3 := term P t h1 h2 k
      simp only [late P t k hk] at h3
      exact h3.unique (hasDerivAt_const _ _)
    have hsum : r.val P t = ∑ j ∈ Finset.range N, ((turn L b j).diff (.tv x)).val P t := by
      rw [hr]
      have aux : ∀ p q : Nat, p ≤ q → (∀ s ∈ L.tsyms, ∀ j, s.base = x.base → s.idx = .t j → i - j < (p : Int)) →
          ∑ j ∈ Finset.range p, ((turn L b j).diff (.tv x)).val P t =
          ∑ j ∈ Finset.range q, ((turn L b j).diff (.tv x)).val P t := by
        intro p q hpq hp
        refine Finset.sum_subset (by intro a; simp; omega) ?_
        intro k _ hk
        refine hz k ?_
        intro s hs j e1 e2
        have := hp s hs j e1 e2
        simp at hk
        omega
      rcases le_total n N with h | h
      · exact aux n N h hn
      · exact (aux N n h hN).symm
    rw [hsum]
    unfold discounted
    simpa using HasDerivAt.fun_sum (u := Finset.range N) fun k _ => term P t h1 h2 k
  unfold diffThroughTime
  cases hts : timesOf x.base L with
  | nil =>
    refine ⟨.num 0, rfl, ?_⟩
    intro P t h1 h2 N hN
    have hnone : ∀ s ∈ L.tsyms, ∀ j, s.base = x.base → s.idx = .t j → False := by
      intro s hs j e1 _
      have : s.idx ∈ timesOf x.base L := by
        simp only [timesOf, List.mem_map, List.mem_filter]
        exact ⟨s, ⟨hs, by simpa using e1⟩, rfl⟩
      rw [hts] at this; simp at this
    exact main 0 (fun s hs j e1 e2 => (hnone s hs j e1 e2).elim) (.num 0) (by simp) P t h1 h2 N hN
  | cons a as =>
    have hmem : ∀ s ∈ L.tsyms, s.base = x.base → s.idx ∈ a :: as := by
      intro s hs e1
      rw [← hts]
      simp only [timesOf, List.mem_map, List.mem_filter]
      exact ⟨s, ⟨hs, by simpa using e1⟩, rfl⟩
    have hnss : ∀ j ∈ a :: as, j ≠ .ss := by
      intro j hj
      rw [← hts] at hj
      simp only [timesOf, List.mem_map, List.mem_filter] at hj
      obtain ⟨s, ⟨hs, _⟩, rfl⟩ := hj
      exact hL s hs
    obtain ⟨m, hm⟩ := minTime_some hnss (by simp)
    simp only [hx, hm]
    obtain ⟨r, hr1, hr2⟩ := loop_val x L b hL hb ((max 0 (i - m)).toNat + 1) 0 (.num 0)
    refine ⟨r, hr1, ?_⟩
    intro P t h1 h2 N hN
    refine main ((max 0 (i - m)).toNat + 1) ?_ r ?_ P t h1 h2 N hN
    · intro s hs j e1 e2
      obtain ⟨k, hk, hle⟩ := minTime_mem hm s.idx (hmem s hs e1)
      rw [e2] at hk
      cases hk
      push_cast
      omega
    · intro P t
      rw [hr2]; simp

/-- **C14** infinite horizon: the same result is the derivative of the whole discounted sum whenever that sum converges. -/
theorem C14_infinite_horizon (L b : SExpr) (x : TSym) (i : Int) (hx : x.idx = .t i)
    (hL : ∀ s ∈ L.tsyms, s.idx ≠ .ss) (hb : b.tsyms = []) :
    ∃ r, diffThroughTime L x (.expr b) = .ok r ∧
      ∀ (P : RealPath) (t : Int), b.Smooth P t → (∀ k : Nat, L.Smooth P (t + k)) →
        Summable (fun k : ℕ => b.val P t ^ k * L.val P (t + k)) →
          HasDerivAt (fun y => discountedInf L (b.val P t) t (P.bump x.base x.asm (t + i) y))
            (r.val P t) (P.path x.base x.asm (t + i)) := by
  obtain ⟨r, hr, hd⟩ := C14_finite_horizon L b x i hx hL hb
  refine ⟨r, hr, ?_⟩
  intro P t h1 h2 hs
  -- a horizon after which nothing mentions x at its date
  have hN : ∃ N : Nat, 0 < N ∧ ∀ s ∈ L.tsyms, ∀ j, s.base = x.base → s.idx = .t j → i - j < (N : Int) := by
    have : ∀ l : List TSym, ∃ N : Nat, 0 < N ∧ ∀ s ∈ l, ∀ j, s.base = x.base → s.idx = .t j → i - j < (N : Int) := by
      intro l
      induction l with
      | nil => exact ⟨1, by simp⟩
      | cons a l ih =>
        obtain ⟨N, h0, h⟩ := ih
        cases ha : a.idx with
        | ss =>
          refine ⟨N, h0, ?_⟩
          intro s hs j e1 e2
          rcases List.mem_cons.mp hs with rfl | hs
          · rw [ha] at e2; cases e2
          · exact h s hs j e1 e2
        | t k =>
          refine ⟨N + (i - k).toNat + 1, by omega, ?_⟩
          intro s hs j e1 e2
          rcases List.mem_cons.mp hs with rfl | hs
          · rw [ha] at e2; cases e2; push_cast; omega
          · have := h s hs j e1 e2; push_cast; omega
    exact this _
  obtain ⟨N, h0, hN⟩ := hN
  have hfin := hd P t h1 h2 N hN
  have hsplit : (fun y => discountedInf L (b.val P t) t (P.bump x.base x.asm (t + i) y)) =
      fun y => discounted L (b.val P t) t N (P.bump x.base x.asm (t + i) y) +
        ∑' k : ℕ, b.val P t ^ (k + N) * L.val P (t + ((k + N : ℕ) : Int)) := by
    funext y
    have htail : ∀ k : ℕ, L.val (P.bump x.base x.asm (t + i) y) (t + ((k + N : ℕ) : Int)) = L.val P (t + ((k + N : ℕ) : Int)) := by
      intro k
      refine val_bump_of_not P _ _ _ _ L _ ?_
      intro s hs j h1 h2 h3
      have := hN s hs j h1 h2
      push_cast at h3
      omega
    have hs' : Summable (fun k : ℕ => b.val P t ^ k * L.val (P.bump x.base x.asm (t + i) y) (t + k)) := by
      rw [← summable_nat_add_iff N] at hs ⊢
      simpa only [htail] using hs
    unfold discountedInf discounted
    rw [← hs'.sum_add_tsum_nat_add N]
    congr 1
    exact tsum_congr fun k => by rw [htail]
  rw [hsplit]
  exact HasDerivAt.congr_deriv (hfin.fun_add (hasDerivAt_const _ _)) (add_zero _)

/-- **C14** an equation which does not mention the variable at all gives zero, whatever the discount factor. -/
theorem C14_absent (L : SExpr) (x : TSym) (b : Disc) (h : ∀ s ∈ L.tsyms, s.base ≠ x.base) :
    diffThroughTime L x b = .ok (.num 0) := by
  have : timesOf x.base L = [] := by
    simp only [timesOf, List.map_eq_nil_iff, List.filter_eq_nil_iff]
    intro s hs; simpa using h s hs
  simp [diffThroughTime, this]

/-- **C14** the documented default `discount_factor=1` (a Python int) cannot be used: whenever the variable occurs (and the
equation has no steady-state symbols) the call dies with AttributeError. -/
theorem C14_default_raises (L : SExpr) (x : TSym) (i k : Int) (hx : x.idx = .t i)
    (hL : ∀ s ∈ L.tsyms, s.idx ≠ .ss) (hocc : ∃ s ∈ L.tsyms, s.base = x.base) :
    diffThroughTime L x (.pyInt k) = .error .attributeError := by
  obtain ⟨s, hs, he⟩ := hocc
  have hmem : s.idx ∈ timesOf x.base L := by
    simp only [timesOf, List.mem_map, List.mem_filter]
    exact ⟨s, ⟨hs, by simpa using he⟩, rfl⟩
  have hnss : ∀ j ∈ timesOf x.base L, j ≠ .ss := by
    intro j hj
    simp only [timesOf, List.mem_map, List.mem_filter] at hj
    obtain ⟨s, ⟨hs, _⟩, rfl⟩ := hj
    exact hL s hs
  unfold diffThroughTime
  cases hts : timesOf x.base L with
  | nil => rw [hts] at hmem; simp at hmem
  | cons a as =>
    rw [hts] at hnss
    obtain ⟨m, hm⟩ := minTime_some hnss (by simp)
    simp only [hx, hm, dttLoop, stepFwd_shift L hL, Disc.step]

/-- **C14** an equation in which the variable occurs and any steady-state symbol is present raises TypeError. -/
theorem C14_steady_state_raises (L b : SExpr) (x : TSym) (hocc : ∃ s ∈ L.tsyms, s.base = x.base)
    (hss : ∃ s ∈ L.tsyms, s.idx = .ss) : diffThroughTime L x (.expr b) = .error .typeError := by
  obtain ⟨s, hs, he⟩ := hocc
  have hmem : s.idx ∈ timesOf x.base L := by
    simp only [timesOf, List.mem_map, List.mem_filter]
    exact ⟨s, ⟨hs, by simpa using he⟩, rfl⟩
  unfold diffThroughTime
  cases hts : timesOf x.base L with
  | nil => rw [hts] at hmem; simp at hmem
  | cons a as =>
    have := (C12_steady_state_rejected L (sortBy descT L.tsyms.eraseDups) (by simp [(Ldr.sortBy_perm _ _).mem_iff]) hss).1
    simp only
    split
    · simp only [dttLoop, stepFwd, this]
    · rfl

/-- the discounted objective with a time-varying one-period discount factor: `Σ_{k<n} (Π_{j<k} b_{t+j}) L_{t+k}` -/
noncomputable def discountedVar (L b : SExpr) (t : Int) (n : Nat) (P : RealPath) : ℝ :=
  ∑ k ∈ Finset.range n, (∏ j ∈ Finset.range k, b.val P (t + j)) * L.val P (t + k)

/-- **C14** (beyond the claim) a time-varying discount factor that does not involve the variable is handled correctly as long as the
variable is lagged at most once relative to the date of differentiation. For deeper lags it is not
(`C14_time_varying_violated`). -/
theorem C14_time_varying_one_lag (L b : SExpr) (x : TSym) (i : Int) (hx : x.idx = .t i)
    (hL : ∀ s ∈ L.tsyms, s.idx ≠ .ss) (hb : ∀ s ∈ b.tsyms, s.idx ≠ .ss ∧ s.base ≠ x.base)
    (hocc : ∃ s ∈ L.tsyms, s.base = x.base)
    (hdeep : ∀ s ∈ L.tsyms, ∀ j, s.base = x.base → s.idx = .t j → i ≤ j + 1) :
    ∃ r, diffThroughTime L x (.expr b) = .ok r ∧
      ∀ (P : RealPath) (t : Int), b.Smooth P t → L.Smooth P t → L.Smooth P (t + 1) → ∀ N : Nat, 2 ≤ N →
          HasDerivAt (fun y => discountedVar L b t N (P.bump x.base x.asm (t + i) y))
            (r.val P t) (P.path x.base x.asm (t + i)) := by
  have hb1 : ∀ s ∈ b.tsyms, s.idx ≠ .ss := fun s hs => (hb s hs).1
  have hbv : ∀ (P : RealPath) t d y, b.val (P.bump x.base x.asm d y) t = b.val P t := fun P t d y =>
      val_bump_of_not P _ _ _ _ b t fun s hs k e1 _ => absurd e1 (hb s hs).2
  -- two terms suffice
  have two : ∀ (P : RealPath) (t : Int), b.Smooth P t → L.Smooth P t → L.Smooth P (t + 1) → ∀ N : Nat, 2 ≤ N →
      HasDerivAt (fun y => discountedVar L b t N (P.bump x.base x.asm (t + i) y))
        ((L.diff (.tv x)).val P t + ((SExpr.mul (shiftE 1 L) b).diff (.tv x)).val P t)
        (P.path x.base x.asm (t + i)) := by
    intro P t h1 h2 h3 N hN
    obtain ⟨M, rfl⟩ : ∃ M, N = M + 2 := ⟨N - 2, by omega⟩
    have hA := diff_correct P x i t hx L h2
    have hB := diff_correct P x i t hx (SExpr.mul (shiftE 1 L) b) ⟨smooth_shift P L 1 t hL h3, h1⟩
    have htail : ∀ y, ∀ k : Nat, L.val (P.bump x.base x.asm (t + i) y) (t + ((k + 2 : Nat) : Int)) = L.val P (t + ((k + 2 : Nat) : Int)) := by
      intro y k
      refine val_bump_of_not P _ _ _ _ L _ ?_
      intro s hs j e1 e2 e3
      have := hdeep s hs j e1 e2
      push_cast at e3
      omega
    have hsum : (fun y => discountedVar L b t (M + 2) (P.bump x.base x.asm (t + i) y)) = fun y =>
        (L.val (P.bump x.base x.asm (t + i) y) t + (SExpr.mul (shiftE 1 L) b).val (P.bump x.base x.asm (t + i) y) t) +
        ∑ k ∈ Finset.range M, (∏ j ∈ Finset.range (k + 2), b.val P (t + j)) * L.val P (t + ((k + 2 : Nat) : Int)) := by
      funext y
      unfold discountedVar
      rw [Finset.sum_range_succ', Finset.sum_range_succ']
      simp only [hbv, htail, val_mul, val_shift _ _ _ _ hL]
      simp
      ring
    rw [hsum]
    exact HasDerivAt.congr_deriv ((hA.fun_add hB).fun_add (hasDerivAt_const _ _)) (add_zero _)
  obtain ⟨s, hs, he⟩ := hocc
  have hmem : s.idx ∈ timesOf x.base L := by
    simp only [timesOf, List.mem_map, List.mem_filter]
    exact ⟨s, ⟨hs, by simpa using he⟩, rfl⟩
  have hnss : ∀ j ∈ timesOf x.base L, j ≠ .ss := by
    intro j hj
    simp only [timesOf, List.mem_map, List.mem_filter] at hj
    obtain ⟨s, ⟨hs, _⟩, rfl⟩ := hj
    exact hL s hs
  have hne : timesOf x.base L ≠ [] := fun h => by rw [h] at hmem; simp at hmem
  obtain ⟨m, hm⟩ := minTime_some hnss hne
  have hm1 : i ≤ m + 1 := by
    have : TIdx.t m ∈ timesOf x.base L := minTime_attained hm
    simp only [timesOf, List.mem_map, List.mem_filter] at this
    obtain ⟨q, ⟨hq, hq2⟩, hq3⟩ := this
    exact hdeep q hq m (by simpa using hq2) hq3
  have hcall : diffThroughTime L x (.expr b) = dttLoop x ((max 0 (i - m)).toNat + 1) L (.expr b) (.num 0) := by
    unfold diffThroughTime
    cases hts : timesOf x.base L with
    | nil => exact absurd hts hne
    | cons a as => rw [hts] at hm; simp only [hx, hm]
  have hn : (max 0 (i - m)).toNat = 0 ∨ (max 0 (i - m)).toNat = 1 := by omega
  have hstep : stepFwd (.mul (shiftE 1 L) b) = .ok (shiftE 1 (.mul (shiftE 1 L) b)) := by
    refine stepFwd_shift _ ?_
    intro q hq
    rw [tsyms_mul] at hq
    rcases List.mem_append.mp hq with hq | hq
    · obtain ⟨p, hp, rfl⟩ := mem_tsyms_shiftE.mp hq
      have := hL p hp
      obtain ⟨_, j, _⟩ := p
      cases j <;> simp_all [shiftSym]
    · exact hb1 q hq
  have hstep2 : stepFwd (shiftE 1 b) = .ok (shiftE 1 (shiftE 1 b)) := by
    refine stepFwd_shift _ ?_
    intro q hq
    obtain ⟨p, hp, rfl⟩ := mem_tsyms_shiftE.mp hq
    have := hb1 p hp
    obtain ⟨_, j, _⟩ := p
    cases j <;> simp_all [shiftSym]
  rcases hn with hn | hn
  · -- no lag relative to the date: only the current term
    rw [hn] at hcall
    simp only [dttLoop, stepFwd_shift L hL, Disc.step, stepFwd_shift b hb1] at hcall
    refine ⟨_, hcall, ?_⟩
    intro P t h1 h2 h3 N hN
    have := two P t h1 h2 h3 N hN
    have hz : ((SExpr.mul (shiftE 1 L) b).diff (.tv x)).val P t = 0 := by
      have hB := diff_correct P x i t hx (SExpr.mul (shiftE 1 L) b) ⟨smooth_shift P L 1 t hL h3, h1⟩
      have hc : ∀ y, (SExpr.mul (shiftE 1 L) b).val (P.bump x.base x.asm (t + i) y) t = (SExpr.mul (shiftE 1 L) b).val P t := by
        intro y
        rw [val_mul, val_mul, hbv, val_shift _ _ _ _ hL, val_shift _ _ _ _ hL]
        congr 1
        refine val_bump_of_not P _ _ _ _ L _ ?_
        intro q hq j e1 e2 e3
        obtain ⟨k, hk, hle⟩ := minTime_mem hm q.idx (by
          simp only [timesOf, List.mem_map, List.mem_filter]; exact ⟨q, ⟨hq, by simpa using e1⟩, rfl⟩)
        rw [e2] at hk; cases hk
        omega
      simp only [hc] at hB
      exact hB.unique (hasDerivAt_const _ _)
    rw [hz] at this
    simpa using this
  · rw [hn] at hcall
    simp only [dttLoop, stepFwd_shift L hL, Disc.step, stepFwd_shift b hb1, Disc.times, hstep, hstep2] at hcall
    refine ⟨_, hcall, ?_⟩
    intro P t h1 h2 h3 N hN
    simpa using two P t h1 h2 h3 N hN

/-- **C14** is violated by a time-varying discount factor and a second lag: for `L = x[-2]` and discount factor `d[]` the
derivative of the discounted sum with respect to `x[]` is `d_t * d_{t+1}` but the code returns `d_{t+1} ** 2`. -/
theorem C14_time_varying_violated :
    let x := TSym.mk ['x'] (.t 0) []
    let L : SExpr := .sym (.tv ⟨['x'], .t (-2), []⟩)
    let b : SExpr := .sym (.tv ⟨['d'], .t 0, []⟩)
    ∃ r, diffThroughTime L x (.expr b) = .ok r ∧
      (∀ (P : RealPath) (t : Int), r.val P t = P.path ['d'] [] (t + 1) ^ 2) ∧
      ∃ (P : RealPath) (t : Int), ∀ N : Nat, 3 ≤ N →
        ¬ HasDerivAt (fun y => discountedVar L b t N (P.bump ['x'] [] t y)) (r.val P t) (P.path ['x'] [] t) := by
  intro x L b
  let L1 : SExpr := .mul (.sym (.tv ⟨['x'], .t (-1), []⟩)) b
  let b1 : SExpr := .sym (.tv ⟨['d'], .t 1, []⟩)
  let b2 : SExpr := .sym (.tv ⟨['d'], .t 2, []⟩)
  let b3 : SExpr := .sym (.tv ⟨['d'], .t 3, []⟩)
  let L2 : SExpr := .mul (.mul (.sym (.tv ⟨['x'], .t 0, []⟩)) b1) b1
  have e0 : stepFwd L = .ok (.sym (.tv ⟨['x'], .t (-1), []⟩)) := stepFwd_shift L (by simp [L, SExpr.tsyms, SExpr.syms])
  have e1 : stepFwd L1 = .ok (.mul (.sym (.tv ⟨['x'], .t 0, []⟩)) b1) := stepFwd_shift L1 (by simp [L1, b, SExpr.tsyms, SExpr.syms])
  have e2 : stepFwd L2 = .ok (.mul (.mul (.sym (.tv ⟨['x'], .t 1, []⟩)) b2) b2) :=
    stepFwd_shift L2 (by simp [L2, b1, SExpr.tsyms, SExpr.syms])
  have d0 : stepFwd b = .ok b1 := stepFwd_shift b (by simp [b, SExpr.tsyms, SExpr.syms])
  have d1 : stepFwd b1 = .ok b2 := stepFwd_shift b1 (by simp [b1, SExpr.tsyms, SExpr.syms])
  have d2 : stepFwd b2 = .ok b3 := stepFwd_shift b2 (by simp [b2, SExpr.tsyms, SExpr.syms])
  have hcall : diffThroughTime L x (.expr b) =
      .ok (.add (.add (.add (.num 0) (L.diff (.tv x))) (L1.diff (.tv x))) (L2.diff (.tv x))) := by
    have : diffThroughTime L x (.expr b) = dttLoop x 3 L (.expr b) (.num 0) := rfl
    rw [this]
    unfold dttLoop; simp only [e0, Disc.step, d0]
    unfold dttLoop; rw [show Disc.times (.sym (.tv ⟨['x'], .t (-1), []⟩)) (.expr b) = L1 from rfl]
    simp only [e1, Disc.step, d1]
    unfold dttLoop; rw [show Disc.times (.mul (.sym (.tv ⟨['x'], .t 0, []⟩)) b1) (.expr b1) = L2 from rfl]
    simp only [e2, Disc.step, d2, dttLoop]
  have hr : ∀ (P : RealPath) (t : Int),
      (SExpr.add (.add (.add (.num 0) (L.diff (.tv x))) (L1.diff (.tv x))) (L2.diff (.tv x))).val P t
        = P.path ['d'] [] (t + 1) ^ 2 := by
    intro P t
    simp [L, L1, L2, b, b1, x, SExpr.diff, SExpr.val, SExpr.at, Valuation.symAt, RealPath.val]
    ring
  refine ⟨_, hcall, hr, ?_⟩
  refine ⟨⟨fun _ => 0, fun n _ t => if n = ['d'] ∧ t = 1 then 2 else 1, fun _ _ => 0⟩, 0, ?_⟩
  intro N hN h
  rw [hr] at h
  obtain ⟨M, rfl⟩ : ∃ M, N = M + 3 := ⟨N - 3, by omega⟩
  set P : RealPath := ⟨fun _ => 0, fun n _ t => if n = ['d'] ∧ t = 1 then 2 else 1, fun _ _ => 0⟩ with hP
  have hf : (fun y => discountedVar L b 0 (M + 3) (P.bump ['x'] [] 0 y)) = fun y => 2 * y +
      (∑ k ∈ Finset.range M, (∏ j ∈ Finset.range (k + 3), b.val P (0 + j)) * L.val P (0 + ((k + 3 : Nat) : Int)) + 2) := by
    funext y
    unfold discountedVar
    rw [Finset.sum_range_succ', Finset.sum_range_succ', Finset.sum_range_succ']
    have t1 : ∀ j, b.val (P.bump ['x'] [] 0 y) j = b.val P j := fun j =>
      val_bump_of_not _ _ _ _ _ _ _ (by simp [b, SExpr.tsyms, SExpr.syms])
    have t2 : ∀ k : Nat, L.val (P.bump ['x'] [] 0 y) (0 + ((k + 1 + 1 + 1 : Nat) : Int)) = L.val P (0 + ((k + 3 : Nat) : Int)) := by
      intro k
      refine val_bump_of_not _ _ _ _ _ _ _ ?_
      simp [L, SExpr.tsyms, SExpr.syms]; omega
    have t3 : ∀ j : Int, b.val P j = if j = 1 then 2 else 1 := by
      intro j; simp [b, SExpr.val, SExpr.at, Valuation.symAt, RealPath.val, hP]
    have t4 : L.val (P.bump ['x'] [] 0 y) (0 + ((0 + 1 + 1 : Nat) : Int)) = y := by
      simp [L, SExpr.val, SExpr.at, Valuation.symAt, RealPath.val, RealPath.bump]
    have t5 : L.val (P.bump ['x'] [] 0 y) (0 + ((0 + 1 : Nat) : Int)) = 1 := by
      simp [L, SExpr.val, SExpr.at, Valuation.symAt, RealPath.val, RealPath.bump, hP]
    have t6 : L.val (P.bump ['x'] [] 0 y) (0 + ((0 : Nat) : Int)) = 1 := by
      simp [L, SExpr.val, SExpr.at, Valuation.symAt, RealPath.val, RealPath.bump, hP]
    simp only [t1, t2, t4, t5, t6]
    rw [Finset.prod_range_succ, Finset.prod_range_succ, Finset.prod_range_zero, t3, t3]
    simp
    ring
  rw [hf] at h
  have h' := (((hasDerivAt_id' (P.path ['x'] [] 0)).const_mul 2).add_const
    (∑ k ∈ Finset.range M, (∏ j ∈ Finset.range (k + 3), b.val P (0 + j)) * L.val P (0 + ((k + 3 : Nat) : Int)) + 2))
  have := h.unique h'
  simp [hP] at this
  norm_num at this

/-- non-vacuity: `L = log(c[]) - lam[]*(c[] + K[] - K[-1]**a)`, discount factor the parameter `beta`, differentiated with
respect to `K[]`, on a path of ones -/
example :
    let v := fun (n : Str) k => SExpr.sym (.tv ⟨n, .t k, []⟩)
    let L := SExpr.sub (.log (v ['c'] 0)) (.mul (v ['l'] 0)
      (.add (v ['c'] 0) (.sub (v ['K'] 0) (.pow (v ['K'] (-1)) (.sym (.par ['a']))))))
    let P : RealPath := ⟨fun _ => 1/2, fun _ _ _ => 1, fun _ _ => 1⟩
    (∀ s ∈ L.tsyms, s.idx ≠ .ss) ∧ (SExpr.sym (.par ['b'])).tsyms = [] ∧ (∀ t, L.Smooth P t) ∧
    Summable (fun k : ℕ => (SExpr.sym (.par ['b'])).val P 0 ^ k * L.val P (0 + k)) := by
  intro v L P
  refine ⟨?_, rfl, ?_, ?_⟩
  · simp [L, v, SExpr.sub, SExpr.tsyms, SExpr.syms]
  · intro t
    simp [L, v, P, SExpr.sub, SExpr.Smooth, SExpr.val, SExpr.at, Valuation.symAt, RealPath.val]
  · have : ∀ k : ℕ, L.val P (0 + k) = -1 := by
      intro k
      simp [L, v, P, SExpr.sub, SExpr.val, SExpr.at, Valuation.symAt, RealPath.val]
    simp only [this]
    refine Summable.mul_right _ ?_
    refine summable_geometric_of_lt_one ?_ ?_
    all_goals simp [P, SExpr.val, SExpr.at, Valuation.symAt, RealPath.val]
    norm_num

end GE
