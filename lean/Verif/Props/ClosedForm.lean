import Verif.Model.ClosedForm
import Verif.Props.Solve
/-! # C24, C25: closed-form first-order conditions -/

namespace GE

/-! ## specification -/

/-- the value of a symbol at date `t` -/
noncomputable def Sym.value (s : Sym) (P : RealPath) (t : Int) : ℝ := P.val.symAt t s

/-- the value of an optional productivity term -/
noncomputable def tfp (A : Option Sym) (P : RealPath) (t : Int) : ℝ :=
  match A with
  | some a => a.value P t
  | none => 1

/-- Cobb-Douglas output `A * Π x_i ^ a_i` -/
noncomputable def cobbDouglas (A : Option Sym) (inputs : List (Sym × SExpr)) (P : RealPath) (t : Int) : ℝ :=
  tfp A P t * (inputs.map fun p => p.1.value P t ^ p.2.val P t).prod

/-- the CES bracket `Σ share_i * x_i ^ s` -/
noncomputable def cesBracket (s : ℝ) (inputs : List (Sym × SExpr)) (P : RealPath) (t : Int) : ℝ :=
  (inputs.map fun p => p.2.val P t * p.1.value P t ^ s).sum

/-- CES output `A * (Σ share_i * x_i ^ s) ^ (1/s)` -/
noncomputable def cesOutput (A : Option Sym) (s : ℝ) (inputs : List (Sym × SExpr)) (P : RealPath) (t : Int) : ℝ :=
  tfp A P t * cesBracket s inputs P t ^ (1 / s)

/-- the exponents of all powers inside an expression -/
def SExpr.exponents : SExpr → List SExpr
  | .num _ => []
  | .sym _ => []
  | .add a b => a.exponents ++ b.exponents
  | .mul a b => a.exponents ++ b.exponents
  | .pow a b => b :: (a.exponents ++ b.exponents)
  | .exp a => a.exponents
  | .log a => a.exponents

/-- what is asked of sympy's rewriting for the CES matcher, at one path: the canonical form of the residual keeps its value, and when
`simplify` finds the difference of two exponents (or `product - 1`) to be zero, then it is. -/
structure Rewriter.FaithfulCES (R : Rewriter) (raw : SExpr) (P : RealPath) (t : Int) : Prop where
  value : (R.auto raw).val P t = raw.val P t
  same : ∀ a ∈ (R.auto raw).exponents, ∀ b ∈ (R.auto raw).exponents, R.isZero (a.sub b) = true → a.val P t = b.val P t
  recip : ∀ a ∈ (R.auto raw).exponents, ∀ b ∈ (R.auto raw).exponents,
    R.isZero ((SExpr.mul a b).sub (.num 1)) = true → a.val P t * b.val P t = 1

/-- a block with one constraint and no definitions, its Lagrangian, and the multiplier recorded under the constraint's number -/
structure OneConstraint (B : Block) (k : Nat) (con : SEq) (L : SExpr) (ms : List (Nat × Option TSym)) (mu : TSym) : Prop where
  noDefinitions : B.definitions = none
  constraint : B.constraints = some [(k, con)]
  lagrangian : B.lagrangian = .ok (L, ms)
  multiplier : dget ms k = some (some mu)

/-- the control occurs in the constraint only at its own date, and not in an exponent or share -/
structure SimpleInput (con : SEq) (inputs : List (Sym × SExpr)) (mu c : TSym) : Prop where
  dated : ∃ i, c.idx = .t i
  ownDate : ∀ s ∈ con.lhs.tsyms ++ con.rhs.tsyms, s.base = c.base → s = c
  weights : ∀ p ∈ inputs, Sym.tv c ∉ p.2.syms
  multiplier : mu.base ≠ c.base

/-- the path on which only the value of `c`, seen from date `t`, is changed to `y` -/
def RealPath.set (P : RealPath) (t : Int) (c : TSym) (y : ℝ) : RealPath :=
  match c.idx with
  | .t i => P.bump c.base c.asm (t + i) y
  | .ss => P

namespace Clf

open DTT

theorem diff_shift (k : Int) (x : TSym) (e : SExpr) :
    (shiftE k e).diff (.tv (shiftSym k x)) = shiftE k (e.diff (.tv x)) := by
  induction e with
  | num q => rfl
  | sym s =>
    cases s with
    | par n => simp [shiftE, SExpr.replace, SExpr.diff]
    | tv s =>
      by_cases h : s = x
      · subst h; simp [shiftE, SExpr.replace, SExpr.diff]
      · have : shiftSym k s ≠ shiftSym k x := fun hh => h (shiftSym_inj hh)
        simp [shiftE, SExpr.replace, SExpr.diff, h, this]
  | add a b iha ihb => exact congrArg₂ SExpr.add iha ihb
  | mul a b iha ihb =>
    change SExpr.add (.mul _ _) (.mul _ _) = SExpr.add (.mul _ _) (.mul _ _)
    unfold shiftE at iha ihb
    rw [iha, ihb]
  | pow a b iha ihb =>
    change SExpr.mul (.pow _ _) (.add (.mul _ (.log _)) (.mul _ (.mul _ (.pow _ _)))) =
      SExpr.mul (.pow _ _) (.add (.mul _ (.log _)) (.mul _ (.mul _ (.pow _ _))))
    unfold shiftE at iha ihb
    rw [iha, ihb]; rfl
  | exp a ih =>
    change SExpr.mul (.exp _) _ = SExpr.mul (.exp _) _
    unfold shiftE at ih
    rw [ih]
  | log a ih =>
    change SExpr.mul _ (.pow _ _) = SExpr.mul _ (.pow _ _)
    unfold shiftE at ih
    rw [ih]; rfl

theorem diff_absent (x : Sym) (e : SExpr) (h : x ∉ e.syms) (P : RealPath) (t : Int) : (e.diff x).val P t = 0 := by
  induction e with
  | num q => simp [SExpr.diff]
  | sym s =>
    have : s ≠ x := by simp [SExpr.syms] at h; exact fun hh => h hh.symm
    simp [SExpr.diff, this]
  | add a b iha ihb => simp [SExpr.syms] at h; simp [SExpr.diff, iha h.1, ihb h.2]
  | mul a b iha ihb => simp [SExpr.syms] at h; simp [SExpr.diff, iha h.1, ihb h.2]
  | pow a b iha ihb => simp [SExpr.syms] at h; simp [SExpr.diff, iha h.1, ihb h.2]
  | exp a ih => simp [SExpr.syms] at h; simp [SExpr.diff, ih h]
  | log a ih => simp [SExpr.syms] at h; simp [SExpr.diff, ih h]

theorem syms_diff (x : Sym) (e : SExpr) : ∀ s ∈ (e.diff x).syms, s ∈ e.syms := by
  induction e with
  | num q => simp [SExpr.diff, SExpr.syms]
  | sym s => simp only [SExpr.diff]; split <;> simp [SExpr.syms]
  | add a b iha ihb => intro s hs; simp [SExpr.diff, SExpr.syms] at hs ⊢; grind
  | mul a b iha ihb => intro s hs; simp [SExpr.diff, SExpr.syms] at hs ⊢; grind
  | pow a b iha ihb => intro s hs; simp [SExpr.diff, SExpr.syms, SExpr.div] at hs ⊢; grind
  | exp a ih => intro s hs; simp [SExpr.diff, SExpr.syms] at hs ⊢; grind
  | log a ih => intro s hs; simp [SExpr.diff, SExpr.syms, SExpr.div] at hs ⊢; grind

theorem tsyms_diff (x : Sym) (e : SExpr) : ∀ s ∈ (e.diff x).tsyms, s ∈ e.tsyms := fun s hs =>
  mem_tsyms.mpr (syms_diff x e _ (mem_tsyms.mp hs))

theorem shiftSym_add (j k : Int) (x : TSym) : shiftSym j (shiftSym k x) = shiftSym (k + j) x := by
  obtain ⟨b, i, a⟩ := x
  cases i <;> simp [shiftSym]; omega

theorem shiftSym_zero (x : TSym) : shiftSym 0 x = x := by
  obtain ⟨b, i, a⟩ := x
  cases i <;> simp [shiftSym]

theorem turn_diff (L b : SExpr) (hL : ∀ s ∈ L.tsyms, s.idx ≠ .ss) (hb : b.tsyms = []) (P : RealPath) (k : Nat) (x : TSym) (t : Int) :
    ((turn L b k).diff (.tv x)).val P t = b.val P t ^ k * (L.diff (.tv (shiftSym (-(k : Int)) x))).val P (t + k) := by
  induction k generalizing t x with
  | zero => simp [turn, shiftSym_zero]
  | succ k ih =>
    have hd : (b.diff (.tv x)).val P t = 0 := diff_absent _ _ (fun h => by
      have := mem_tsyms.mpr h; rw [hb] at this; simp at this) P t
    have hsh : (shiftE 1 (turn L b k)).diff (.tv x) = shiftE 1 ((turn L b k).diff (.tv (shiftSym (-1) x))) := by
      rw [← diff_shift, shiftSym_add]; simp [shiftSym_zero]
    simp only [turn, SExpr.diff, val_add, val_mul, hd, mul_zero, add_zero]
    rw [hsh, val_shift _ _ _ _ (fun s hs => turn_noss L b hL hb k s (tsyms_diff _ _ s hs)), ih, shiftSym_add,
      val_const P b hb (t + 1) t, pow_succ]
    rw [show t + 1 + (k : Int) = t + ((k + 1 : Nat) : Int) by push_cast; ring,
      show -1 + -(k : Int) = -((k + 1 : Nat) : Int) by push_cast; ring]
    ring

/-- the period-`k` term of the first-order condition -/
noncomputable def term (L b : SExpr) (x : TSym) (P : RealPath) (t : Int) (k : Nat) : ℝ :=
  b.val P t ^ k * (L.diff (.tv (shiftSym (-(k : Int)) x))).val P (t + k)

theorem term_zero (L b : SExpr) (x : TSym) (i : Int) (hx : x.idx = .t i) (P t) (k : Nat)
    (h : ∀ s ∈ L.tsyms, ∀ j, s.base = x.base → s.idx = .t j → i - j ≠ k) : term L b x P t k = 0 := by
  unfold term
  rw [diff_absent, mul_zero]
  intro hm
  have := mem_tsyms.mpr hm
  obtain ⟨xb, xi, xa⟩ := x
  subst hx
  exact h _ this (i + -(k : Int)) rfl rfl (by omega)

/-- `diff_through_time` as a sum of symbolic derivatives -/
theorem dtt_sum (L b : SExpr) (x : TSym) (i : Int) (hx : x.idx = .t i)
    (hL : ∀ s ∈ L.tsyms, s.idx ≠ .ss) (hb : b.tsyms = []) :
    ∃ r, diffThroughTime L x (.expr b) = .ok r ∧ ∀ (P : RealPath) (t : Int) (N : Nat),
      (∀ s ∈ L.tsyms, ∀ j, s.base = x.base → s.idx = .t j → i - j < N) →
        r.val P t = ∑ k ∈ Finset.range N, term L b x P t k := by
  by_cases hocc : timesOf x.base L = []
  · refine ⟨.num 0, by simp [diffThroughTime, hocc], ?_⟩
    intro P t N _
    rw [Finset.sum_eq_zero]
    · simp
    · intro k _
      apply term_zero _ _ _ _ hx
      intro s hs j hb' _ _
      have : s.idx ∈ timesOf x.base L := by
        simp only [timesOf, List.mem_map, List.mem_filter]
        exact ⟨s, ⟨hs, by simpa using hb'⟩, rfl⟩
      rw [hocc] at this; simp at this
  · have hne : ∀ i ∈ timesOf x.base L, i ≠ .ss := by
      intro j hj
      simp only [timesOf, List.mem_map, List.mem_filter] at hj
      obtain ⟨s, ⟨hs, _⟩, rfl⟩ := hj
      exact hL s hs
    obtain ⟨m, hm⟩ := minTime_some hne hocc
    obtain ⟨r, h1, h2⟩ := loop_val x L b hL hb ((max 0 (i - m)).toNat + 1) 0 (.num 0)
    refine ⟨r, ?_, ?_⟩
    · unfold diffThroughTime
      split
      · rename_i h; exact absurd h hocc
      · rw [hx, hm]; exact h1
    · intro P t N hN
      rw [h2]
      simp only [val_num, Rat.cast_zero, zero_add]
      rw [Finset.sum_congr rfl fun j _ => turn_diff L b hL hb P j x t]
      change ∑ k ∈ Finset.range _, term L b x P t k = _
      set n := (max 0 (i - m)).toNat + 1 with hn
      have z1 : ∀ k ≥ n, term L b x P t k = 0 := by
        intro k hk
        apply term_zero _ _ _ _ hx
        intro s hs j hb' hj
        have hmem : s.idx ∈ timesOf x.base L := by
          simp only [timesOf, List.mem_map, List.mem_filter]
          exact ⟨s, ⟨hs, by simpa using hb'⟩, rfl⟩
        obtain ⟨j', h3, h4⟩ := minTime_mem hm _ hmem
        rw [hj] at h3
        cases h3
        omega
      have z2 : ∀ k ≥ N, term L b x P t k = 0 := by
        intro k hk
        apply term_zero _ _ _ _ hx
        intro s hs j hb' hj
        have := hN s hs j hb' hj
        omega
      rw [← Finset.eventually_constant_sum z1 (le_max_left n N), ← Finset.eventually_constant_sum z2 (le_max_right n N)]

/-- a bound on the lags of a variable -/
theorem exists_bound (L : SExpr) (i : Int) : ∃ N : Nat, ∀ s ∈ L.tsyms, ∀ j, s.idx = .t j → i - j < N := by
  generalize L.tsyms = l
  induction l with
  | nil => exact ⟨0, by simp⟩
  | cons s l ih =>
    obtain ⟨N, h⟩ := ih
    obtain ⟨b, ix, a⟩ := s
    cases ix with
    | ss => exact ⟨N, by intro s hs j hj; rcases List.mem_cons.mp hs with rfl | hs; · simp at hj
                         · exact h s hs j hj⟩
    | t k =>
      refine ⟨N + (i - k).toNat + 1, ?_⟩
      intro s hs j hj
      rcases List.mem_cons.mp hs with rfl | hs
      · simp at hj; omega
      · have := h s hs j hj; omega

/-- adding a term which contains the variable only at its own date adds the term's own derivative -/
theorem dtt_add (e1 e2 b : SExpr) (x : TSym) (i : Int) (hx : x.idx = .t i)
    (h1 : ∀ s ∈ e1.tsyms, s.idx ≠ .ss) (h2 : ∀ s ∈ e2.tsyms, s.idx ≠ .ss) (hb : b.tsyms = [])
    (hown : ∀ s ∈ e2.tsyms, s.base = x.base → s = x) :
    ∃ o g, diffThroughTime e1 x (.expr b) = .ok o ∧ diffThroughTime (.add e1 e2) x (.expr b) = .ok g ∧
      ∀ P t, g.val P t = o.val P t + (e2.diff (.tv x)).val P t := by
  have h12 : ∀ s ∈ (SExpr.add e1 e2).tsyms, s.idx ≠ .ss := by
    intro s hs; rw [tsyms_add] at hs
    rcases List.mem_append.mp hs with hs | hs
    · exact h1 s hs
    · exact h2 s hs
  obtain ⟨o, ho, vo⟩ := dtt_sum e1 b x i hx h1 hb
  obtain ⟨g, hg, vg⟩ := dtt_sum (.add e1 e2) b x i hx h12 hb
  refine ⟨o, g, ho, hg, ?_⟩
  intro P t
  obtain ⟨N, hN⟩ := exists_bound (.add e1 e2) i
  rw [vg P t (N + 1) (fun s hs j _ hj => by have := hN s hs j hj; push_cast; omega),
    vo P t (N + 1) (fun s hs j _ hj => by
      have := hN s (by rw [tsyms_add]; simp [hs]) j hj; push_cast; omega)]
  have hsplit : ∀ k, term (.add e1 e2) b x P t k = term e1 b x P t k + term e2 b x P t k := by
    intro k; simp only [term, SExpr.diff, val_add]; ring
  rw [Finset.sum_congr rfl fun k _ => hsplit k, Finset.sum_add_distrib]
  congr 1
  rw [Finset.sum_range_succ', Finset.sum_eq_zero]
  · simp [term, shiftSym_zero]
  · intro k _
    apply term_zero _ _ _ _ hx
    intro s hs j hb' hj
    rw [hown s hs hb', hx] at hj
    cases hj
    push_cast; omega


/-! ### the matchers -/

theorem val_sym (P : RealPath) (t : Int) (s : Sym) : (SExpr.sym s).val P t = s.value P t := rfl

theorem summands_val (P : RealPath) (t : Int) (e : SExpr) : e.val P t = (e.summands.map fun a => a.val P t).sum := by
  induction e with
  | add a b iha ihb => simp [SExpr.summands, iha, ihb]
  | _ => simp [SExpr.summands]

theorem factors_val (P : RealPath) (t : Int) (e : SExpr) : e.val P t = (e.factors.map fun a => a.val P t).prod := by
  induction e with
  | mul a b iha ihb => simp [SExpr.factors, iha, ihb]
  | _ => simp [SExpr.factors]

theorem summands_syms (e : SExpr) : ∀ a ∈ e.summands, ∀ s ∈ a.syms, s ∈ e.syms := by
  induction e with
  | add a b iha ihb => intro x hx s hs; simp [SExpr.summands, SExpr.syms] at hx ⊢; grind
  | _ => simp [SExpr.summands]

theorem factors_syms (e : SExpr) : ∀ a ∈ e.factors, ∀ s ∈ a.syms, s ∈ e.syms := by
  induction e with
  | mul a b iha ihb => intro x hx s hs; simp [SExpr.factors, SExpr.syms] at hx ⊢; grind
  | _ => simp [SExpr.factors]

theorem summands_exps (e : SExpr) : ∀ a ∈ e.summands, ∀ s ∈ a.exponents, s ∈ e.exponents := by
  induction e with
  | add a b iha ihb => intro x hx s hs; simp [SExpr.summands, SExpr.exponents] at hx ⊢; grind
  | _ => simp [SExpr.summands]

theorem factors_exps (e : SExpr) : ∀ a ∈ e.factors, ∀ s ∈ a.exponents, s ∈ e.exponents := by
  induction e with
  | mul a b iha ihb => intro x hx s hs; simp [SExpr.factors, SExpr.exponents] at hx ⊢; grind
  | _ => simp [SExpr.factors]

theorem negSymbol_spec {e : SExpr} {y : Sym} (h : negSymbol e = some y) :
    (∀ P t, e.val P t = - y.value P t) ∧ y ∈ e.syms := by
  unfold negSymbol at h
  split at h
  · rename_i q s hf
    split at h
    · rename_i hq
      cases h
      refine ⟨fun P t => ?_, factors_syms e (.sym y) (by rw [hf]; simp) y (by simp [SExpr.syms])⟩
      rw [factors_val, hf, hq]
      simp [val_sym]
    · cases h
  · cases h

theorem split_spec {e prod : SExpr} {y : Sym} (h : splitResidual e = some (y, prod)) :
    (∀ P t, e.val P t = prod.val P t - y.value P t) ∧ y ∈ e.syms ∧ (∀ s ∈ prod.syms, s ∈ e.syms) ∧
      (∀ s ∈ prod.exponents, s ∈ e.exponents) := by
  unfold splitResidual at h
  split at h
  · rename_i a b hs
    split at h
    · rename_i y' hy
      cases h
      obtain ⟨h1, h2⟩ := negSymbol_spec hy
      refine ⟨fun P t => ?_, summands_syms e a (by rw [hs]; simp) _ h2, summands_syms e _ (by rw [hs]; simp),
        summands_exps e _ (by rw [hs]; simp)⟩
      rw [summands_val, hs]
      simp [h1]; ring
    · split at h
      · rename_i y' hy
        cases h
        obtain ⟨h1, h2⟩ := negSymbol_spec hy
        refine ⟨fun P t => ?_, summands_syms e b (by rw [hs]; simp) _ h2, summands_syms e _ (by rw [hs]; simp),
          summands_exps e _ (by rw [hs]; simp)⟩
        rw [summands_val, hs]
        simp [h1]; ring
      · cases h
  · cases h

theorem monomial_spec (fs : List SExpr) (A A' ins ins') (h : monomialLoop fs A ins = some (A', ins')) :
    (∀ P t, (fs.map fun a => a.val P t).prod * cobbDouglas A ins P t = cobbDouglas A' ins' P t) ∧
    (∀ U : List Sym, (∀ f ∈ fs, ∀ s ∈ f.syms, s ∈ U) → (∀ a ∈ A, a ∈ U) → (∀ p ∈ ins, p.1 ∈ U ∧ ∀ s ∈ p.2.syms, s ∈ U) →
      (∀ a ∈ A', a ∈ U) ∧ (∀ p ∈ ins', p.1 ∈ U ∧ ∀ s ∈ p.2.syms, s ∈ U)) := by
  induction fs generalizing A ins with
  | nil => simp [monomialLoop] at h; obtain ⟨rfl, rfl⟩ := h; exact ⟨by simp, fun U _ h2 h3 => ⟨h2, h3⟩⟩
  | cons f fs ih =>
    unfold monomialLoop at h
    split at h
    · simp at *
    · rename_i b e fs' A0 ins0 heq
      cases heq
      split at h
      · rename_i x
        obtain ⟨h1, h2⟩ := ih _ _ h
        refine ⟨fun P t => ?_, fun U hf hA hi => h2 U (fun f hf' => hf f (by simp [hf'])) hA ?_⟩
        · rw [← h1]; simp [cobbDouglas, val_sym]; ring
        · intro p hp
          rcases List.mem_append.mp hp with hp | hp
          · exact hi p hp
          · simp at hp; subst hp
            have := hf _ (List.mem_cons_self ..)
            simp [SExpr.syms] at this
            exact ⟨this.1, this.2⟩
      · cases h
    · rename_i s fs' A0 ins0 heq
      cases heq
      split at h
      · cases h
      · obtain ⟨h1, h2⟩ := ih _ _ h
        refine ⟨fun P t => ?_, fun U hf hA hi => h2 U (fun f hf' => hf f (by simp [hf'])) ?_ hi⟩
        · rw [← h1]; simp [cobbDouglas, tfp, val_sym]; ring
        · intro a ha
          simp at ha; subst ha
          exact hf _ (List.mem_cons_self ..) _ (by simp [SExpr.syms])
    · cases h

theorem cd_spec {R : Rewriter} {idx : Nat} {raw : SExpr} {m : CDMatch} (h : matchCDResidual R idx raw = some m) :
    m.idx = idx ∧ (∀ P t, (R.expand raw).val P t = cobbDouglas m.A m.inputs P t - m.Y.value P t) ∧
    (m.inputs.map Prod.fst).Nodup ∧ m.Y ∉ m.inputs.map Prod.fst ∧ (∀ a ∈ m.A, a ∉ m.inputs.map Prod.fst) ∧
    m.Y ∈ (R.expand raw).syms ∧ (∀ a ∈ m.A, a ∈ (R.expand raw).syms) ∧
    (∀ p ∈ m.inputs, p.1 ∈ (R.expand raw).syms ∧ ∀ s ∈ p.2.syms, s ∈ (R.expand raw).syms) := by
  unfold matchCDResidual at h
  split at h
  · cases h
  · rename_i Y prod hs
    obtain ⟨s1, s2, s3, -⟩ := split_spec hs
    split at h
    · cases h
    · rename_i A ins hd
      split at h
      · rename_i hn
        cases h
        unfold decomposeMonomial at hd
        split at hd
        · cases hd
        · rename_i A' ins' hl
          split at hd
          · cases hd
          · split at hd
            · cases hd
              obtain ⟨m1, m2⟩ := monomial_spec _ _ _ _ _ hl
              obtain ⟨m3, m4⟩ := m2 prod.syms (factors_syms prod) (by simp) (by simp)
              rw [List.nodup_cons, List.nodup_append] at hn
              refine ⟨rfl, fun P t => ?_, hn.2.2.1, fun hh => hn.1 (by simp at hh ⊢; exact .inr hh), ?_, s2,
                fun a ha => s3 a (m3 a ha), fun p hp => ⟨s3 _ (m4 p hp).1, fun s hs => s3 s ((m4 p hp).2 s hs)⟩⟩
              · rw [s1, factors_val, ← m1]
                simp [cobbDouglas, tfp]
              · intro a ha hm
                exact hn.2.2.2 a (by simpa using ha) a hm rfl
            · cases hd
      · cases h


/-! ### derivatives -/

/-- only `c` itself among the symbols of `e` carries the name of the control -/
def Own (c : TSym) (e : SExpr) : Prop := ∀ s ∈ e.tsyms, s.base = c.base → s = c

theorem value_bump_self (P : RealPath) (c : TSym) (i t : Int) (hc : c.idx = .t i) (y : ℝ) :
    (Sym.tv c).value (P.bump c.base c.asm (t + i) y) t = y := by
  simp [Sym.value, Valuation.symAt, hc, RealPath.val, RealPath.bump]

theorem value_bump_ne (P : RealPath) (c : TSym) (d t : Int) (y : ℝ) (s : Sym) (h : ∀ q, s = .tv q → q.base ≠ c.base) :
    s.value (P.bump c.base c.asm d y) t = s.value P t := by
  have := val_bump_of_not P c.base c.asm d y (.sym s) t (by
    intro q hq k hb _
    have := mem_tsyms.mp hq
    simp [SExpr.syms] at this
    exact absurd hb (h q this.symm))
  exact this

theorem val_bump_free (P : RealPath) (c : TSym) (d t : Int) (y : ℝ) (e : SExpr) (h : ∀ q ∈ e.tsyms, q.base ≠ c.base) :
    e.val (P.bump c.base c.asm d y) t = e.val P t :=
  val_bump_of_not P c.base c.asm d y e t fun q hq _ hb _ => absurd hb (h q hq)

theorem dget_mem {κ ν} [DecidableEq κ] {d : List (κ × ν)} {k : κ} {v : ν} (h : dget d k = some v) : (k, v) ∈ d := by
  induction d with
  | nil => simp [dget] at h
  | cons p d ih =>
    obtain ⟨a, b⟩ := p
    simp only [dget] at h
    split at h
    · rename_i hk; cases h; simp [hk]
    · exact List.mem_cons_of_mem _ (ih h)

/-- the product as a function of the control: a constant times a power -/
theorem prod_bump (P : RealPath) (c : TSym) (i t : Int) (hc : c.idx = .t i) (ins : List (Sym × SExpr)) (a : SExpr)
    (hmem : (Sym.tv c, a) ∈ ins) (hn : (ins.map Prod.fst).Nodup)
    (hb : ∀ p ∈ ins, p.1 ≠ .tv c → ∀ q, p.1 = .tv q → q.base ≠ c.base)
    (he : ∀ p ∈ ins, ∀ q ∈ p.2.tsyms, q.base ≠ c.base) :
    ∃ K : ℝ, ∀ y, (ins.map fun p => p.1.value (P.bump c.base c.asm (t + i) y) t ^ p.2.val (P.bump c.base c.asm (t + i) y) t).prod
      = K * y ^ a.val P t := by
  induction ins with
  | nil => simp at hmem
  | cons p ins ih =>
    rw [List.map_cons, List.nodup_cons] at hn
    rcases List.mem_cons.mp hmem with h | h
    · subst h
      refine ⟨(ins.map fun p => p.1.value P t ^ p.2.val P t).prod, fun y => ?_⟩
      have hrest : (ins.map fun p => p.1.value (P.bump c.base c.asm (t + i) y) t ^ p.2.val (P.bump c.base c.asm (t + i) y) t) =
          ins.map fun p => p.1.value P t ^ p.2.val P t := by
        apply List.map_congr_left
        intro p hp
        rw [value_bump_ne _ _ _ _ _ _ (hb p (by simp [hp]) (fun h => hn.1 (by have := List.mem_map_of_mem (f := Prod.fst) hp; rw [h] at this; exact this))),
          val_bump_free _ _ _ _ _ _ (he p (by simp [hp]))]
      rw [List.map_cons, List.prod_cons, hrest, value_bump_self P c i t hc, val_bump_free _ _ _ _ _ _ (he _ (List.mem_cons_self ..))]
      ring
    · obtain ⟨K, hK⟩ := ih h hn.2 (fun p hp => hb p (by simp [hp])) (fun p hp => he p (by simp [hp]))
      have hp : p.1 ≠ .tv c := fun hh => hn.1 (by rw [hh]; exact List.mem_map_of_mem (f := Prod.fst) h)
      refine ⟨p.1.value P t ^ p.2.val P t * K, fun y => ?_⟩
      rw [List.map_cons, List.prod_cons, hK, value_bump_ne _ _ _ _ _ _ (hb p (by simp) hp), val_bump_free _ _ _ _ _ _ (he p (by simp))]
      ring

theorem tfp_bump (P : RealPath) (c : TSym) (d t : Int) (y : ℝ) (A : Option Sym) (h : ∀ a ∈ A, ∀ q, a = .tv q → q.base ≠ c.base) :
    tfp A (P.bump c.base c.asm d y) t = tfp A P t := by
  cases A with
  | none => rfl
  | some a => exact value_bump_ne _ _ _ _ _ _ (h a rfl)

/-- the marginal product of a Cobb-Douglas function -/
theorem cd_marginal (P : RealPath) (c : TSym) (i t : Int) (hc : c.idx = .t i) (A : Option Sym) (ins : List (Sym × SExpr)) (a : SExpr)
    (hmem : (Sym.tv c, a) ∈ ins) (hn : (ins.map Prod.fst).Nodup)
    (hA : ∀ a ∈ A, ∀ q, a = .tv q → q.base ≠ c.base)
    (hb : ∀ p ∈ ins, p.1 ≠ .tv c → ∀ q, p.1 = .tv q → q.base ≠ c.base)
    (he : ∀ p ∈ ins, ∀ q ∈ p.2.tsyms, q.base ≠ c.base)
    (hpos : 0 < (Sym.tv c).value P t) :
    HasDerivAt (fun y => cobbDouglas A ins (P.bump c.base c.asm (t + i) y) t)
      (a.val P t * cobbDouglas A ins P t / (Sym.tv c).value P t) ((Sym.tv c).value P t) := by
  obtain ⟨K, hK⟩ := prod_bump P c i t hc ins a hmem hn hb he
  have hv : (Sym.tv c).value P t = P.path c.base c.asm (t + i) := by
    simp [Sym.value, Valuation.symAt, hc, RealPath.val]
  have hfun : (fun y => cobbDouglas A ins (P.bump c.base c.asm (t + i) y) t) = fun y => tfp A P t * K * y ^ a.val P t := by
    funext y
    rw [cobbDouglas, hK, tfp_bump _ _ _ _ _ _ hA]; ring
  have hval : cobbDouglas A ins P t = tfp A P t * K * (Sym.tv c).value P t ^ a.val P t := by
    have := congrFun hfun ((Sym.tv c).value P t)
    simp only [hv, bump_self] at this
    rw [hv, this]
  rw [hfun, hval]
  have h1 := (Real.hasDerivAt_rpow_const (x := (Sym.tv c).value P t) (p := a.val P t) (.inl hpos.ne')).const_mul (tfp A P t * K)
  refine h1.congr_deriv ?_
  rw [Real.rpow_sub_one hpos.ne']
  field_simp

/-- value of the derivative of the constraint's part of the Lagrangian -/
theorem constraint_term_diff (P : RealPath) (t : Int) (c mu : TSym) (hmu : mu.base ≠ c.base) (lhs rhs : SExpr) :
    ((SExpr.mul (.num (-1)) (.mul (.sym (.tv mu)) (lhs.sub rhs))).diff (.tv c)).val P t =
      (Sym.tv mu).value P t * ((rhs.diff (.tv c)).val P t - (lhs.diff (.tv c)).val P t) := by
  have : Sym.tv mu ≠ Sym.tv c := by intro h; cases h; exact hmu rfl
  simp [SExpr.diff, SExpr.sub, this, val_sym]
  ring

/-- the derivative of an expression agrees with that of any function equal to it near the actual value -/
theorem diff_unique (P : RealPath) (c : TSym) (i t : Int) (hc : c.idx = .t i) (lhs rhs : SExpr)
    (hl : lhs.Smooth P t) (hr : rhs.Smooth P t) (f : ℝ → ℝ) (f' : ℝ)
    (hf : HasDerivAt f f' ((Sym.tv c).value P t))
    (he : ∀ᶠ y in nhds ((Sym.tv c).value P t), f y = rhs.val (P.bump c.base c.asm (t + i) y) t - lhs.val (P.bump c.base c.asm (t + i) y) t) :
    (rhs.diff (.tv c)).val P t - (lhs.diff (.tv c)).val P t = f' := by
  have hv : (Sym.tv c).value P t = P.path c.base c.asm (t + i) := by
    simp [Sym.value, Valuation.symAt, hc, RealPath.val]
  rw [hv] at hf he
  have h1 := (diff_correct P c i t hc rhs hr).sub (diff_correct P c i t hc lhs hl)
  have h2 := hf.congr_of_eventuallyEq (f₁ := fun y => rhs.val (P.bump c.base c.asm (t + i) y) t - lhs.val (P.bump c.base c.asm (t + i) y) t)
    (he.mono fun y hy => hy.symm)
  exact h1.unique h2


theorem lag_single {B k con L ms mu} (h : OneConstraint B k con L ms mu) :
    ∃ o, B.rawObjective = .ok o ∧ L = .add o (.mul (.num (-1)) (.mul (.sym (.tv mu)) (con.lhs.sub con.rhs))) := by
  obtain ⟨h1, h2, h3, h4⟩ := h
  unfold Block.lagrangian at h3
  split at h3
  · cases h3
  · cases h3
  · rename_i okey obj rest hobj
    split at h3
    · cases h3
    · rename_i f hf
      rw [h1, h2] at h3
      simp only [dvals, Option.getD_none, List.map_nil, lagrangianSubs] at h3
      split at h3
      · cases h3
      · rename_i short hs
        unfold lagrangianLoop at h3
        have hsub : ∀ e : SExpr, e.subsSeq [] = e := fun _ => rfl
        simp only [hsub, lagrangianLoop] at h3
        refine ⟨_, by rw [Block.rawObjective, hobj], ?_⟩
        rw [hf]
        split at h3
        · cases h3
        · rename_i lm hlm
          cases h3
          rw [h4] at hlm
          cases hlm
          rfl
        · rename_i hlm
          cases h3
          rw [dget_dset] at h4
          split at h4
          · cases h4; rfl
          · rw [hlm] at h4; cases h4

theorem cd_free {R : Rewriter} {k : Nat} {con : SEq} {raw : SExpr} {m : CDMatch} {mu c : TSym} {a : SExpr}
    (hm : matchCDResidual R k raw = some m) (hin : dget m.inputs (.tv c) = some a)
    (hR : ∀ s ∈ (R.expand raw).syms, s ∈ con.syms) (hs : SimpleInput con m.inputs mu c) :
    (∀ q, m.Y = .tv q → q.base ≠ c.base) ∧ (∀ a ∈ m.A, ∀ q, a = .tv q → q.base ≠ c.base) ∧
    (∀ p ∈ m.inputs, p.1 ≠ .tv c → ∀ q, p.1 = .tv q → q.base ≠ c.base) ∧
    (∀ p ∈ m.inputs, ∀ q ∈ p.2.tsyms, q.base ≠ c.base) := by
  obtain ⟨-, -, h3, h4, h5, h6, h7, h8⟩ := cd_spec hm
  have hcm := dget_mem hin
  have own : ∀ q, Sym.tv q ∈ (R.expand raw).syms → q.base = c.base → q = c := by
    intro q hq hb
    refine hs.ownDate q ?_ hb
    have := hR _ hq
    rw [SEq.syms, List.mem_append] at this
    rw [List.mem_append, mem_tsyms, mem_tsyms]; exact this
  refine ⟨?_, ?_, ?_, ?_⟩
  · intro q hq hb
    have := own q (hq ▸ h6) hb
    subst this
    exact h4 (by rw [hq]; exact List.mem_map_of_mem (f := Prod.fst) hcm)
  · intro x hx q hq hb
    have := own q (hq ▸ h7 x hx) hb
    subst this
    exact h5 x hx (by rw [hq]; exact List.mem_map_of_mem (f := Prod.fst) hcm)
  · intro p hp hne q hq hb
    exact hne (by rw [hq, own q (hq ▸ (h8 p hp).1) hb])
  · intro p hp q hq hb
    have := own q ((h8 p hp).2 _ (mem_tsyms.mp hq)) hb
    subst this
    exact hs.weights p hp (mem_tsyms.mp hq)

/-- both first-order conditions, for a residual `raw` which is `σ` times `rhs - lhs` -/
theorem cd_both (R : Rewriter) (B : Block) (k : Nat) (con : SEq) (L : SExpr) (ms) (mu : TSym) (df : SExpr) (m : CDMatch)
    (c : TSym) (a raw : SExpr) (σ : ℝ) (hσ : σ * σ = 1)
    (hraw : ∀ P t, raw.val P t = σ * (con.rhs.val P t - con.lhs.val P t))
    (hB : OneConstraint B k con L ms mu) (hm : matchCDResidual R k raw = some m)
    (hin : dget m.inputs (.tv c) = some a)
    (hR : ∀ s ∈ (R.expand raw).syms, s ∈ con.syms) (hs : SimpleInput con m.inputs mu c)
    (hss : ∀ s ∈ L.tsyms, s.idx ≠ .ss) (hdf : df.tsyms = []) :
    ∃ g h, B.computeFoc .generic ms L df c = .ok g ∧ B.computeFoc (.cobbDouglas m) ms L df c = .ok h ∧
      ∀ (P : RealPath) (t : Int), 0 < (Sym.tv c).value P t → con.lhs.val P t = con.rhs.val P t →
        con.lhs.Smooth P t → con.rhs.Smooth P t →
        (∀ᶠ y in nhds ((Sym.tv c).value P t), (R.expand raw).val (P.set t c y) t = raw.val (P.set t c y) t) →
        h.val P t = g.val P t + (1 - σ) * ((Sym.tv mu).value P t * (a.val P t * m.Y.value P t / (Sym.tv c).value P t)) := by
  obtain ⟨o, ho, rfl⟩ := lag_single hB
  obtain ⟨i, hc⟩ := hs.dated
  obtain ⟨f1, f2, f3, f4⟩ := cd_free hm hin hR hs
  obtain ⟨g1, g2, g3, -, -, -, -, -⟩ := cd_spec hm
  have hown : ∀ s ∈ (SExpr.mul (.num (-1)) (.mul (.sym (.tv mu)) (con.lhs.sub con.rhs))).tsyms, s.base = c.base → s = c := by
    intro s hs' hb
    have := mem_tsyms.mp hs'
    simp [SExpr.syms, SExpr.sub] at this
    rcases this with rfl | h | h
    · exact absurd hb hs.multiplier
    · exact hs.ownDate s (by simp [mem_tsyms, h]) hb
    · exact hs.ownDate s (by simp [mem_tsyms, h]) hb
  obtain ⟨od, g, e1, e2, e3⟩ := dtt_add o _ df c i hc (fun s h => hss s (by rw [tsyms_add]; simp [h]))
    (fun s h => hss s (by rw [tsyms_add]; simp [h])) hdf hown
  refine ⟨g, _, by simp [Block.computeFoc, dttB, e2], by
    simp [Block.computeFoc, Block.closedFoc, closedMultiplier, g1, hB.multiplier, ho, dttB, e1, hin]; rfl, ?_⟩
  intro P t hpos hcon hl hr hfaith
  have hset : ∀ y, P.set t c y = P.bump c.base c.asm (t + i) y := by intro y; simp [RealPath.set, hc]
  have hY : ∀ y, m.Y.value (P.bump c.base c.asm (t + i) y) t = m.Y.value P t := fun y => value_bump_ne _ _ _ _ _ _ f1
  have hd := cd_marginal P c i t hc m.A m.inputs a (dget_mem hin) g3 f2 f3 f4 hpos
  have hd2 : HasDerivAt (fun y => σ * (cobbDouglas m.A m.inputs (P.bump c.base c.asm (t + i) y) t - m.Y.value P t))
      (σ * (a.val P t * cobbDouglas m.A m.inputs P t / (Sym.tv c).value P t)) ((Sym.tv c).value P t) :=
    (hd.sub_const _).const_mul σ
  have hu := diff_unique P c i t hc con.lhs con.rhs hl hr _ _ hd2 (by
    filter_upwards [hfaith] with y hy
    rw [hset, hraw, g2, hY] at hy
    rw [hy, ← mul_assoc, hσ, one_mul])
  have hout : cobbDouglas m.A m.inputs P t = m.Y.value P t := by
    have hself := hfaith.self_of_nhds
    have hv : (Sym.tv c).value P t = P.path c.base c.asm (t + i) := by
      simp [Sym.value, Valuation.symAt, hc, RealPath.val]
    rw [hset, hv, bump_self, hraw, g2, hcon] at hself
    linarith
  rw [e3, constraint_term_diff P t c mu hs.multiplier, hu, hout]
  simp only [val_add, val_div, val_mul, val_sym]
  ring

/-! ### CES -/

theorem mulAll_val (P : RealPath) (t : Int) (fs : List SExpr) : (mulAll fs).val P t = (fs.map fun f => f.val P t).prod := by
  induction fs with
  | nil => simp [mulAll]
  | cons f fs ih => simp [mulAll, ih]

theorem mulAll_syms (fs : List SExpr) (U : List Sym) (h : ∀ f ∈ fs, ∀ s ∈ f.syms, s ∈ U) : ∀ s ∈ (mulAll fs).syms, s ∈ U := by
  induction fs with
  | nil => simp [mulAll, SExpr.syms]
  | cons f fs ih =>
    intro s hs
    simp only [mulAll, SExpr.syms, List.mem_append] at hs
    rcases hs with hs | hs
    · exact h f (by simp) s hs
    · exact ih (fun f hf => h f (by simp [hf])) s hs

/-- value of an optional bracket power -/
noncomputable def pv (p : Option (SExpr × SExpr)) (P : RealPath) (t : Int) : ℝ :=
  match p with
  | some (b, e) => b.val P t ^ e.val P t
  | none => 1

/-- value of an optional input power -/
noncomputable def xv (s : SExpr) (x : Option Sym) (P : RealPath) (t : Int) : ℝ :=
  match x with
  | some v => v.value P t ^ s.val P t
  | none => 1

theorem outer_spec (fs : List SExpr) (A A' p p') (h : cesOuterLoop fs A p = some (A', p')) :
    (∀ P t, (fs.map fun a => a.val P t).prod * (tfp A P t * pv p P t)
      = tfp A' P t * pv p' P t) ∧
    (∀ U : List Sym, (∀ f ∈ fs, ∀ s ∈ f.syms, s ∈ U) → (∀ a ∈ A, a ∈ U) → (∀ q ∈ p, ∀ s ∈ q.1.syms, s ∈ U) →
      (∀ a ∈ A', a ∈ U) ∧ (∀ q ∈ p', ∀ s ∈ q.1.syms, s ∈ U)) ∧
    (∀ E : List SExpr, (∀ f ∈ fs, ∀ s ∈ f.exponents, s ∈ E) → (∀ q ∈ p, q.2 ∈ E ∧ ∀ s ∈ q.1.exponents, s ∈ E) →
      ∀ q ∈ p', q.2 ∈ E ∧ ∀ s ∈ q.1.exponents, s ∈ E) := by
  induction fs generalizing A p with
  | nil => simp [cesOuterLoop] at h; obtain ⟨rfl, rfl⟩ := h; exact ⟨by simp, fun U _ h2 h3 => ⟨h2, h3⟩, fun E _ h2 => h2⟩
  | cons f fs ih =>
    unfold cesOuterLoop at h
    split at h
    · simp at *
    · rename_i heq
      cases heq
      split at h
      · cases h
      · obtain ⟨h1, h2, h3⟩ := ih _ _ h
        refine ⟨fun P t => ?_, fun U hf hA hi => h2 U (fun f hf' => hf f (by simp [hf'])) ?_ hi,
          fun E hf hp => h3 E (fun f hf' => hf f (by simp [hf'])) hp⟩
        · rw [← h1]; simp [tfp, val_sym]; ring
        · intro a ha
          simp at ha; subst ha
          exact hf _ (List.mem_cons_self ..) _ (by simp [SExpr.syms])
    · rename_i heq
      cases heq
      split at h
      · obtain ⟨h1, h2, h3⟩ := ih _ _ h
        refine ⟨fun P t => ?_, fun U hf hA hi => h2 U (fun f hf' => hf f (by simp [hf'])) hA ?_,
          fun E hf hp => h3 E (fun f hf' => hf f (by simp [hf'])) ?_⟩
        · rw [← h1]; simp [pv]; ring
        · intro q hq
          simp at hq; subst hq
          intro s hs
          exact hf _ (List.mem_cons_self ..) s (by rw [SExpr.syms]; simp [hs])
        · intro q hq
          simp at hq; subst hq
          have := hf _ (List.mem_cons_self ..)
          refine ⟨this _ (by simp [SExpr.exponents]), fun s hs => this s (by rw [SExpr.exponents]; simp [hs])⟩
      · cases h
    · cases h

theorem cesOuter_spec {e inner oe : SExpr} {A} (h : cesOuter e = some (A, inner, oe)) :
    (∀ P t, e.val P t = tfp A P t * inner.val P t ^ oe.val P t) ∧ (∀ a ∈ A, a ∈ e.syms) ∧ (∀ s ∈ inner.syms, s ∈ e.syms) ∧
    oe ∈ e.exponents ∧ (∀ s ∈ inner.exponents, s ∈ e.exponents) := by
  unfold cesOuter at h
  split at h
  · rename_i A' inner' oe' hl
    cases h
    obtain ⟨h1, h2, h3⟩ := outer_spec _ _ _ _ _ hl
    obtain ⟨h4, h5⟩ := h2 e.syms (factors_syms e) (by simp) (by simp)
    have h6 := h3 e.exponents (factors_exps e) (by simp) (inner, oe) rfl
    refine ⟨fun P t => ?_, h4, h5 (inner, oe) rfl, h6.1, h6.2⟩
    have := h1 P t
    rw [factors_val]
    simpa [tfp, pv] using this
  · cases h

theorem cesTermLoop_spec (R : Rewriter) (s : SExpr) (fs : List SExpr) (x x' sh sh') (h : cesTermLoop R s fs x sh = some (x', sh')) :
    (∀ P t, (∀ f ∈ fs, ∀ e ∈ f.exponents, R.isZero (e.sub s) = true → e.val P t = s.val P t) →
      (fs.map fun a => a.val P t).prod * (xv s x P t * (mulAll sh).val P t)
      = xv s x' P t * (mulAll sh').val P t) ∧
    (∀ U : List Sym, (∀ f ∈ fs, ∀ s ∈ f.syms, s ∈ U) → (∀ a ∈ x, a ∈ U) → (∀ f ∈ sh, ∀ s ∈ f.syms, s ∈ U) →
      (∀ a ∈ x', a ∈ U) ∧ (∀ f ∈ sh', ∀ s ∈ f.syms, s ∈ U)) := by
  induction fs generalizing x sh with
  | nil => simp [cesTermLoop] at h; obtain ⟨rfl, rfl⟩ := h; exact ⟨by simp, fun U _ h2 h3 => ⟨h2, h3⟩⟩
  | cons f fs ih =>
    -- a factor which goes to the share
    have share : cesTermLoop R s fs x (sh ++ [f]) = some (x', sh') →
        (∀ P t, (∀ g ∈ f :: fs, ∀ e ∈ g.exponents, R.isZero (e.sub s) = true → e.val P t = s.val P t) →
          ((f :: fs).map fun a => a.val P t).prod * (xv s x P t * (mulAll sh).val P t) = xv s x' P t * (mulAll sh').val P t) ∧
        (∀ U : List Sym, (∀ g ∈ f :: fs, ∀ s ∈ g.syms, s ∈ U) → (∀ a ∈ x, a ∈ U) → (∀ f ∈ sh, ∀ s ∈ f.syms, s ∈ U) →
          (∀ a ∈ x', a ∈ U) ∧ (∀ f ∈ sh', ∀ s ∈ f.syms, s ∈ U)) := fun h => by
      obtain ⟨h1, h2⟩ := ih _ _ h
      refine ⟨fun P t he => ?_, fun U hf hA hi => h2 U (fun f hf' => hf f (by simp [hf'])) hA ?_⟩
      · rw [← h1 P t (fun f hf => he f (by simp [hf]))]
        simp [mulAll_val]; ring
      · intro g hg
        rcases List.mem_append.mp hg with hg | hg
        · exact hi g hg
        · simp at hg; subst hg; exact hf _ (List.mem_cons_self ..)
    unfold cesTermLoop at h
    split at h
    · simp at *
    · rename_i heq
      cases heq
      split at h
      · rename_i hz
        split at h
        · obtain ⟨h1, h2⟩ := ih _ _ h
          refine ⟨fun P t he => ?_, fun U hf hA hi => h2 U (fun f hf' => hf f (by simp [hf'])) ?_ hi⟩
          · rw [← h1 P t (fun f hf => he f (by simp [hf]))]
            have := he _ (List.mem_cons_self ..) _ (by simp [SExpr.exponents]) hz
            simp [val_sym, this, xv]; ring
          · intro a ha
            simp at ha; subst ha
            exact hf _ (List.mem_cons_self ..) _ (by simp [SExpr.syms])
        · cases h
      · exact share h
    · rename_i heq
      cases heq
      exact share h

theorem cesTerm_spec {R : Rewriter} {s term : SExpr} {p : Sym × SExpr} (h : cesTerm R s term = some p) :
    (∀ P t, (∀ e ∈ term.exponents, R.isZero (e.sub s) = true → e.val P t = s.val P t) →
      term.val P t = p.2.val P t * p.1.value P t ^ s.val P t) ∧ p.1 ∈ term.syms ∧ ∀ q ∈ p.2.syms, q ∈ term.syms := by
  unfold cesTerm at h
  split at h
  · rename_i x sh hl
    cases h
    obtain ⟨h1, h2⟩ := cesTermLoop_spec _ _ _ _ _ _ _ hl
    obtain ⟨h3, h4⟩ := h2 term.syms (factors_syms term) (by simp) (by simp)
    refine ⟨fun P t he => ?_, h3 x rfl, mulAll_syms _ _ h4⟩
    have := h1 P t (fun f hf e he' => he e (factors_exps term f hf e he'))
    rw [factors_val]
    simp only [mulAll_val, List.map_nil, List.prod_nil, mul_one] at this
    rw [mulAll_val]
    simp only [xv, mul_one] at this
    rw [this]; ring
  · cases h

theorem candidates_mem (R : Rewriter) (fs : List SExpr) (E : List SExpr) (h : ∀ f ∈ fs, ∀ e ∈ f.exponents, e ∈ E) :
    ∀ c ∈ cesCandidates R fs, c ∈ E := by
  unfold cesCandidates
  have key : ∀ (fs : List SExpr) (acc : List SExpr), (∀ f ∈ fs, ∀ e ∈ f.exponents, e ∈ E) → (∀ c ∈ acc, c ∈ E) →
      ∀ c ∈ fs.foldl (fun cs f => match f with
        | .pow _ e => if cs.any fun c => R.isZero (e.sub c) then cs else cs ++ [e]
        | _ => cs) acc, c ∈ E := by
    intro fs
    induction fs with
    | nil => intro acc _ h2; exact h2
    | cons f fs ih =>
      intro acc h1 h2
      rw [List.foldl_cons]
      apply ih _ (fun f hf => h1 f (by simp [hf]))
      split
      · split
        · exact h2
        · intro c hc
          rcases List.mem_append.mp hc with hc | hc
          · exact h2 c hc
          · simp at hc; subst hc
            exact h1 _ (List.mem_cons_self ..) _ (by simp [SExpr.exponents])
      · exact h2
  exact key fs [] h (by simp)

theorem mapM_terms {R : Rewriter} {s : SExpr} {terms : List SExpr} {ins} (h : terms.mapM (cesTerm R s) = some ins) :
    List.Forall₂ (fun e p => cesTerm R s e = some p) terms ins := by
  induction terms generalizing ins with
  | nil => simp at h; subst h; exact .nil
  | cons e es ih =>
    rw [List.mapM_cons] at h
    cases he : cesTerm R s e with
    | none => rw [he] at h; cases h
    | some p =>
      rw [he] at h
      cases hes : es.mapM (cesTerm R s) with
      | none => rw [hes] at h; cases h
      | some ps => rw [hes] at h; cases h; exact .cons he (ih hes)

theorem cesInner_spec {R : Rewriter} {inner oe s : SExpr} {ins} (h : cesInner R inner oe = some (s, ins)) :
    s ∈ inner.exponents ∧ R.isZero ((SExpr.mul oe s).sub (.num 1)) = true ∧ (ins.map Prod.fst).Nodup ∧
    (∀ P t, (∀ e ∈ inner.exponents, R.isZero (e.sub s) = true → e.val P t = s.val P t) →
      inner.val P t = cesBracket (s.val P t) ins P t) ∧
    (∀ p ∈ ins, p.1 ∈ inner.syms ∧ ∀ q ∈ p.2.syms, q ∈ inner.syms) := by
  unfold cesInner at h
  split at h
  · rename_i s' hc
    have hmem : s' ∈ [s'] := by simp
    rw [← hc, List.mem_filter] at hmem
    split at h
    · cases h
    · rename_i ins' hm
      split at h
      · rename_i hn
        cases h
        have hall := mapM_terms hm
        refine ⟨candidates_mem R _ _ ?_ _ hmem.1, hmem.2, hn, fun P t he => ?_, ?_⟩
        · intro f hf e he
          obtain ⟨a, ha, hfa⟩ := List.mem_flatMap.mp hf
          exact summands_exps inner a ha e (factors_exps a f hfa e he)
        · rw [summands_val, cesBracket]
          have hsub : ∀ a ∈ inner.summands, ∀ e ∈ a.exponents, e ∈ inner.exponents := summands_exps inner
          clear hc hm hn hmem
          generalize inner.summands = l at hall hsub
          induction hall with
          | nil => rfl
          | cons hp _ ih =>
            simp only [List.map_cons, List.sum_cons]
            rw [ih (fun a ha => hsub a (by simp [ha])), (cesTerm_spec hp).1 P t (fun e he' => he e (hsub _ (by simp) e he'))]
        · have hsub : ∀ a ∈ inner.summands, ∀ e ∈ a.syms, e ∈ inner.syms := summands_syms inner
          clear hc hm hn hmem
          generalize inner.summands = l at hall hsub
          induction hall with
          | nil => simp
          | cons hp _ ih =>
            intro p hp'
            rcases List.mem_cons.mp hp' with rfl | hp'
            · exact ⟨hsub _ (by simp) _ (cesTerm_spec hp).2.1, fun q hq => hsub _ (by simp) _ ((cesTerm_spec hp).2.2 q hq)⟩
            · exact ih (fun a ha => hsub a (by simp [ha])) p hp'
      · cases h
  · cases h

theorem ces_spec {R : Rewriter} {idx : Nat} {raw : SExpr} {m : CESMatch} (h : matchCESResidual R idx raw = some m) :
    m.idx = idx ∧
    (∀ P t, R.FaithfulCES raw P t → m.s.val P t ≠ 0 ∧
      raw.val P t = cesOutput m.A (m.s.val P t) m.inputs P t - m.Y.value P t) ∧
    (m.inputs.map Prod.fst).Nodup ∧ m.Y ∉ m.inputs.map Prod.fst ∧ (∀ a ∈ m.A, a ∉ m.inputs.map Prod.fst) ∧
    m.Y ∈ (R.auto raw).syms ∧ (∀ a ∈ m.A, a ∈ (R.auto raw).syms) ∧
    (∀ p ∈ m.inputs, p.1 ∈ (R.auto raw).syms ∧ ∀ s ∈ p.2.syms, s ∈ (R.auto raw).syms) ∧
    m.s ∈ (R.auto raw).exponents := by
  unfold matchCESResidual at h
  split at h
  · cases h
  · rename_i Y prod hs
    obtain ⟨s1, s2, s3, s4⟩ := split_spec hs
    split at h
    · cases h
    · rename_i A inner oe ho
      obtain ⟨o1, o2, o3, o4, o5⟩ := cesOuter_spec ho
      split at h
      · cases h
      · rename_i s ins hi
        obtain ⟨i1, i2, i3, i4, i5⟩ := cesInner_spec hi
        split at h
        · rename_i hn
          cases h
          rw [List.nodup_cons, List.nodup_append] at hn
          refine ⟨rfl, fun P t hf => ?_, hn.2.2.1, fun hh => hn.1 (by simp at hh ⊢; exact .inr hh), ?_, s2,
            fun a ha => s3 a (o2 a ha), fun p hp => ⟨s3 _ (o3 _ (i5 p hp).1), fun s hs => s3 s (o3 _ ((i5 p hp).2 s hs))⟩,
            s4 _ (o5 _ i1)⟩
          · have hr := hf.recip oe (s4 _ o4) s (s4 _ (o5 _ i1)) i2
            have hs0 : s.val P t ≠ 0 := by intro h0; rw [h0, mul_zero] at hr; exact zero_ne_one hr
            refine ⟨hs0, ?_⟩
            rw [← hf.value, s1, o1, i4 P t (fun e he hz => hf.same e (s4 _ (o5 _ he)) s (s4 _ (o5 _ i1)) hz), cesOutput]
            have : oe.val P t = 1 / s.val P t := by field_simp; linarith
            rw [this]
          · intro a ha hm
            exact hn.2.2.2 a (by simpa using ha) a hm rfl
        · cases h

theorem sum_bump (P : RealPath) (c : TSym) (i t : Int) (hc : c.idx = .t i) (s : ℝ) (ins : List (Sym × SExpr)) (share : SExpr)
    (hmem : (Sym.tv c, share) ∈ ins) (hn : (ins.map Prod.fst).Nodup)
    (hb : ∀ p ∈ ins, p.1 ≠ .tv c → ∀ q, p.1 = .tv q → q.base ≠ c.base)
    (he : ∀ p ∈ ins, ∀ q ∈ p.2.tsyms, q.base ≠ c.base) :
    ∃ K : ℝ, ∀ y, cesBracket s ins (P.bump c.base c.asm (t + i) y) t = share.val P t * y ^ s + K := by
  induction ins with
  | nil => simp at hmem
  | cons p ins ih =>
    rw [List.map_cons, List.nodup_cons] at hn
    rcases List.mem_cons.mp hmem with h | h
    · subst h
      refine ⟨cesBracket s ins P t, fun y => ?_⟩
      have hrest : cesBracket s ins (P.bump c.base c.asm (t + i) y) t = cesBracket s ins P t := by
        unfold cesBracket
        congr 1
        apply List.map_congr_left
        intro p hp
        rw [value_bump_ne _ _ _ _ _ _ (hb p (by simp [hp]) (fun h => hn.1 (by have := List.mem_map_of_mem (f := Prod.fst) hp; rw [h] at this; exact this))),
          val_bump_free _ _ _ _ _ _ (he p (by simp [hp]))]
      rw [← hrest]
      simp only [cesBracket, List.map_cons, List.sum_cons]
      rw [value_bump_self P c i t hc, val_bump_free _ _ _ _ _ _ (he _ (List.mem_cons_self ..))]
    · obtain ⟨K, hK⟩ := ih h hn.2 (fun p hp => hb p (by simp [hp])) (fun p hp => he p (by simp [hp]))
      have hp : p.1 ≠ .tv c := fun hh => hn.1 (by rw [hh]; exact List.mem_map_of_mem (f := Prod.fst) h)
      refine ⟨p.2.val P t * p.1.value P t ^ s + K, fun y => ?_⟩
      have := hK y
      simp only [cesBracket, List.map_cons, List.sum_cons] at this ⊢
      rw [this, value_bump_ne _ _ _ _ _ _ (hb p (by simp) hp), val_bump_free _ _ _ _ _ _ (he p (by simp))]
      ring

/-- the marginal product of a CES function -/
theorem ces_marginal (P : RealPath) (c : TSym) (i t : Int) (hc : c.idx = .t i) (A : Option Sym) (s : ℝ) (hs : s ≠ 0)
    (ins : List (Sym × SExpr)) (share : SExpr)
    (hmem : (Sym.tv c, share) ∈ ins) (hn : (ins.map Prod.fst).Nodup)
    (hA : ∀ a ∈ A, ∀ q, a = .tv q → q.base ≠ c.base)
    (hb : ∀ p ∈ ins, p.1 ≠ .tv c → ∀ q, p.1 = .tv q → q.base ≠ c.base)
    (he : ∀ p ∈ ins, ∀ q ∈ p.2.tsyms, q.base ≠ c.base)
    (hpos : 0 < (Sym.tv c).value P t) (hApos : 0 < tfp A P t) (hBpos : 0 < cesBracket s ins P t) :
    HasDerivAt (fun y => cesOutput A s ins (P.bump c.base c.asm (t + i) y) t)
      (share.val P t * tfp A P t ^ s * (cesOutput A s ins P t / (Sym.tv c).value P t) ^ (1 - s)) ((Sym.tv c).value P t) := by
  obtain ⟨K, hK⟩ := sum_bump P c i t hc s ins share hmem hn hb he
  have hv : (Sym.tv c).value P t = P.path c.base c.asm (t + i) := by
    simp [Sym.value, Valuation.symAt, hc, RealPath.val]
  have hfun : (fun y => cesOutput A s ins (P.bump c.base c.asm (t + i) y) t) =
      fun y => tfp A P t * (share.val P t * y ^ s + K) ^ (1 / s) := by
    funext y
    rw [cesOutput, hK, tfp_bump _ _ _ _ _ _ hA]
  have hval : cesBracket s ins P t = share.val P t * (Sym.tv c).value P t ^ s + K := by
    have := hK ((Sym.tv c).value P t)
    simp only [hv, bump_self] at this
    rw [hv, this]
  rw [hfun]
  have h0 := Real.hasDerivAt_rpow_const (x := (Sym.tv c).value P t) (p := s) (.inl hpos.ne')
  have h1 := ((h0.const_mul (share.val P t)).add_const K).rpow_const (p := 1 / s) (.inl (by rw [← hval]; exact hBpos.ne'))
  refine (h1.const_mul (tfp A P t)).congr_deriv ?_
  rw [← hval, cesOutput]
  set X := (Sym.tv c).value P t
  set G := cesBracket s ins P t
  set a := tfp A P t
  rw [Real.div_rpow (by positivity) hpos.le, Real.mul_rpow hApos.le (by positivity), ← Real.rpow_mul hBpos.le,
    Real.rpow_sub hApos, Real.rpow_sub_one hpos.ne', Real.rpow_sub hpos]
  rw [show 1 / s * (1 - s) = 1 / s - 1 by field_simp]
  simp only [Real.rpow_one]
  have : a ^ s ≠ 0 := (Real.rpow_pos_of_pos hApos s).ne'
  have : X ^ s ≠ 0 := (Real.rpow_pos_of_pos hpos s).ne'
  field_simp

theorem exponents_syms (e : SExpr) : ∀ a ∈ e.exponents, ∀ s ∈ a.syms, s ∈ e.syms := by
  induction e with
  | num q => simp [SExpr.exponents]
  | sym s => simp [SExpr.exponents]
  | exp a ih => simpa [SExpr.exponents, SExpr.syms] using ih
  | log a ih => simpa [SExpr.exponents, SExpr.syms] using ih
  | add a b iha ihb => intro x hx s hs; simp [SExpr.exponents, SExpr.syms] at hx ⊢; grind
  | mul a b iha ihb => intro x hx s hs; simp [SExpr.exponents, SExpr.syms] at hx ⊢; grind
  | pow a b iha ihb => intro x hx s hs; simp [SExpr.exponents, SExpr.syms] at hx ⊢; grind

theorem ces_free {R : Rewriter} {k : Nat} {con : SEq} {raw : SExpr} {m : CESMatch} {mu c : TSym} {a : SExpr}
    (hm : matchCESResidual R k raw = some m) (hin : dget m.inputs (.tv c) = some a)
    (hR : ∀ s ∈ (R.auto raw).syms, s ∈ con.syms) (hs : SimpleInput con m.inputs mu c) (hsf : Sym.tv c ∉ m.s.syms) :
    (∀ q, m.Y = .tv q → q.base ≠ c.base) ∧ (∀ a ∈ m.A, ∀ q, a = .tv q → q.base ≠ c.base) ∧
    (∀ p ∈ m.inputs, p.1 ≠ .tv c → ∀ q, p.1 = .tv q → q.base ≠ c.base) ∧
    (∀ p ∈ m.inputs, ∀ q ∈ p.2.tsyms, q.base ≠ c.base) ∧ (∀ q ∈ m.s.tsyms, q.base ≠ c.base) := by
  obtain ⟨-, -, h3, h4, h5, h6, h7, h8, h9⟩ := ces_spec hm
  have hcm := dget_mem hin
  have own : ∀ q, Sym.tv q ∈ (R.auto raw).syms → q.base = c.base → q = c := by
    intro q hq hb
    refine hs.ownDate q ?_ hb
    have := hR _ hq
    rw [SEq.syms, List.mem_append] at this
    rw [List.mem_append, mem_tsyms, mem_tsyms]; exact this
  refine ⟨?_, ?_, ?_, ?_, ?_⟩
  · intro q hq hb
    have := own q (hq ▸ h6) hb
    subst this
    exact h4 (by rw [hq]; exact List.mem_map_of_mem (f := Prod.fst) hcm)
  · intro x hx q hq hb
    have := own q (hq ▸ h7 x hx) hb
    subst this
    exact h5 x hx (by rw [hq]; exact List.mem_map_of_mem (f := Prod.fst) hcm)
  · intro p hp hne q hq hb
    exact hne (by rw [hq, own q (hq ▸ (h8 p hp).1) hb])
  · intro p hp q hq hb
    have := own q ((h8 p hp).2 _ (mem_tsyms.mp hq)) hb
    subst this
    exact hs.weights p hp (mem_tsyms.mp hq)
  · intro q hq hb
    have := own q (exponents_syms _ _ h9 _ (mem_tsyms.mp hq)) hb
    subst this
    exact hsf (mem_tsyms.mp hq)

/-- both first-order conditions, for a residual `raw` which is `σ` times `rhs - lhs` -/
theorem ces_both (R : Rewriter) (B : Block) (k : Nat) (con : SEq) (L : SExpr) (ms) (mu : TSym) (df : SExpr) (m : CESMatch)
    (c : TSym) (a raw : SExpr) (σ : ℝ) (hσ : σ * σ = 1)
    (hraw : ∀ P t, raw.val P t = σ * (con.rhs.val P t - con.lhs.val P t))
    (hB : OneConstraint B k con L ms mu) (hm : matchCESResidual R k raw = some m)
    (hin : dget m.inputs (.tv c) = some a)
    (hR : ∀ s ∈ (R.auto raw).syms, s ∈ con.syms) (hs : SimpleInput con m.inputs mu c) (hsf : Sym.tv c ∉ m.s.syms)
    (hss : ∀ s ∈ L.tsyms, s.idx ≠ .ss) (hdf : df.tsyms = []) :
    ∃ g h, B.computeFoc .generic ms L df c = .ok g ∧ B.computeFoc (.ces m) ms L df c = .ok h ∧
      ∀ (P : RealPath) (t : Int), 0 < (Sym.tv c).value P t → 0 < tfp m.A P t → 0 < cesBracket (m.s.val P t) m.inputs P t →
        con.lhs.val P t = con.rhs.val P t → con.lhs.Smooth P t → con.rhs.Smooth P t →
        (∀ᶠ y in nhds ((Sym.tv c).value P t), R.FaithfulCES raw (P.set t c y) t) →
        h.val P t = g.val P t + (1 - σ) * ((Sym.tv mu).value P t *
          (a.val P t * tfp m.A P t ^ m.s.val P t * (m.Y.value P t / (Sym.tv c).value P t) ^ (1 - m.s.val P t))) := by
  obtain ⟨o, ho, rfl⟩ := lag_single hB
  obtain ⟨i, hc⟩ := hs.dated
  obtain ⟨f1, f2, f3, f4, f5⟩ := ces_free hm hin hR hs hsf
  obtain ⟨g1, g2, g3, -, -, -, -, -, -⟩ := ces_spec hm
  have hown : ∀ s ∈ (SExpr.mul (.num (-1)) (.mul (.sym (.tv mu)) (con.lhs.sub con.rhs))).tsyms, s.base = c.base → s = c := by
    intro s hs' hb
    have := mem_tsyms.mp hs'
    simp [SExpr.syms, SExpr.sub] at this
    rcases this with rfl | h | h
    · exact absurd hb hs.multiplier
    · exact hs.ownDate s (by simp [mem_tsyms, h]) hb
    · exact hs.ownDate s (by simp [mem_tsyms, h]) hb
  obtain ⟨od, g, e1, e2, e3⟩ := dtt_add o _ df c i hc (fun s h => hss s (by rw [tsyms_add]; simp [h]))
    (fun s h => hss s (by rw [tsyms_add]; simp [h])) hdf hown
  refine ⟨g, _, by simp [Block.computeFoc, dttB, e2], by
    simp [Block.computeFoc, Block.closedFoc, closedMultiplier, g1, hB.multiplier, ho, dttB, e1, hin]; rfl, ?_⟩
  intro P t hpos hApos hBpos hcon hl hr hfaith
  have hset : ∀ y, P.set t c y = P.bump c.base c.asm (t + i) y := by intro y; simp [RealPath.set, hc]
  have hY : ∀ y, m.Y.value (P.bump c.base c.asm (t + i) y) t = m.Y.value P t := fun y => value_bump_ne _ _ _ _ _ _ f1
  have hS : ∀ y, m.s.val (P.bump c.base c.asm (t + i) y) t = m.s.val P t := fun y => val_bump_free _ _ _ _ _ _ f5
  have hv : (Sym.tv c).value P t = P.path c.base c.asm (t + i) := by
    simp [Sym.value, Valuation.symAt, hc, RealPath.val]
  have hself := hfaith.self_of_nhds
  rw [hset, hv, bump_self] at hself
  obtain ⟨hs0, hself⟩ := g2 P t hself
  have hd := ces_marginal P c i t hc m.A (m.s.val P t) hs0 m.inputs a (dget_mem hin) g3 f2 f3 f4 hpos hApos hBpos
  have hd2 := (hd.sub_const (m.Y.value P t)).const_mul σ
  have hu := diff_unique P c i t hc con.lhs con.rhs hl hr _ _ hd2 (by
    filter_upwards [hfaith] with y hy
    rw [hset] at hy
    have hy := (g2 _ _ hy).2
    rw [hraw, hY, hS] at hy
    rw [← hy, ← mul_assoc, hσ, one_mul])
  have hout : cesOutput m.A (m.s.val P t) m.inputs P t = m.Y.value P t := by
    rw [hraw, hcon] at hself
    linarith
  rw [e3, constraint_term_diff P t c mu hs.multiplier, hu, hout]
  have hprod : (productivity m.A m.s).val P t = tfp m.A P t ^ m.s.val P t := by
    cases m.A <;> simp [productivity, tfp, val_sym]
  simp only [val_add, val_div, val_mul, val_pow, val_sub, val_num, val_sym, hprod]
  push_cast
  ring

end Clf

open Clf

/-- **C24** (partial) the closed-form condition of a recognised Cobb-Douglas block has the value of the derivative of the Lagrangian,
wherever the constraint holds and the input is positive, for any number of inputs and any exponents. `R` is sympy's rewriting:
all that is asked is that `expand` adds no symbol and keeps the value of the constraint near the given path. Missing (and false,
see `C24_flipped_violated`, `C24_definitions_violated`, `C24_lagged_input_violated`, `C24_unrecorded_raises`): output written on
the right-hand side, blocks with definitions, inputs which also occur at another date. -/
theorem C24_closed_form_partial (R : Rewriter) (B : Block) (k : Nat) (con : SEq) (L : SExpr) (ms) (mu : TSym) (df : SExpr) (m : CDMatch)
    (c : TSym) (a : SExpr)
    (hB : OneConstraint B k con L ms mu) (hk : dispatchKind R B = .cobbDouglas m)
    (hor : (matchCDResidual R k (con.rhs.sub con.lhs)).isSome)
    (hin : dget m.inputs (.tv c) = some a)
    (hR : ∀ s ∈ (R.expand (con.rhs.sub con.lhs)).syms, s ∈ con.syms) (hs : SimpleInput con m.inputs mu c)
    (hss : ∀ s ∈ L.tsyms, s.idx ≠ .ss) (hdf : df.tsyms = []) :
    ∃ g h, B.computeFoc .generic ms L df c = .ok g ∧ B.computeFoc (dispatchKind R B) ms L df c = .ok h ∧
      ∀ (P : RealPath) (t : Int), 0 < (Sym.tv c).value P t → con.lhs.val P t = con.rhs.val P t →
        con.lhs.Smooth P t → con.rhs.Smooth P t →
        (∀ᶠ y in nhds ((Sym.tv c).value P t),
          (R.expand (con.rhs.sub con.lhs)).val (P.set t c y) t = (con.rhs.sub con.lhs).val (P.set t c y) t) →
        h.val P t = g.val P t := by
  rw [hk]
  have hm : matchCDResidual R k (con.rhs.sub con.lhs) = some m := by
    unfold dispatchKind at hk
    split at hk
    · cases hk
    · split at hk
      · cases hk
      · split at hk
        · rename_i m' hm'
          cases hk
          rw [hB.constraint] at hm'
          obtain ⟨m2, h2⟩ := Option.isSome_iff_exists.mp hor
          simp only [matchCD, h2] at hm'
          rw [h2]; exact hm'
        · cases hk
  obtain ⟨g, h, h1, h2, h3⟩ := cd_both R B k con L ms mu df m c a (con.rhs.sub con.lhs) 1 (by norm_num)
    (by intro P t; simp) hB hm hin hR hs hss hdf
  refine ⟨g, h, h1, h2, ?_⟩
  intro P t a1 a2 a3 a4 a5
  rw [h3 P t a1 a2 a3 a4 a5]; ring

/-- **C24** is violated when output is written on the right-hand side (`A * K^a * L^b = Y`): the matcher accepts it, but the
Lagrangian contains the constraint with the opposite sign. The closed form differs from the derivative of the Lagrangian by
`2 * mu * a * Y / x`. -/
theorem C24_flipped_violated (R : Rewriter) (B : Block) (k : Nat) (con : SEq) (L : SExpr) (ms) (mu : TSym) (df : SExpr) (m : CDMatch)
    (c : TSym) (a : SExpr)
    (hB : OneConstraint B k con L ms mu) (hk : dispatchKind R B = .cobbDouglas m)
    (hor : matchCDResidual R k (con.rhs.sub con.lhs) = none)
    (hin : dget m.inputs (.tv c) = some a)
    (hR : ∀ s ∈ (R.expand (con.lhs.sub con.rhs)).syms, s ∈ con.syms) (hs : SimpleInput con m.inputs mu c)
    (hss : ∀ s ∈ L.tsyms, s.idx ≠ .ss) (hdf : df.tsyms = []) :
    ∃ g h, B.computeFoc .generic ms L df c = .ok g ∧ B.computeFoc (dispatchKind R B) ms L df c = .ok h ∧
      ∀ (P : RealPath) (t : Int), 0 < (Sym.tv c).value P t → con.lhs.val P t = con.rhs.val P t →
        con.lhs.Smooth P t → con.rhs.Smooth P t →
        (∀ᶠ y in nhds ((Sym.tv c).value P t),
          (R.expand (con.lhs.sub con.rhs)).val (P.set t c y) t = (con.lhs.sub con.rhs).val (P.set t c y) t) →
        h.val P t = g.val P t + 2 * ((Sym.tv mu).value P t * (a.val P t * m.Y.value P t / (Sym.tv c).value P t)) := by
  rw [hk]
  have hm : matchCDResidual R k (con.lhs.sub con.rhs) = some m := by
    unfold dispatchKind at hk
    split at hk
    · cases hk
    · split at hk
      · cases hk
      · split at hk
        · rename_i m' hm'
          cases hk
          rw [hB.constraint] at hm'
          simp only [matchCD, hor] at hm'
          exact hm'
        · cases hk
  obtain ⟨g, h, h1, h2, h3⟩ := cd_both R B k con L ms mu df m c a (con.lhs.sub con.rhs) (-1) (by norm_num)
    (by intro P t; simp) hB hm hin hR hs hss hdf
  refine ⟨g, h, h1, h2, ?_⟩
  intro P t a1 a2 a3 a4 a5
  rw [h3 P t a1 a2 a3 a4 a5]; ring

end GE
