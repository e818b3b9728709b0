import Verif.Props.StateSpace
import Verif.Props.SSDriver
import Verif.Props.Time
import Mathlib.Analysis.SpecialFunctions.Pow.Deriv
/-! # C93: linearised observation equations

`configure(observation_equations=...)` replaces an equation by its value at the steady state and one coefficient per variable and lag. The
statements below compare these with the equation itself, evaluated along any smooth curve of deviations. -/

namespace GE

/-- the expression is evaluated inside the domain of its operations: logarithms of non-zero numbers, powers of positive numbers or constant
powers of non-zero numbers -/
def SExpr.SmoothAt (env : Sym → ℝ) : SExpr → Prop
  | .num _ => True
  | .sym _ => True
  | .add a b => a.SmoothAt env ∧ b.SmoothAt env
  | .mul a b => a.SmoothAt env ∧ b.SmoothAt env
  | .pow a b => a.SmoothAt env ∧ b.SmoothAt env ∧ (0 < a.eval env ∨ (a.eval env ≠ 0 ∧ ∃ q, b = .num q))
  | .exp a => a.SmoothAt env
  | .log a => a.SmoothAt env ∧ a.eval env ≠ 0

/-- values of the symbols when variable `v` at lag `k` is `dev (v, k)` away from its steady state, in logs for the log-linearised ones -/
noncomputable def devEnv (env : Sym → ℝ) (loglin : List Str) (dev : Str × Int → ℝ) : Sym → ℝ
  | .par n => env (.par n)
  | .tv s => match s.idx with
    | .ss => env (.tv s)
    | .t k => if s.base ∈ loglin then env (.tv { s with idx := .ss }) * Real.exp (dev (s.base, k))
      else env (.tv { s with idx := .ss }) + dev (s.base, k)

namespace OEq

theorem eval_div (env : Sym → ℝ) (a b : SExpr) : (SExpr.div a b).eval env = a.eval env / b.eval env := by
  simp [SExpr.div, SExpr.eval, Real.rpow_neg_one, div_eq_mul_inv]

theorem sum_ite {L : List Sym} (hn : L.Nodup) (s : Sym) (c : Sym → ℝ) :
    (L.map fun x => (if s = x then (1 : ℝ) else 0) * c x).sum = if s ∈ L then c s else 0 := by
  induction L with
  | nil => simp
  | cons x L ih =>
    simp only [List.nodup_cons] at hn
    simp only [List.map_cons, List.sum_cons, ih hn.2]
    by_cases h : s = x
    · subst h
      simp [hn.1]
    · simp [h]

/-- the chain rule: along a curve of values, the expression moves by the sum of its partial derivatives -/
theorem chain (L : List Sym) (hn : L.Nodup) (c : ℝ → Sym → ℝ) (c' : Sym → ℝ) (s0 : ℝ) (hc : ∀ x, HasDerivAt (fun s => c s x) (c' x) s0)
    (h0 : ∀ x, x ∉ L → c' x = 0) (e : SExpr) (hs : e.SmoothAt (c s0)) :
    HasDerivAt (fun s => e.eval (c s)) (L.map fun x => (e.diff x).eval (c s0) * c' x).sum s0 := by
  induction e with
  | num q => simpa [SExpr.diff, SExpr.eval] using hasDerivAt_const s0 (q : ℝ)
  | sym s =>
    have : (L.map fun x => (((SExpr.sym s).diff x).eval (c s0)) * c' x).sum = c' s := by
      have e1 : (fun x => (((SExpr.sym s).diff x).eval (c s0)) * c' x) = fun x => (if s = x then (1 : ℝ) else 0) * c' x := by
        funext x
        simp only [SExpr.diff]
        split <;> simp [SExpr.eval]
      rw [e1, sum_ite hn]
      split
      · rfl
      · rename_i h; rw [h0 s h]
    rw [this]
    exact hc s
  | add a b iha ihb =>
    have := (iha hs.1).add (ihb hs.2)
    refine this.congr_deriv ?_
    rw [← List.sum_map_add]
    congr 1
    refine List.map_congr_left fun x _ => ?_
    simp only [SExpr.diff, SExpr.eval]; ring
  | mul a b iha ihb =>
    have := (iha hs.1).fun_mul (ihb hs.2)
    refine this.congr_deriv ?_
    rw [← List.sum_map_mul_right, ← List.sum_map_mul_left, ← List.sum_map_add]
    congr 1
    refine List.map_congr_left fun x _ => ?_
    simp only [SExpr.diff, SExpr.eval]; ring
  | exp a ih =>
    have := (ih hs).exp
    refine this.congr_deriv ?_
    rw [← List.sum_map_mul_left]
    congr 1
    refine List.map_congr_left fun x _ => ?_
    simp only [SExpr.diff, SExpr.eval]; ring
  | log a ih =>
    have := (ih hs.1).log hs.2
    refine this.congr_deriv ?_
    rw [div_eq_mul_inv, ← List.sum_map_mul_right]
    congr 1
    refine List.map_congr_left fun x _ => ?_
    simp only [SExpr.diff, eval_div]
    rw [div_eq_mul_inv]; ring
  | pow a b iha ihb =>
    rcases hs.2.2 with hp | ⟨hp, q, rfl⟩
    · have := (iha hs.1).rpow (ihb hs.2.1) hp
      refine this.congr_deriv ?_
      rw [Real.rpow_sub_one hp.ne', ← List.sum_map_mul_right, ← List.sum_map_mul_right, ← List.sum_map_mul_right, ← List.sum_map_mul_right,
        ← List.sum_map_add]
      congr 1
      refine List.map_congr_left fun x _ => ?_
      simp only [SExpr.diff, eval_div, SExpr.eval]
      field_simp
      ring
    · have := (iha hs.1).rpow_const (p := (q : ℝ)) (.inl hp)
      refine this.congr_deriv ?_
      rw [Real.rpow_sub_one hp, ← List.sum_map_mul_right, ← List.sum_map_mul_right]
      congr 1
      refine List.map_congr_left fun x _ => ?_
      simp only [SExpr.diff, eval_div, SExpr.eval]
      push_cast
      field_simp
      ring

theorem smooth_replace (f : Sym → SExpr) (env env' : Sym → ℝ) (h : ∀ s, (f s).eval env = env' s) (hf : ∀ s, (f s).SmoothAt env) (e : SExpr)
    (hs : e.SmoothAt env') : (e.replace f).SmoothAt env := by
  induction e with
  | num q => trivial
  | sym s => exact hf s
  | add a b iha ihb => exact ⟨iha hs.1, ihb hs.2⟩
  | mul a b iha ihb => exact ⟨iha hs.1, ihb hs.2⟩
  | exp a ih => exact ih hs
  | log a ih => exact ⟨ih hs.1, by rw [Drv.eval_replace f env env' h]; exact hs.2⟩
  | pow a b iha ihb =>
    refine ⟨iha hs.1, ihb hs.2.1, ?_⟩
    rw [Drv.eval_replace f env env' h]
    rcases hs.2.2 with hp | ⟨hp, q, rfl⟩
    · exact .inl hp
    · exact .inr ⟨hp, q, rfl⟩

theorem eval_congr (e : SExpr) (env env' : Sym → ℝ) (h : ∀ s ∈ e.syms, env s = env' s) : e.eval env = e.eval env' := by
  induction e with
  | num q => rfl
  | sym s => exact h s (by simp [SExpr.syms])
  | add a b iha ihb =>
    simp only [SExpr.eval]
    rw [iha fun s hs => h s (by simp [SExpr.syms, hs]), ihb fun s hs => h s (by simp [SExpr.syms, hs])]
  | mul a b iha ihb =>
    simp only [SExpr.eval]
    rw [iha fun s hs => h s (by simp [SExpr.syms, hs]), ihb fun s hs => h s (by simp [SExpr.syms, hs])]
  | pow a b iha ihb =>
    simp only [SExpr.eval]
    rw [iha fun s hs => h s (by simp [SExpr.syms, hs]), ihb fun s hs => h s (by simp [SExpr.syms, hs])]
  | exp a ih => simp only [SExpr.eval]; rw [ih h]
  | log a ih => simp only [SExpr.eval]; rw [ih h]

theorem smooth_congr (e : SExpr) (env env' : Sym → ℝ) (h : ∀ s ∈ e.syms, env s = env' s) (hs : e.SmoothAt env) : e.SmoothAt env' := by
  induction e with
  | num q => trivial
  | sym s => trivial
  | add a b iha ihb =>
    exact ⟨iha (fun s hs => h s (by simp [SExpr.syms, hs])) hs.1, ihb (fun s hs => h s (by simp [SExpr.syms, hs])) hs.2⟩
  | mul a b iha ihb =>
    exact ⟨iha (fun s hs => h s (by simp [SExpr.syms, hs])) hs.1, ihb (fun s hs => h s (by simp [SExpr.syms, hs])) hs.2⟩
  | exp a ih => exact ih h hs
  | log a ih => exact ⟨ih h hs.1, by rw [← eval_congr a env env' h]; exact hs.2⟩
  | pow a b iha ihb =>
    have ha : ∀ s ∈ a.syms, env s = env' s := fun s hs => h s (by simp [SExpr.syms, hs])
    refine ⟨iha ha hs.1, ihb (fun s hs => h s (by simp [SExpr.syms, hs])) hs.2.1, ?_⟩
    rw [← eval_congr a env env' ha]
    exact hs.2.2

theorem natStr_no_us (n : ℕ) : '_' ∉ natStr n := by
  intro h
  have := Nat.isDigit_of_mem_toDigits (b := 10) (by omega) (by omega) h
  simp [Char.isDigit] at this

/-- the tag of a lag contains no underscore -/
theorem tag_no_us (lag : Int) : '_' ∉ (if lag = 0 then ['0'] else 'm' :: natStr lag.natAbs) := by
  split
  · decide
  · simp only [List.mem_cons, not_or]
    exact ⟨by decide, natStr_no_us _⟩

theorem split_last {a b x y : Str} (hx : '_' ∉ x) (hy : '_' ∉ y) (h : a ++ '_' :: x = b ++ '_' :: y) : a = b ∧ x = y := by
  rcases List.append_eq_append_iff.1 h with ⟨l, h1, h2⟩ | ⟨l, h1, h2⟩
  · cases l with
    | nil => simp at h1 h2; exact ⟨h1.symm, h2⟩
    | cons c l =>
      simp only [List.cons_append, List.cons.injEq] at h2
      exact absurd (h2.2 ▸ by simp) hx
  · cases l with
    | nil => simp at h1 h2; exact ⟨h1, h2.symm⟩
    | cons c l =>
      simp only [List.cons_append, List.cons.injEq] at h2
      exact absurd (h2.2 ▸ by simp) hy

theorem tildeName_inj {k k' : Str × Int} (h1 : k.2 ≤ 0) (h2 : k'.2 ≤ 0) (h : tildeName k.1 k.2 = tildeName k'.1 k'.2) : k = k' := by
  unfold tildeName at h
  simp only [List.append_assoc] at h
  have h := List.append_cancel_left h
  simp only [List.singleton_append] at h
  obtain ⟨e1, e2⟩ := split_last (tag_no_us _) (tag_no_us _) h
  refine Prod.ext e1 ?_
  split at e2 <;> split at e2
  · omega
  · simp at e2
  · simp at e2
  · simp only [List.cons.injEq, true_and] at e2
    have := natStr_inj e2
    omega

theorem mem_appearing (e : SExpr) (v : Str) (k : Int) : (v, k) ∈ appearing e ↔ ∃ s ∈ e.tsyms, s.base = v ∧ s.idx = .t k := by
  unfold appearing
  rw [List.mem_eraseDups, List.mem_filterMap]
  constructor
  · rintro ⟨s, hs, h⟩
    refine ⟨s, hs, ?_⟩
    cases hi : s.idx with
    | ss => rw [hi] at h; simp at h
    | t j => rw [hi] at h; simp only [Option.some.injEq, Prod.mk.injEq] at h; exact ⟨h.1, by rw [h.2]⟩
  · rintro ⟨s, hs, h1, h2⟩
    exact ⟨s, hs, by rw [h2, h1]⟩

theorem nodup_eraseDups {α : Type} [BEq α] [LawfulBEq α] (l : List α) : l.eraseDups.Nodup := by
  have : ∀ n (l : List α), l.length ≤ n → l.eraseDups.Nodup := by
    intro n
    induction n with
    | zero =>
      intro l h
      have : l = [] := List.length_eq_zero_iff.1 (by omega)
      rw [this]; simp
    | succ n ih =>
      intro l h
      cases l with
      | nil => simp
      | cons a l =>
        rw [List.eraseDups_cons, List.nodup_cons]
        refine ⟨by simp [List.mem_eraseDups], ih _ ?_⟩
        have := List.length_filter_le (fun b => !b == a) l
        simp only [List.length_cons] at h
        omega
  exact this l.length l le_rfl

theorem dget_map {κ α β : Type} [DecidableEq α] (l : List κ) (f : κ → α) (v : κ → β) (x : α) :
    dget (l.map fun k => (f k, v k)) x = (l.find? fun k => decide (f k = x)).map v := by
  induction l with
  | nil => rfl
  | cons k l ih =>
    simp only [List.map_cons, dget, List.find?_cons]
    by_cases h : f k = x
    · simp [h]
    · simp [h, ih]

/-- the values with the dummies of the linearisation set to `dev` -/
def tildeEnv (env : Sym → ℝ) (ks : List (Str × Int)) (dev : Str × Int → ℝ) : Sym → ℝ
  | .tv s => env (.tv s)
  | .par n => match ks.find? fun k => decide (tildeName k.1 k.2 = n) with
    | some k => dev k
    | none => env (.par n)

theorem find_tilde {ks : List (Str × Int)} (hk : ∀ k ∈ ks, k.2 ≤ 0) {k : Str × Int} (h : k ∈ ks) :
    (ks.find? fun j => decide (tildeName j.1 j.2 = tildeName k.1 k.2)) = some k := by
  cases hf : ks.find? fun j => decide (tildeName j.1 j.2 = tildeName k.1 k.2) with
  | none =>
    rw [List.find?_eq_none] at hf
    exact absurd (hf k h) (by simp)
  | some j =>
    have h1 := List.mem_of_find?_eq_some hf
    have h2 := List.find?_some hf
    simp only [decide_eq_true_eq] at h2
    rw [tildeName_inj (hk j h1) (hk k h) h2]

theorem zeros_eval (env : Sym → ℝ) (ks : List (Str × Int)) (g : SExpr) :
    (g.xreplace (ks.map fun k => (Sym.par (tildeName k.1 k.2), .num 0))).eval env = g.eval (tildeEnv env ks fun _ => 0) := by
  unfold SExpr.xreplace
  refine Drv.eval_replace _ _ _ ?_ g
  intro s
  rw [dget_map ks (fun k => Sym.par (tildeName k.1 k.2)) (fun _ => SExpr.num 0)]
  cases s with
  | tv s =>
    have : (ks.find? fun k => decide (Sym.par (tildeName k.1 k.2) = Sym.tv s)) = none := by simp
    rw [this]; rfl
  | par n =>
    simp only [Sym.par.injEq, tildeEnv]
    cases ks.find? fun k => decide (tildeName k.1 k.2 = n) with
    | none => rfl
    | some k => simp [SExpr.eval]

theorem mapM_mem {κ β : Type} (l : List κ) (f : κ → Option β) (r : List β) (h : l.mapM f = some r) :
    (∀ b ∈ r, ∃ k ∈ l, f k = some b) ∧ (∀ k ∈ l, ∃ b ∈ r, f k = some b) := by
  induction l generalizing r with
  | nil => simp at h; subst h; simp
  | cons a l ih =>
    simp only [List.mapM_cons, bind, Option.bind] at h
    cases h1 : f a with
    | none => simp [h1] at h
    | some b =>
      cases h2 : l.mapM f with
      | none => simp [h1, h2] at h
      | some r' =>
        simp only [h1, h2, pure, Option.some.injEq] at h
        subst h
        obtain ⟨i1, i2⟩ := ih r' h2
        constructor
        · intro x hx
          rcases List.mem_cons.1 hx with rfl | hx
          · exact ⟨a, by simp, h1⟩
          · obtain ⟨k, hk, e⟩ := i1 x hx
            exact ⟨k, by simp [hk], e⟩
        · intro k hk
          rcases List.mem_cons.1 hk with rfl | hk
          · exact ⟨b, by simp, h1⟩
          · obtain ⟨x, hx, e⟩ := i2 k hk
            exact ⟨x, by simp [hx], e⟩

end OEq

/-- the symbols of an observation equation are variables of the model at date 0 or earlier (of the assumptions the model gives them), steady
states and parameters; the names of the dummies are not used for parameters -/
structure ObsWellFormed (vars : List TSym) (e : SExpr) : Prop where
  dated : ∀ s ∈ e.tsyms, ∀ k, s.idx = .t k → k ≤ 0 ∧ ∃ v ∈ vars, v.base = s.base ∧ v.asm = s.asm
  names : (vars.map TSym.base).Nodup
  fresh : ∀ n, Sym.par n ∈ e.syms → ∀ v k, n ≠ tildeName v k

namespace OEq

variable {vars : List TSym} {loglin : List Str} {e : SExpr}

theorem appearing_le (hw : ObsWellFormed vars e) : ∀ k ∈ appearing e, k.2 ≤ 0 := by
  rintro ⟨v, k⟩ hk
  obtain ⟨s, hs, h1, h2⟩ := (mem_appearing e v k).1 hk
  exact (hw.dated s hs k h2).1

theorem find_var {v : TSym} (hn : (vars.map TSym.base).Nodup) (hv : v ∈ vars) : (vars.find? fun w => decide (w.base = v.base)) = some v := by
  cases hf : vars.find? fun w => decide (w.base = v.base) with
  | none =>
    rw [List.find?_eq_none] at hf
    exact absurd (hf v hv) (by simp)
  | some w =>
    have h1 := List.mem_of_find?_eq_some hf
    have h2 := List.find?_some hf
    simp only [decide_eq_true_eq] at h2
    rw [List.inj_on_of_nodup_map hn h1 hv h2]

/-- the equation with the variables written as deviations takes the value of the equation at the deviations -/
theorem fwd_eval (hw : ObsWellFormed vars e) (fwd : List (Sym × SExpr)) (hf : forwardDict vars loglin e = some fwd) (env : Sym → ℝ)
    (dev : Str × Int → ℝ) (s : Sym) (hs : s ∈ e.syms) :
    ((dget fwd s).getD (.sym s)).eval (tildeEnv env (appearing e) dev) = devEnv env loglin dev s := by
  obtain ⟨m1, m2⟩ := mapM_mem _ _ _ hf
  cases s with
  | par n =>
    cases hd : dget fwd (.par n) with
    | some x =>
      obtain ⟨k, hk, h⟩ := m1 _ (mem_of_dget _ _ _ hd)
      cases hv : vars.find? fun v => decide (v.base = k.1) with
      | none => rw [hv] at h; simp at h
      | some v => rw [hv] at h; simp at h
    | none =>
      simp only [Option.getD_none, SExpr.eval, tildeEnv, devEnv]
      have : (appearing e).find? (fun k => decide (tildeName k.1 k.2 = n)) = none := by
        rw [List.find?_eq_none]
        intro k hk
        simpa using fun h => hw.fresh n hs k.1 k.2 h.symm
      rw [this]
  | tv s =>
    have hts : s ∈ e.tsyms := by
      unfold SExpr.tsyms
      rw [List.mem_filterMap]
      exact ⟨.tv s, hs, rfl⟩
    cases hi : s.idx with
    | ss =>
      cases hd : dget fwd (.tv s) with
      | some x =>
        obtain ⟨k, hk, h⟩ := m1 _ (mem_of_dget _ _ _ hd)
        cases hv : vars.find? fun v => decide (v.base = k.1) with
        | none => rw [hv] at h; simp at h
        | some v =>
          rw [hv] at h
          simp only [Option.map_some, Option.some.injEq, Prod.mk.injEq, Sym.tv.injEq] at h
          rw [← h.1] at hi
          simp at hi
      | none =>
        simp only [Option.getD_none, SExpr.eval, tildeEnv, devEnv]
        rw [hi]
    | t j =>
      obtain ⟨hj, v, hv, hb, ha⟩ := hw.dated s hts j hi
      have hap : (s.base, j) ∈ appearing e := (mem_appearing e _ _).2 ⟨s, hts, rfl, hi⟩
      obtain ⟨p, hp, hfp⟩ := m2 _ hap
      have hkey : Sym.tv s ∈ dkeys fwd := by
        rw [← hb, find_var hw.names hv] at hfp
        simp only [Option.map_some, Option.some.injEq] at hfp
        have : p.1 = Sym.tv s := by
          rw [← hfp]
          simp only [Sym.tv.injEq]
          obtain ⟨b, i, a⟩ := s
          simp_all
        rw [← this]
        exact List.mem_map_of_mem hp
      cases hd : dget fwd (.tv s) with
      | none => exact absurd hkey ((dget_eq_none _ _).1 hd)
      | some x =>
        obtain ⟨k, hk, h⟩ := m1 _ (mem_of_dget _ _ _ hd)
        cases hv' : vars.find? fun v => decide (v.base = k.1) with
        | none => rw [hv'] at h; simp at h
        | some v' =>
          rw [hv'] at h
          simp only [Option.map_some, Option.some.injEq, Prod.mk.injEq, Sym.tv.injEq] at h
          obtain ⟨h1, h2⟩ := h
          have hb' : v'.base = k.1 := by simpa using List.find?_some hv'
          have hss : v'.asm = s.asm := by rw [← h1]
          have hkj : k = (s.base, j) := by
            rw [← h1] at hi
            simp only [TIdx.t.injEq] at hi
            refine Prod.ext ?_ hi
            rw [← h1]; exact hb'.symm
          have hbs : v'.base = s.base := by rw [hb', hkj]
          simp only [Option.getD_some]
          rw [← h2]
          have htl : tildeEnv env (appearing e) dev (.par (tildeName v'.base k.2)) = dev (s.base, j) := by
            simp only [tildeEnv]
            have := find_tilde (appearing_le hw) hap
            rw [hbs, hkj]
            simp only at this ⊢
            rw [this]
          unfold tildeForm devEnv
          simp only [hi, hbs]
          rw [hbs] at htl
          split
          · simp only [SExpr.eval, htl]
            rw [hss]; rfl
          · simp only [SExpr.eval, htl]
            rw [hss]; rfl

theorem fwd_smooth (fwd : List (Sym × SExpr)) (hf : forwardDict vars loglin e = some fwd) (env : Sym → ℝ) (s : Sym) :
    ((dget fwd s).getD (.sym s)).SmoothAt env := by
  obtain ⟨m1, m2⟩ := mapM_mem _ _ _ hf
  cases hd : dget fwd s with
  | none => trivial
  | some x =>
    obtain ⟨k, hk, h⟩ := m1 _ (mem_of_dget _ _ _ hd)
    cases hv' : vars.find? fun v => decide (v.base = k.1) with
    | none => rw [hv'] at h; simp at h
    | some v' =>
      rw [hv'] at h
      simp only [Option.map_some, Option.some.injEq, Prod.mk.injEq] at h
      rw [Option.getD_some, ← h.2]
      unfold tildeForm
      dsimp only
      split
      · exact ⟨trivial, trivial⟩
      · exact ⟨trivial, trivial⟩

theorem g_eval (hw : ObsWellFormed vars e) (fwd : List (Sym × SExpr)) (hf : forwardDict vars loglin e = some fwd) (env : Sym → ℝ)
    (dev : Str × Int → ℝ) : (e.xreplace fwd).eval (tildeEnv env (appearing e) dev) = e.eval (devEnv env loglin dev) := by
  unfold SExpr.xreplace
  rw [Drv.eval_replace _ _ (fun s => ((dget fwd s).getD (.sym s)).eval (tildeEnv env (appearing e) dev)) (fun _ => rfl)]
  exact eval_congr _ _ _ fun s hs => fwd_eval hw fwd hf env dev s hs

theorem appearing_nodup (e : SExpr) : (appearing e).Nodup := by
  unfold appearing
  exact nodup_eraseDups _

theorem obsEqAt_keys (env : Sym → ℝ) (a : SExpr) (ks : List (Str × Int)) (f : Str × Int → SExpr) :
    (obsEqAt env (a, ks.map fun k => (k, f k))).coeffs.map Prod.fst = ks := by
  unfold obsEqAt
  induction ks with
  | nil => rfl
  | cons k ks ih => simpa using ih

end OEq

/-- **C93** the intercept of a linearised observation equation is the equation at the steady state, and the coefficients are its first-order
response: along every differentiable curve of deviations through the steady state the equation moves at the rate `Σ coefficient · deviation`,
one coefficient per variable and lag that occurs -/
theorem C93_linearized (vars : List TSym) (loglin : List Str) (e : SExpr) (hw : ObsWellFormed vars e) (l : SExpr × List ((Str × Int) × SExpr))
    (hl : linearizeObs vars loglin e = some l) (env : Sym → ℝ) (hs : e.SmoothAt (devEnv env loglin fun _ => 0)) :
    (obsEqAt env l).intercept = e.eval (devEnv env loglin fun _ => 0) ∧
    (∀ k, k ∈ (obsEqAt env l).coeffs.map Prod.fst ↔ ∃ s ∈ e.tsyms, s.base = k.1 ∧ s.idx = .t k.2) ∧
    ((obsEqAt env l).coeffs.map Prod.fst).Nodup ∧
    ∀ (dev : ℝ → Str × Int → ℝ) (vel : Str × Int → ℝ), (∀ k, dev 0 k = 0) → (∀ k, HasDerivAt (fun s => dev s k) (vel k) 0) →
      HasDerivAt (fun s => e.eval (devEnv env loglin (dev s))) ((obsEqAt env l).coeffs.map fun kc => kc.2 * vel kc.1).sum 0 := by
  unfold linearizeObs at hl
  cases hf : forwardDict vars loglin e with
  | none => simp [hf] at hl
  | some fwd =>
    simp only [hf, bind, Option.bind, pure, Option.some.injEq] at hl
    subst hl
    refine ⟨?_, ?_, ?_, ?_⟩
    · unfold obsEqAt
      dsimp only
      rw [OEq.zeros_eval, OEq.g_eval hw fwd hf]
    · intro k
      rw [OEq.obsEqAt_keys]
      exact OEq.mem_appearing e k.1 k.2
    · rw [OEq.obsEqAt_keys]
      exact OEq.appearing_nodup e
    · intro dev vel h0 hv
      have hd0 : dev 0 = fun _ => 0 := funext h0
      have hle := OEq.appearing_le hw
      let c : ℝ → Sym → ℝ := fun s => OEq.tildeEnv env (appearing e) (dev s)
      let c' : Sym → ℝ := fun x => match x with
        | .tv _ => 0
        | .par n => match (appearing e).find? fun k => decide (tildeName k.1 k.2 = n) with
          | some k => vel k
          | none => 0
      have hc : ∀ x, HasDerivAt (fun s => c s x) (c' x) 0 := by
        intro x
        cases x with
        | tv s => exact hasDerivAt_const _ _
        | par n =>
          simp only [c, c', OEq.tildeEnv]
          cases (appearing e).find? fun k => decide (tildeName k.1 k.2 = n) with
          | none => exact hasDerivAt_const _ _
          | some k => exact hv k
      have hnd : ((appearing e).map fun k => Sym.par (tildeName k.1 k.2)).Nodup := by
        refine List.Nodup.map_on ?_ (OEq.appearing_nodup e)
        intro k hk k' hk' h
        exact OEq.tildeName_inj (hle k hk) (hle k' hk') (Sym.par.inj h)
      have hz : ∀ x, x ∉ (appearing e).map (fun k => Sym.par (tildeName k.1 k.2)) → c' x = 0 := by
        intro x hx
        cases x with
        | tv s => rfl
        | par n =>
          simp only [c']
          cases hfd : (appearing e).find? fun k => decide (tildeName k.1 k.2 = n) with
          | none => rfl
          | some k =>
            exfalso
            apply hx
            have h2 := List.find?_some hfd
            simp only [decide_eq_true_eq] at h2
            rw [← h2]
            exact List.mem_map_of_mem (f := fun k : Str × Int => Sym.par (tildeName k.1 k.2)) (List.mem_of_find?_eq_some hfd)
      have hsm : (e.xreplace fwd).SmoothAt (c 0) := by
        unfold SExpr.xreplace
        refine OEq.smooth_replace _ _ (fun s => ((dget fwd s).getD (.sym s)).eval (c 0)) (fun _ => rfl) (fun s => OEq.fwd_smooth fwd hf _ s) e ?_
        refine OEq.smooth_congr e _ _ ?_ hs
        intro s hs'
        simp only [c, hd0]
        exact (OEq.fwd_eval hw fwd hf env _ s hs').symm
      have key := OEq.chain _ hnd c c' 0 hc hz (e.xreplace fwd) hsm
      have hfun : (fun s => (e.xreplace fwd).eval (c s)) = fun s => e.eval (devEnv env loglin (dev s)) := by
        funext s
        exact OEq.g_eval hw fwd hf env (dev s)
      rw [hfun] at key
      refine key.congr_deriv ?_
      unfold obsEqAt
      simp only [List.map_map]
      congr 1
      refine List.map_congr_left fun k hk => ?_
      simp only [Function.comp]
      rw [OEq.zeros_eval]
      have h1 : c' (.par (tildeName k.1 k.2)) = vel k := by
        simp only [c']
        rw [OEq.find_tilde hle hk]
      rw [h1]
      simp only [c, hd0]


/-! ## acceptance -/

/-- **C93** an equation is accepted exactly when its dated symbols are variables of the model, not in the future, and its parameters are known -/
theorem C93_accepts (vars params : List Str) (e : SExpr) :
    checkObsEq vars params e = some e ↔ (∀ s ∈ e.tsyms, ∀ k, s.idx = .t k → k ≤ 0 ∧ s.base ∈ vars) ∧ ∀ n, Sym.par n ∈ e.syms → n ∈ params := by
  unfold checkObsEq
  have hmem : ∀ s, s ∈ e.tsyms ↔ Sym.tv s ∈ e.syms := fun s => mem_tsyms
  constructor
  · intro h
    split at h
    · rename_i hall
      rw [List.all_eq_true] at hall
      constructor
      · intro s hs k hk
        have := hall _ ((hmem s).1 hs)
        simpa [obsSymOk, hk] using this
      · intro n hn
        have := hall _ hn
        simpa [obsSymOk] using this
    · simp at h
  · rintro ⟨h1, h2⟩
    rw [if_pos]
    rw [List.all_eq_true]
    intro s hs
    cases s with
    | par n => simpa [obsSymOk] using h2 n hs
    | tv s =>
      cases hi : s.idx with
      | ss => simp [obsSymOk, hi]
      | t k => simpa [obsSymOk, hi] using h1 s ((hmem s).2 hs) k hi

/-- **C93** linearising an accepted equation does not fail, and its coefficients belong to variables of the model at date 0 or earlier -/
theorem C93_coefficients (vars : List TSym) (params loglin : List Str) (e : SExpr) (h : checkObsEq (vars.map TSym.base) params e = some e) :
    ∃ l, linearizeObs vars loglin e = some l ∧ ∀ env, ∀ kc ∈ (obsEqAt env l).coeffs, kc.1.1 ∈ vars.map TSym.base ∧ kc.1.2 ≤ 0 := by
  have hc := ((C93_accepts _ _ _).1 h).1
  have hap : ∀ k ∈ appearing e, k.1 ∈ vars.map TSym.base ∧ k.2 ≤ 0 := by
    rintro ⟨v, k⟩ hk
    obtain ⟨s, hs, h1, h2⟩ := (OEq.mem_appearing e v k).1 hk
    have := hc s hs k h2
    exact ⟨h1 ▸ this.2, this.1⟩
  have hf : ∃ fwd, forwardDict vars loglin e = some fwd := by
    unfold forwardDict
    revert hap
    generalize appearing e = ks
    intro hap
    induction ks with
    | nil => exact ⟨[], rfl⟩
    | cons k ks ih =>
      obtain ⟨fwd, hfwd⟩ := ih fun j hj => hap j (by simp [hj])
      obtain ⟨v, hv, hb⟩ := List.mem_map.1 (hap k (by simp)).1
      cases hfd : vars.find? fun v => decide (v.base = k.1) with
      | none =>
        rw [List.find?_eq_none] at hfd
        exact absurd (hfd v hv) (by simp [hb])
      | some w => 

        refine ⟨(Sym.tv { w with idx := .t k.2 }, tildeForm loglin w k.2) :: fwd, ?_⟩
        simp only [List.mapM_cons, hfd, hfwd, Option.map_some, bind, Option.bind, pure]
  obtain ⟨fwd, hfwd⟩ := hf
  have hlin : linearizeObs vars loglin e = some ((e.xreplace fwd).xreplace ((appearing e).map fun k => (Sym.par (tildeName k.1 k.2), .num 0)),
      (appearing e).map fun k => (k, ((e.xreplace fwd).diff (.par (tildeName k.1 k.2))).xreplace ((appearing e).map fun k => (Sym.par (tildeName k.1 k.2), .num 0)))) := by
    simp only [linearizeObs, hfwd, bind, Option.bind, pure]
  refine ⟨_, hlin, ?_⟩
  intro env kc hkc
  have hkey : kc.1 ∈ appearing e := by
    rw [← OEq.obsEqAt_keys env ((e.xreplace fwd).xreplace ((appearing e).map fun k => (Sym.par (tildeName k.1 k.2), .num 0))) (appearing e)
      (fun k => ((e.xreplace fwd).diff (.par (tildeName k.1 k.2))).xreplace ((appearing e).map fun k => (Sym.par (tildeName k.1 k.2), .num 0)))]
    exact List.mem_map_of_mem hkc
  exact hap _ hkey

/-- **C93, violated for steady-state symbols**: the steady state of a variable that does not exist is accepted -/
theorem C93_unknown_steady_state_accepted (vars params : List Str) (q : Str) :
    checkObsEq vars params (.sym (.tv ⟨q, .ss, []⟩)) = some (.sym (.tv ⟨q, .ss, []⟩)) := by
  simp [checkObsEq, SExpr.syms, obsSymOk]

/-! ## the intercept -/

namespace OEq

theorem aggregate_shift (a : Option Agg) (s : ℕ) (b : ℝ) (g : ℕ → ℝ) (t : ℕ) (hs : a = some .mean → s ≠ 0) :
    aggregate a s (fun u => b + g u) t = (if a = some .sum then (s : ℝ) * b else b) + aggregate a s g t := by
  unfold aggregate
  cases a with
  | none => simp
  | some a =>
    cases a with
    | sum => simp [Finset.sum_add_distrib]
    | mean =>
      have : (s : ℝ) ≠ 0 := by exact_mod_cast hs rfl
      simp only [Finset.sum_add_distrib, Finset.sum_const, Finset.card_range, nsmul_eq_mul]
      rw [add_div, mul_div_cancel_left₀ _ this]
      simp
    | first => simp
    | last => simp

theorem mapM_ok {ε κ β : Type} (l : List κ) (f : κ → Except ε β) (r : List β) (h : l.mapM f = .ok r) (i : ℕ) (hi : i < l.length) :
    ∃ b, r[i]? = some b ∧ f l[i] = .ok b := by
  induction l generalizing r i with
  | nil => simp at hi
  | cons a l ih =>
    simp only [List.mapM_cons, bind, Except.bind] at h
    cases h1 : f a with
    | error e => rw [h1] at h; simp at h
    | ok b =>
      rw [h1] at h
      dsimp only at h
      cases h2 : l.mapM f with
      | error e => rw [h2] at h; simp at h
      | ok r' =>
        rw [h2] at h
        simp only [pure, Except.pure, Except.ok.injEq] at h
        subst h
        cases i with
        | zero => exact ⟨b, rfl, h1⟩
        | succ i =>
          obtain ⟨x, hx, e⟩ := ih r' h2 i (by simpa using hi)
          exact ⟨x, by simpa using hx, by simpa using e⟩

end OEq

/-- **C93** observation intercept plus design: a series with an observation equation is reported as the (aggregated) equation, intercept included -/
theorem C93_levels (c : SSCfg) (hc : c.Ok) (m : ℕ) (T R : NMat) (x eps : ℕ → ℕ → ℝ) (hf : c.Follows m T R x eps) (ss : List (Str × ℝ)) (ds : List ℝ)
    (hds : c.obsIntercept ss = .ok ds) (t i : ℕ) (hi : i < c.observed.length) (eq : ObsEq) (he : dget c.obsEqs (c.observed[i]) = some eq)
    (ht : ∀ kc ∈ eq.coeffs, (-kc.1.2).toNat + (if c.cumulates (c.observed[i]) then c.period - 1 else 0) ≤ t) :
    ∃ d, ds[i]? = some d ∧
      d + c.observe x t i = aggregate (dget c.agg (c.observed[i])) c.period (fun u => eq.intercept + eq.linear c.vars x u) t := by
  have hne : ¬ (c.ssObs = [] ∧ c.obsEqs = []) := by
    rintro ⟨_, h⟩; rw [h] at he; simp [dget] at he
  unfold SSCfg.obsIntercept at hds
  rw [if_neg hne] at hds
  obtain ⟨d, hd, hfd⟩ := OEq.mapM_ok _ _ _ hds i hi
  refine ⟨d, hd, ?_⟩
  have hmean : dget c.agg (c.observed[i]) = some .mean → c.period ≠ 0 := by
    intro h
    have := SSp.period_of_cum c hc (c.observed[i]) (by simp [SSCfg.cumulates, h, Agg.cumulates])
    omega
  rw [C93_equation c hc m T R x eps hf t i hi eq he ht, OEq.aggregate_shift _ _ _ _ _ hmean]
  simp only [SSCfg.interceptEntry, he, Except.ok.injEq] at hfd
  rw [← hfd]

/-- **C92** a series without an equation is reported around its steady state (its log, for log-linearised variables) when asked for in
`ss_obs_intercept`, as a deviation otherwise -/
theorem C92_levels (c : SSCfg) (hc : c.Ok) (m : ℕ) (T R : NMat) (x eps : ℕ → ℕ → ℝ) (hf : c.Follows m T R x eps) (ss : List (Str × ℝ)) (ds : List ℝ)
    (hds : c.obsIntercept ss = .ok ds) (t i : ℕ) (hi : i < c.observed.length) (h : c.observed[i] ∉ dkeys c.obsEqs)
    (ht : c.cumulates (c.observed[i]) = true → c.period - 1 ≤ t) :
    ∃ d b, ds[i]? = some d ∧
      (c.observed[i] ∈ c.ssObs → ∃ v, dget ss (c.observed[i]) = some v ∧ b = if c.observed[i] ∈ c.loglin then Real.log v else v) ∧
      (c.observed[i] ∉ c.ssObs → b = 0) ∧
      d + c.observe x t i = aggregate (dget c.agg (c.observed[i])) c.period (fun u => b + x u (c.vars.idxOf (c.observed[i]))) t := by
  have hmean : dget c.agg (c.observed[i]) = some .mean → c.period ≠ 0 := by
    intro h
    have := SSp.period_of_cum c hc (c.observed[i]) (by simp [SSCfg.cumulates, h, Agg.cumulates])
    omega
  have hagg := C92_aggregated c hc m T R x eps hf t i hi h ht
  unfold SSCfg.obsIntercept at hds
  split at hds
  · rename_i he
    cases hds
    refine ⟨0, 0, by simp [hi], ?_, fun _ => rfl, ?_⟩
    · rw [he.1]; simp
    · rw [hagg]; simp
  · obtain ⟨d, hd, hfd⟩ := OEq.mapM_ok _ _ _ hds i hi
    have hnone : dget c.obsEqs (c.observed[i]) = none := (dget_eq_none _ _).2 h
    simp only [SSCfg.interceptEntry, hnone] at hfd
    by_cases hs : c.observed[i] ∈ c.ssObs
    · rw [if_pos hs] at hfd
      cases hss : dget ss (c.observed[i]) with
      | none => rw [hss] at hfd; simp at hfd
      | some v =>
        rw [hss] at hfd
        simp only [Except.ok.injEq] at hfd
        refine ⟨d, if c.observed[i] ∈ c.loglin then Real.log v else v, hd, fun _ => ⟨v, rfl, rfl⟩, fun hn => absurd hs hn, ?_⟩
        rw [hagg, OEq.aggregate_shift _ _ _ _ _ hmean, hfd]
    · rw [if_neg hs] at hfd
      simp only [Except.ok.injEq] at hfd
      refine ⟨d, 0, hd, fun h => absurd h hs, fun _ => rfl, ?_⟩
      rw [hagg, OEq.aggregate_shift _ _ _ _ _ hmean, ← hfd]
      simp

/-! ## non-vacuity -/

namespace OEq

/-- a monthly model with a flow `Y` observed as a quarterly sum and a series `g` observed through `g = Y - Y[-1]` -/
noncomputable def exCfg : SSCfg where
  vars := [['Y'], ['K']]
  observed := [['Y'], ['g']]
  agg := [(['Y'], .sum)]
  period := 3
  obsEqs := [(['g'], ⟨2, [((['Y'], 0), 1), ((['Y'], -1), -1)]⟩)]
  ssObs := [['Y']]

theorem exOk : exCfg.Ok := by
  constructor
  · decide
  · decide
  · simp [exCfg, dkeys]
  · simp [exCfg, dkeys]
  · simp [exCfg, dkeys]
  · simp [exCfg]
  · intro p hp kc hkc
    simp only [exCfg, List.mem_singleton] at hp
    subst hp
    simp only [List.mem_cons, List.not_mem_nil, or_false] at hkc
    rcases hkc with rfl | rfl <;> simp [exCfg]

/-- every starting point and every shock sequence gives a trajectory: the hypotheses of C92 and C93 are met by all of them -/
noncomputable def run (c : SSCfg) (m : ℕ) (T R : NMat) (x0 : ℕ → ℝ) (eps : ℕ → ℕ → ℝ) : ℕ → ℕ → ℝ
  | 0 => x0
  | t + 1 => fun i => ∑ j ∈ Finset.range c.kAug, c.transition T i j * run c m T R x0 eps t j + ∑ s ∈ Finset.range m, c.selection R i s * eps (t + 1) s

theorem tildeName_length (v : Str) (k : Int) : 7 ≤ (tildeName v k).length := by
  unfold tildeName
  rw [List.append_assoc, List.append_assoc, List.length_append]
  have : "_tilde_".toList.length = 7 := by decide
  omega

theorem run_follows (c : SSCfg) (m : ℕ) (T R : NMat) (x0 : ℕ → ℝ) (eps : ℕ → ℕ → ℝ) : c.Follows m T R (run c m T R x0 eps) eps :=
  fun _ _ _ => rfl

end OEq

/-- for the example, from date 2 on, the first series is the sum of three months and the second the difference of `Y` plus 2 -/
example (T R : NMat) (x0 : ℕ → ℝ) (eps : ℕ → ℕ → ℝ) (t : ℕ) (ht : 2 ≤ t) :
    OEq.exCfg.observe (OEq.run OEq.exCfg 1 T R x0 eps) t 0 = ∑ d ∈ Finset.range 3, OEq.run OEq.exCfg 1 T R x0 eps (t - d) 0 ∧
    2 + OEq.exCfg.observe (OEq.run OEq.exCfg 1 T R x0 eps) t 1 = 2 + (OEq.run OEq.exCfg 1 T R x0 eps t 0 - OEq.run OEq.exCfg 1 T R x0 eps (t - 1) 0) := by
  have hf := OEq.run_follows OEq.exCfg 1 T R x0 eps
  constructor
  · exact C92_aggregated OEq.exCfg OEq.exOk 1 T R _ eps hf t 0 (by simp [OEq.exCfg]) (by simp [OEq.exCfg, dkeys]) (fun _ => ht)
  · rw [C93_equation OEq.exCfg OEq.exOk 1 T R _ eps hf t 1 (by simp [OEq.exCfg]) ⟨2, [((['Y'], 0), 1), ((['Y'], -1), -1)]⟩ (by simp [OEq.exCfg, dget])
      (by simp [OEq.exCfg, SSCfg.cumulates, dget]; omega)]
    simp [aggregate, OEq.exCfg, dget, ObsEq.linear]
    ring

/-- the linearisation theorem applies to `g = log(Y) - log(Y[-1]) + a` at positive steady state -/
example (env : Sym → ℝ) (hY : 0 < env (.tv ⟨['Y'], .ss, []⟩)) :
    let e : SExpr := .add (SExpr.sub (.log (.sym (.tv ⟨['Y'], .t 0, []⟩))) (.log (.sym (.tv ⟨['Y'], .t (-1), []⟩)))) (.sym (.par ['a']))
    ObsWellFormed [⟨['Y'], .t 0, []⟩] e ∧ e.SmoothAt (devEnv env [['Y']] fun _ => 0) ∧ (linearizeObs [⟨['Y'], .t 0, []⟩] [['Y']] e).isSome = true := by
  intro e
  have hacc : checkObsEq ([⟨['Y'], .t 0, []⟩].map TSym.base) [['a']] e = some e := by
    rw [C93_accepts]
    simp [e, SExpr.tsyms, SExpr.sub, SExpr.syms]
  refine ⟨⟨?_, by simp, ?_⟩, ?_, ?_⟩
  · intro s hs k hk
    simp only [e, SExpr.tsyms, SExpr.sub, SExpr.syms] at hs
    simp at hs
    rcases hs with rfl | rfl
    · simp at hk; subst hk; simp
    · simp at hk; subst hk; simp
  · intro n hn v k h
    simp [e, SExpr.sub, SExpr.syms] at hn
    subst hn
    have h7 := OEq.tildeName_length v k
    rw [← h] at h7
    simp at h7
  · simp [e, SExpr.SmoothAt, SExpr.sub, SExpr.eval, devEnv, hY.ne']
  · obtain ⟨l, hl, _⟩ := C93_coefficients [⟨['Y'], .t 0, []⟩] [['a']] [['Y']] e hacc
    rw [hl]; rfl

end GE
