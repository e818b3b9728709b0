import Verif.Model.SSGraphs
import Verif.Props.SSDriver3
import Verif.Props.ObsEq
import Verif.Props.ClosedForm
import Mathlib.Analysis.SpecialFunctions.Sqrt
import Mathlib.Analysis.Calculus.Deriv.Abs
/-! # C123: the functions the steady-state solvers get are the model's equations, their error and its derivatives -/

namespace GE

/-- specification: `σ` gives entry `i` of `x` to unknown `i`, and to everything else the parameter value of its name -/
def PointIs (nodes : List Sym) (params : List (Str × ℝ)) (x : Nat → ℝ) (σ : Sym → ℝ) : Prop :=
  (∀ (i : Nat) (n : Sym), nodes[i]? = some n → σ n = x i) ∧ ∀ s ∉ nodes, ∀ v, dget params (symName s) = some v → σ s = v

/-- specification: everything in the equations is an unknown or a parameter with a value -/
def Closed (equations : List SExpr) (nodes : List Sym) (params : List (Str × ℝ)) : Prop :=
  ∀ e ∈ equations, ∀ s ∈ e.syms, s ∈ nodes ∨ symName s ∈ dkeys params

/-- specification: where the error function is differentiable: inside the domains of the equations; for `abs` no residual is zero, for `l2-norm`
not all are -/
def ErrSmooth (eqs : List SExpr) (f : ErrFn) (env : Sym → ℝ) : Prop :=
  (∀ e ∈ eqs, e.SmoothAt env) ∧ (f = .abs → ∀ e ∈ eqs, e.eval env ≠ 0) ∧ (f = .l2norm → ∃ e ∈ eqs, e.eval env ≠ 0)

/-- specification: the point of the original variables the solver reports when the optimizer stands at `x` -/
noncomputable def reportedPoint (plan : BoundPlan) (n : Nat) (x : Nat → ℝ) (i : Nat) : ℝ := (minimizePoint plan ((List.range n).map x)).getD i 0

namespace SSG

/-- inside the domain of all operations -/
def Smooth (p : Nat → ℝ) (env : Sym → ℝ) : TG → Prop
  | .s e => e.SmoothAt env
  | .add a b => Smooth p env a ∧ Smooth p env b
  | .mul a b => Smooth p env a ∧ Smooth p env b
  | .abs a => Smooth p env a ∧ a.eval p env ≠ 0
  | .sgn a => Smooth p env a ∧ a.eval p env ≠ 0
  | .sqrt a => Smooth p env a ∧ 0 < a.eval p env
  | .inv a => Smooth p env a ∧ a.eval p env ≠ 0
  | .dir _ => True

theorem chain (L : List Sym) (hn : L.Nodup) (c : ℝ → Sym → ℝ) (c' : Sym → ℝ) (s0 : ℝ) (hc : ∀ x, HasDerivAt (fun s => c s x) (c' x) s0)
    (h0 : ∀ x, x ∉ L → c' x = 0) (p : Nat → ℝ) (g : TG) (hs : Smooth p (c s0) g) :
    HasDerivAt (fun s => g.eval p (c s)) (L.map fun x => (g.grad x).eval p (c s0) * c' x).sum s0 := by
  induction g with
  | s e => exact OEq.chain L hn c c' s0 hc h0 e hs
  | dir i => simpa [TG.grad, TG.eval, SExpr.eval] using hasDerivAt_const s0 (p i)
  | add a b iha ihb =>
    have := (iha hs.1).add (ihb hs.2)
    refine this.congr_deriv ?_
    rw [← List.sum_map_add]
    congr 1
    refine List.map_congr_left fun x _ => ?_
    simp only [TG.grad, TG.eval]; ring
  | mul a b iha ihb =>
    have := (iha hs.1).fun_mul (ihb hs.2)
    refine this.congr_deriv ?_
    rw [← List.sum_map_mul_right, ← List.sum_map_mul_left, ← List.sum_map_add]
    congr 1
    refine List.map_congr_left fun x _ => ?_
    simp only [TG.grad, TG.eval]; ring
  | abs a ih =>
    have := (hasDerivAt_abs hs.2).comp s0 (ih hs.1)
    refine this.congr_deriv ?_
    rw [← List.sum_map_mul_left]
    congr 1
    refine List.map_congr_left fun x _ => ?_
    simp only [TG.grad, TG.eval]; ring
  | sgn a ih =>
    have h1 : HasDerivAt (fun s => ((SignType.sign (a.eval p (c s)) : SignType) : ℝ)) 0 s0 := by
      have hcont := (ih hs.1).continuousAt
      rcases lt_or_gt_of_ne hs.2 with h | h
      · have : (fun s => ((SignType.sign (a.eval p (c s)) : SignType) : ℝ)) =ᶠ[nhds s0] fun _ => -1 := by
          filter_upwards [hcont.eventually_lt_const h] with s hs
          rw [sign_neg hs]; simp
        exact (hasDerivAt_const s0 (-1 : ℝ)).congr_of_eventuallyEq this
      · have : (fun s => ((SignType.sign (a.eval p (c s)) : SignType) : ℝ)) =ᶠ[nhds s0] fun _ => 1 := by
          filter_upwards [hcont.eventually_const_lt h] with s hs
          rw [sign_pos hs]; simp
        exact (hasDerivAt_const s0 (1 : ℝ)).congr_of_eventuallyEq this
    refine h1.congr_deriv ?_
    symm
    simp [TG.grad, TG.eval, SExpr.eval]
  | sqrt a ih =>
    have := (ih hs.1).sqrt hs.2.ne'
    refine this.congr_deriv ?_
    rw [div_eq_mul_inv, ← List.sum_map_mul_right]
    congr 1
    refine List.map_congr_left fun x _ => ?_
    simp only [TG.grad, TG.eval, SExpr.eval]
    push_cast
    ring
  | inv a ih =>
    have := (ih hs.1).fun_inv hs.2
    refine this.congr_deriv ?_
    rw [show ∀ S b : ℝ, -S / b = S * (-b⁻¹) from fun S b => by rw [neg_div, div_eq_mul_inv]; ring, ← List.sum_map_mul_right]
    congr 1
    refine List.map_congr_left fun x _ => ?_
    simp only [TG.grad, TG.eval, SExpr.eval]
    push_cast
    ring

theorem sdiff_smooth (x : Sym) (env : Sym → ℝ) (e : SExpr) (hs : e.SmoothAt env) : (e.diff x).SmoothAt env := by
  induction e with
  | num q => trivial
  | sym s => simp only [SExpr.diff]; split <;> trivial
  | add a b iha ihb => exact ⟨iha hs.1, ihb hs.2⟩
  | mul a b iha ihb => exact ⟨⟨iha hs.1, hs.2⟩, hs.1, ihb hs.2⟩
  | exp a ih => exact ⟨hs, ih hs⟩
  | log a ih => exact ⟨ih hs.1, hs.1, trivial, .inr ⟨hs.2, _, rfl⟩⟩
  | pow a b iha ihb =>
    have h0 : a.eval env ≠ 0 := hs.2.2.elim (fun h => h.ne') fun h => h.1
    exact ⟨hs, ⟨ihb hs.2.1, hs.1, h0⟩, iha hs.1, hs.2.1, hs.1, trivial, .inr ⟨h0, _, rfl⟩⟩

theorem grad_smooth (x : Sym) (p : Nat → ℝ) (env : Sym → ℝ) (g : TG) (hs : Smooth p env g) : Smooth p env (g.grad x) := by
  induction g with
  | s e => exact sdiff_smooth x env e hs
  | dir i => trivial
  | add a b iha ihb => exact ⟨iha hs.1, ihb hs.2⟩
  | mul a b iha ihb => exact ⟨⟨iha hs.1, hs.2⟩, hs.1, ihb hs.2⟩
  | abs a ih => exact ⟨hs, ih hs.1⟩
  | sgn a ih => trivial
  | sqrt a ih =>
    refine ⟨ih hs.1, ⟨trivial, hs⟩, ?_⟩
    have := Real.sqrt_pos.mpr hs.2
    simp only [TG.eval, SExpr.eval]
    push_cast
    positivity
  | inv a ih => exact ⟨ih hs.1, trivial, ⟨hs.1, hs.1⟩, mul_ne_zero hs.2 hs.2⟩

theorem sdiff_symm (x y : Sym) (env : Sym → ℝ) (e : SExpr) : ((e.diff x).diff y).eval env = ((e.diff y).diff x).eval env := by
  induction e with
  | num q => rfl
  | sym s => simp only [SExpr.diff]; split <;> split <;> rfl
  | add a b iha ihb => simp only [SExpr.diff, SExpr.eval, iha, ihb]
  | mul a b iha ihb => simp only [SExpr.diff, SExpr.eval, iha, ihb]; ring
  | exp a ih => simp only [SExpr.diff, SExpr.eval, ih]; ring
  | log a ih => simp only [SExpr.diff, SExpr.div, SExpr.eval, ih]; push_cast; ring
  | pow a b iha ihb => simp only [SExpr.diff, SExpr.div, SExpr.eval, iha, ihb]; push_cast; ring

theorem grad_symm (x y : Sym) (p : Nat → ℝ) (env : Sym → ℝ) (g : TG) : ((g.grad x).grad y).eval p env = ((g.grad y).grad x).eval p env := by
  induction g with
  | s e => exact sdiff_symm x y env e
  | dir i => rfl
  | add a b iha ihb => simp only [TG.grad, TG.eval, iha, ihb]
  | mul a b iha ihb => simp only [TG.grad, TG.eval, iha, ihb]; ring
  | abs a ih => simp only [TG.grad, TG.eval, ih, SExpr.eval]; ring
  | sgn a ih => rfl
  | sqrt a ih => simp only [TG.grad, TG.eval, ih, SExpr.diff, SExpr.eval]; push_cast; ring
  | inv a ih => simp only [TG.grad, TG.eval, ih, SExpr.diff, SExpr.eval]; push_cast; ring

theorem eval_congr (p : Nat → ℝ) (g : TG) (env env' : Sym → ℝ) (h : ∀ s ∈ g.syms, env s = env' s) : g.eval p env = g.eval p env' := by
  induction g with
  | s e => exact OEq.eval_congr e env env' h
  | dir i => rfl
  | add a b iha ihb =>
    simp only [TG.eval]; rw [iha fun s hs => h s (by simp [TG.syms, hs]), ihb fun s hs => h s (by simp [TG.syms, hs])]
  | mul a b iha ihb =>
    simp only [TG.eval]; rw [iha fun s hs => h s (by simp [TG.syms, hs]), ihb fun s hs => h s (by simp [TG.syms, hs])]
  | abs a ih => simp only [TG.eval]; rw [ih h]
  | sgn a ih => simp only [TG.eval]; rw [ih h]
  | sqrt a ih => simp only [TG.eval]; rw [ih h]
  | inv a ih => simp only [TG.eval]; rw [ih h]

theorem syms_grad (x : Sym) (g : TG) : ∀ s ∈ (g.grad x).syms, s ∈ g.syms := by
  induction g with
  | s e => exact fun s hs => Clf.syms_diff _ _ _ hs
  | dir i => simp [TG.grad, TG.syms, SExpr.syms]
  | add a b iha ihb =>
    intro s hs
    simp only [TG.grad, TG.syms, List.mem_append] at hs ⊢
    exact hs.imp (iha s) (ihb s)
  | mul a b iha ihb =>
    intro s hs
    simp only [TG.grad, TG.syms, List.mem_append] at hs ⊢
    rcases hs with (h | h) | h | h
    exacts [.inl (iha s h), .inr h, .inl h, .inr (ihb s h)]
  | abs a ih =>
    intro s hs
    simp only [TG.grad, TG.syms, List.mem_append] at hs ⊢
    exact hs.elim id (ih s)
  | sgn a ih => simp [TG.grad, TG.syms, SExpr.syms]
  | sqrt a ih =>
    intro s hs
    simp only [TG.grad, TG.syms, SExpr.syms, List.mem_append, List.not_mem_nil, false_or] at hs ⊢
    exact hs.elim (ih s) id
  | inv a ih =>
    intro s hs
    simp only [TG.grad, TG.syms, SExpr.syms, List.mem_append, List.not_mem_nil, false_or, or_self] at hs ⊢
    exact hs.elim (ih s) id

theorem eval_sum (p : Nat → ℝ) (env : Sym → ℝ) (l : List TG) : (TG.sum l).eval p env = (l.map (TG.eval p env)).sum := by
  induction l with
  | nil => simp [TG.sum, TG.eval, SExpr.eval]
  | cons a l ih => simp only [TG.sum, List.foldr_cons, TG.eval, List.map_cons, List.sum_cons]; rw [← ih]; rfl

theorem smooth_sum (p : Nat → ℝ) (env : Sym → ℝ) (l : List TG) : Smooth p env (TG.sum l) ↔ ∀ g ∈ l, Smooth p env g := by
  induction l with
  | nil => simp [TG.sum, Smooth, SExpr.SmoothAt]
  | cons a l ih =>
    simp only [TG.sum, List.foldr_cons, Smooth, List.mem_cons, forall_eq_or_imp]
    exact and_congr Iff.rfl ih

theorem syms_sum (l : List TG) (s : Sym) : s ∈ (TG.sum l).syms ↔ ∃ g ∈ l, s ∈ g.syms := by
  induction l with
  | nil => simp [TG.sum, TG.syms, SExpr.syms]
  | cons a l ih =>
    simp only [TG.sum, List.foldr_cons, TG.syms, List.mem_append, List.mem_cons, exists_eq_or_imp]
    exact or_congr Iff.rfl ih

theorem grad_sum (x : Sym) (l : List TG) (p env) : ((TG.sum l).grad x).eval p env = (l.map fun g => (g.grad x).eval p env).sum := by
  induction l with
  | nil => simp [TG.sum, TG.grad, TG.eval, SExpr.eval, SExpr.diff]
  | cons a l ih => simp only [TG.sum, List.foldr_cons, TG.grad, TG.eval, List.map_cons, List.sum_cons]; rw [← ih]; rfl

/-- the error graph computes the documented error -/
theorem errorGraph_eval (eqs : List SExpr) (f : ErrFn) (p : Nat → ℝ) (env : Sym → ℝ) :
    (errorGraph eqs f).map (TG.eval p env) = errorFromResid (eqs.map (SExpr.eval env)) f := by
  have h1 : ∀ l : List SExpr, (List.map (TG.eval p env) (l.map fun r => TG.mul (.s r) (.s r))) = (l.map (SExpr.eval env)).map fun r => r ^ 2 := by
    intro l; simp [TG.eval, sq, Function.comp_def]
  cases f with
  | squared => simp only [errorGraph, errorFromResid, Option.map_some, eval_sum, h1]
  | meanSquared =>
    simp only [errorGraph, errorFromResid, Option.map_some, TG.eval, eval_sum, h1, SExpr.eval, div_eq_mul_inv, List.length_map, Rat.cast_natCast]
  | abs => simp only [errorGraph, errorFromResid, Option.map_some, eval_sum]; simp [TG.eval, Function.comp_def]
  | l2norm => simp only [errorGraph, errorFromResid, Option.map_some, TG.eval, eval_sum, h1]
  | other => rfl

theorem errorGraph_smooth (eqs : List SExpr) (f : ErrFn) (g : TG) (hg : errorGraph eqs f = some g) (p : Nat → ℝ) (env : Sym → ℝ)
    (h : ErrSmooth eqs f env) (hne : eqs ≠ []) : Smooth p env g := by
  have hsq : Smooth p env (TG.sum (eqs.map fun r => .mul (.s r) (.s r))) := by
    rw [smooth_sum]
    intro g hg
    obtain ⟨e, he, rfl⟩ := List.mem_map.mp hg
    exact ⟨h.1 e he, h.1 e he⟩
  cases f with
  | squared => cases hg; exact hsq
  | meanSquared =>
    cases hg
    refine ⟨hsq, trivial, ?_⟩
    simp only [TG.eval, SExpr.eval, Rat.cast_natCast]
    exact_mod_cast (List.length_pos_iff.mpr hne).ne'
  | abs =>
    cases hg
    rw [smooth_sum]
    intro g hg
    obtain ⟨e, he, rfl⟩ := List.mem_map.mp hg
    exact ⟨h.1 e he, h.2.1 rfl e he⟩
  | l2norm =>
    cases hg
    refine ⟨hsq, ?_⟩
    rw [eval_sum]
    obtain ⟨e, he, h0⟩ := h.2.2 rfl
    have hz := SSt.sum_nonneg_eq_zero ((eqs.map fun r => TG.mul (.s r) (.s r)).map (TG.eval p env)) (by
      intro r hr
      simp only [List.map_map, List.mem_map, Function.comp_apply, TG.eval] at hr
      obtain ⟨a, _, rfl⟩ := hr
      exact mul_self_nonneg _)
    refine lt_of_le_of_ne hz.1 fun hc => h0 ?_
    have := hz.2.mp hc.symm (e.eval env * e.eval env) (List.mem_map.mpr ⟨_, List.mem_map.mpr ⟨e, he, rfl⟩, rfl⟩)
    exact mul_self_eq_zero.mp this
  | other => cases hg

theorem errorGraph_syms (eqs : List SExpr) (f : ErrFn) (g : TG) (hg : errorGraph eqs f = some g) (s : Sym) :
    s ∈ g.syms ↔ ∃ e ∈ eqs, s ∈ e.syms := by
  cases f <;> cases hg <;> simp [syms_sum, TG.syms, SExpr.syms]

theorem grad_keeps (eqs : List SExpr) (f : ErrFn) (g : TG) (hg : errorGraph eqs f = some g) (x s : Sym) (hs : ∃ e ∈ eqs, s ∈ e.syms) :
    s ∈ (g.grad x).syms := by
  have hsum : ∀ l : List TG, (∃ g ∈ l, s ∈ (g.grad x).syms) → s ∈ ((TG.sum l).grad x).syms := by
    intro l
    induction l with
    | nil => simp
    | cons a l ih =>
      rintro ⟨g, hg, hs⟩
      simp only [TG.sum, List.foldr_cons, TG.grad, TG.syms, List.mem_append]
      rcases List.mem_cons.mp hg with rfl | hg
      · exact .inl hs
      · exact .inr (ih ⟨g, hg, hs⟩)
  obtain ⟨e, he, hs⟩ := hs
  have hsq : s ∈ ((TG.sum (eqs.map fun r => .mul (.s r) (.s r))).grad x).syms :=
    hsum _ ⟨_, List.mem_map.mpr ⟨e, he, rfl⟩, by simp [TG.grad, TG.syms, hs]⟩
  cases f with
  | squared => cases hg; exact hsq
  | meanSquared => cases hg; simp only [TG.grad, TG.syms, List.mem_append]; exact .inl (.inl hsq)
  | abs => cases hg; exact hsum _ ⟨_, List.mem_map.mpr ⟨e, he, rfl⟩, by simp [TG.grad, TG.syms, hs]⟩
  | l2norm => cases hg; simp only [TG.grad, TG.syms, List.mem_append]; exact .inl hsq
  | other => cases hg

/-! ### packing -/

/-- the values at the point `x` -/
noncomputable def at_ (nodes : List Sym) (params : List (Str × ℝ)) (x : Nat → ℝ) : Sym → ℝ := Drv.packValues 0 nodes params x

theorem at_node {nodes : List Sym} (hn : nodes.Nodup) (params : List (Str × ℝ)) (x : Nat → ℝ) {i : Nat} {n : Sym} (h : nodes[i]? = some n) :
    at_ nodes params x n = x i := by
  obtain ⟨hi, rfl⟩ := List.getElem?_eq_some_iff.mp h
  rw [at_, Drv.packValues, if_pos (List.getElem_mem hi), hn.idxOf_getElem]

/-- at a point described by `σ`, `σ` and the compiled function agree on the inputs -/
theorem at_eq {nodes : List Sym} (hn : nodes.Nodup) {params : List (Str × ℝ)} {x : Nat → ℝ} {σ : Sym → ℝ} (hσ : PointIs nodes params x σ) (s : Sym)
    (hs : s ∈ nodes ∨ symName s ∈ dkeys params) : at_ nodes params x s = σ s := by
  by_cases h : s ∈ nodes
  · obtain ⟨i, hi⟩ := List.getElem?_of_mem h
    rw [at_node hn params x hi, hσ.1 i s hi]
  · rw [at_, Drv.packValues, if_neg h]
    obtain ⟨v, hv⟩ := Option.isSome_iff_exists.mp ((dget_isSome _ _).mpr (hs.resolve_left h))
    rw [hv, Option.getD_some, hσ.2 s h v hv]

theorem at_update {nodes : List Sym} (hn : nodes.Nodup) (params : List (Str × ℝ)) (x : Nat → ℝ) {k : Nat} {n : Sym} (hk : nodes[k]? = some n) (v : ℝ) :
    at_ nodes params (Function.update x k v) = Function.update (at_ nodes params x) n v := by
  funext s
  obtain ⟨hk', hkn⟩ := List.getElem?_eq_some_iff.mp hk
  by_cases h : s = n
  · subst h
    rw [Function.update_self, at_node hn params _ hk, Function.update_self]
  · rw [Function.update_of_ne h]
    unfold at_ Drv.packValues
    split
    · next hs =>
      rw [Function.update_of_ne]
      intro hc
      exact h (by rw [← List.getElem_idxOf (List.idxOf_lt_length_iff.mpr hs)]; simp only [hc]; exact hkn)
    · rfl

theorem callVector_eq {nodes : List Sym} (hn : nodes.Nodup) (params : List (Str × ℝ)) (g : List TG)
    (hs : ∀ e ∈ g, ∀ s ∈ e.syms, s ∈ nodes ∨ symName s ∈ dkeys params) (x : Nat → ℝ) :
    callVector nodes params g x = some (g.map (TG.eval 0 (at_ nodes params x))) := by
  unfold callVector
  rw [(Drv.packed (fun g : List TG => g.flatMap TG.syms) (fun g env => g.map (TG.eval 0 env)) 0 ?_ [g] nodes hn params x).1 ?_]
  · rfl
  · intro g env env' h
    exact List.map_congr_left fun e he => eval_congr 0 e env env' fun s hs => h s (List.mem_flatMap.mpr ⟨e, he, hs⟩)
  · intro e he s hse
    rw [List.mem_singleton] at he; subst he
    obtain ⟨a, ha, hsa⟩ := List.mem_flatMap.mp hse
    exact hs a ha s hsa

theorem callMatrix_eq {nodes : List Sym} (hn : nodes.Nodup) (params : List (Str × ℝ)) (g : List (List TG))
    (hs : ∀ row ∈ g, ∀ e ∈ row, ∀ s ∈ e.syms, s ∈ nodes ∨ symName s ∈ dkeys params) (x : Nat → ℝ) :
    callMatrix nodes params g x = some (g.map fun row => row.map (TG.eval 0 (at_ nodes params x))) := by
  unfold callMatrix
  rw [(Drv.packed (fun g : List (List TG) => g.flatten.flatMap TG.syms) (fun g env => g.map fun row => row.map (TG.eval 0 env)) 0 ?_ [g] nodes hn params x).1 ?_]
  · rfl
  · intro g env env' h
    exact List.map_congr_left fun row hr => List.map_congr_left fun e he =>
      eval_congr 0 e env env' fun s hs => h s (List.mem_flatMap.mpr ⟨e, List.mem_flatten.mpr ⟨row, hr, he⟩, hs⟩)
  · intro e he s hse
    rw [List.mem_singleton] at he; subst he
    obtain ⟨a, ha, hsa⟩ := List.mem_flatMap.mp hse
    obtain ⟨row, hr, har⟩ := List.mem_flatten.mp ha
    exact hs row hr a har s hsa

theorem callScalar_eq {nodes : List Sym} (hn : nodes.Nodup) (params : List (Str × ℝ)) (g : TG)
    (hs : ∀ s ∈ g.syms, s ∈ nodes ∨ symName s ∈ dkeys params) (x : Nat → ℝ) :
    callScalar nodes params g x = some (g.eval 0 (at_ nodes params x)) := by
  unfold callScalar
  rw [(Drv.packed TG.syms (fun g env => TG.eval 0 env g) 0 ?_ [g] nodes hn params x).1 ?_]
  · rfl
  · exact fun g env env' h => eval_congr 0 g env env' h
  · intro e he s hse
    rw [List.mem_singleton] at he; subst he
    exact hs s hse

/-- moving one coordinate -/
theorem partial_ {nodes : List Sym} (hn : nodes.Nodup) (params : List (Str × ℝ)) (x : Nat → ℝ) {k : Nat} {n : Sym} (hk : nodes[k]? = some n) (p : Nat → ℝ)
    (g : TG) (hs : Smooth p (at_ nodes params x) g) :
    HasDerivAt (fun v => g.eval p (at_ nodes params (Function.update x k v))) ((g.grad n).eval p (at_ nodes params x)) (x k) := by
  have hx : at_ nodes params (Function.update x k (x k)) = at_ nodes params x := by rw [Function.update_eq_self]
  have key := chain [n] (List.nodup_singleton n) (fun v => at_ nodes params (Function.update x k v)) (fun s => if s = n then 1 else 0) (x k) ?_ ?_ p g
    (by rw [hx]; exact hs)
  · simpa [hx] using key
  · intro s
    simp only [at_update hn params x hk]
    by_cases h : s = n
    · subst h; simpa using hasDerivAt_id' (x k)
    · simpa [h] using hasDerivAt_const (x k) (at_ nodes params x s)
  · intro s hs; simp only [List.mem_singleton] at hs; simp [hs]

/-- moving along a direction -/
theorem along {nodes : List Sym} (hn : nodes.Nodup) (params : List (Str × ℝ)) (x p q : Nat → ℝ) (g : TG) (hs : Smooth q (at_ nodes params x) g) :
    HasDerivAt (fun t => g.eval q (at_ nodes params fun i => x i + t * p i))
      ((nodes.zipIdx).map fun n => (g.grad n.1).eval q (at_ nodes params x) * p n.2).sum 0 := by
  have hx : at_ nodes params (fun i => x i + 0 * p i) = at_ nodes params x := by simp
  have key := chain nodes hn (fun t => at_ nodes params fun i => x i + t * p i) (fun s => if s ∈ nodes then p (nodes.idxOf s) else 0) 0 ?_ ?_ q g
    (by rw [hx]; exact hs)
  · refine key.congr_deriv ?_
    rw [hx, ← List.zipIdx_map_fst 0 nodes, List.map_map]
    rw [List.zipIdx_map_fst]
    congr 1
    refine List.map_congr_left fun n hm => ?_
    have hi := List.mem_zipIdx_iff_getElem?.mp hm
    obtain ⟨hlt, hv⟩ := List.getElem?_eq_some_iff.mp hi
    have : nodes.idxOf n.1 = n.2 := by rw [← hv]; exact hn.idxOf_getElem _ _
    simp only [Function.comp_apply, if_pos (List.mem_of_getElem? hi), this]
  · intro s
    unfold at_ Drv.packValues
    by_cases h : s ∈ nodes
    · simp only [if_pos h]
      have := ((hasDerivAt_id (0 : ℝ)).mul_const (p (nodes.idxOf s))).const_add (x (nodes.idxOf s))
      simpa using this
    · simp only [if_neg h]; exact hasDerivAt_const _ _
  · intro s hs; simp [hs]

/-! ### the root solver -/

theorem stack_map {α β : Type} (rows : List α) (cols : List β) (f : β → α → SExpr) :
    stackColumns rows.length (cols.map fun x => rows.map (f x)) = rows.map fun e => cols.map fun x => f x e := by
  apply List.ext_getElem
  · simp [stackColumns]
  · intro i h1 h2
    have hi : i < rows.length := by simpa [stackColumns] using h1
    simp [stackColumns, List.filterMap_map, Function.comp_def, List.getElem?_eq_getElem hi]

theorem stack_mapT {α β : Type} (rows : List α) (cols : List β) (f : β → α → TG) (n : Nat) (hn : rows.length = n) :
    stackColumns n (cols.map fun x => rows.map (f x)) = rows.map fun e => cols.map fun x => f x e := by
  subst hn
  apply List.ext_getElem
  · simp [stackColumns]
  · intro i h1 h2
    have hi : i < rows.length := by simpa [stackColumns] using h1
    simp [stackColumns, List.filterMap_map, Function.comp_def, List.getElem?_eq_getElem hi]

theorem connected_ok (outputs : List (List Sym)) (nodes : List Sym) :
    connected outputs nodes = .ok () ↔ ∀ n ∈ nodes, ∃ o ∈ outputs, n ∈ o := by
  unfold connected
  dsimp only
  split
  · next h =>
    simp only [true_iff]
    intro n hn
    have := List.filter_eq_nil_iff.mp h n hn
    simpa using this
  · next h =>
    constructor
    · intro hc; cases hc
    · intro hall
      refine absurd (List.filter_eq_nil_iff.mpr fun n hn => ?_) h
      obtain ⟨o, ho, hno⟩ := hall n hn
      simpa using ⟨o, ho, hno⟩

theorem connected_err (outputs : List (List Sym)) (nodes : List Sym) (e : GraphErr) (h : connected outputs nodes = .error e) :
    ∃ bad, e = .disconnected bad ∧ bad ≠ [] ∧ ∀ n, n ∈ bad ↔ n ∈ nodes ∧ ∀ o ∈ outputs, n ∉ o := by
  unfold connected at h
  dsimp only at h
  split at h
  · cases h
  · next hb =>
    cases h
    refine ⟨_, rfl, hb, fun n => ?_⟩
    simp

theorem root_jac {eqs : List SExpr} {nodes : List Sym} {r j} (h : buildRootGraphs eqs nodes true = .ok (r, j)) :
    r = eqs ∧ ∃ M, j = some M ∧ M.length = eqs.length ∧ (∀ row ∈ M, row.length = nodes.length) ∧
      (eqs ≠ [] ∧ nodes ≠ [] → M = eqs.map fun e => nodes.map fun x => e.diff x) ∧
      ∀ row ∈ M, ∀ e' ∈ row, ∀ s ∈ e'.syms, ∃ e ∈ eqs, s ∈ e.syms := by
  unfold buildRootGraphs at h
  rw [if_pos rfl] at h
  split at h
  · next hne =>
    split at h
    · cases h
    · cases h
      rw [stack_map]
      refine ⟨rfl, _, rfl, by simp, by simp, fun _ => rfl, ?_⟩
      intro row hr e' he' s hs
      obtain ⟨e, he, rfl⟩ := List.mem_map.mp hr
      obtain ⟨n, _, rfl⟩ := List.mem_map.mp he'
      exact ⟨e, he, Clf.syms_diff _ _ _ hs⟩
  · next hne =>
    cases h
    refine ⟨rfl, _, rfl, by simp, ?_, fun hc => absurd hc hne, ?_⟩
    · intro row hr; rw [List.eq_of_mem_replicate hr]; simp
    · intro row hr e' he' s hs
      rw [List.eq_of_mem_replicate hr] at he'
      rw [List.eq_of_mem_replicate he'] at hs
      simp [SExpr.syms] at hs

theorem root_ok {eqs : List SExpr} {nodes asm params useJac kw} {c : RootCall} (h : rootCall eqs nodes asm params useJac kw = .ok c) :
    ∃ j, buildRootGraphs eqs nodes useJac = .ok (eqs, j) ∧ c.f = callVector nodes params (eqs.map TG.s) ∧
      c.jac = j.map fun j => callMatrix nodes params (j.map fun row => row.map TG.s) := by
  unfold rootCall at h
  dsimp only at h
  split at h
  · cases h
  · next r j hb =>
    have hr : r = eqs := by
      cases useJac
      · simp only [buildRootGraphs, Bool.false_eq_true, if_false, Except.ok.injEq, Prod.mk.injEq] at hb; exact hb.1.symm
      · exact (root_jac hb).1
    subst hr
    cases h
    exact ⟨j, hb, rfl, rfl⟩

theorem closed_at {nodes : List Sym} (hn : nodes.Nodup) {params : List (Str × ℝ)} {eqs : List SExpr} (hcl : Closed eqs nodes params) {x : Nat → ℝ}
    {σ : Sym → ℝ} (hσ : PointIs nodes params x σ) {e : SExpr} (he : e ∈ eqs) :
    (∀ s ∈ e.syms, at_ nodes params x s = σ s) := fun s hs => at_eq hn hσ s (hcl e he s hs)

theorem f_eq {nodes : List Sym} (hn : nodes.Nodup) {params : List (Str × ℝ)} {eqs : List SExpr} (hcl : Closed eqs nodes params) (x : Nat → ℝ) :
    callVector nodes params (eqs.map TG.s) x = some (eqs.map (SExpr.eval (at_ nodes params x))) := by
  rw [callVector_eq hn]
  · simp [TG.eval, Function.comp_def]
  · intro g hg s hs
    obtain ⟨e, he, rfl⟩ := List.mem_map.mp hg
    exact hcl e he s hs

end SSG

/-- **C123** `how="root"`: at every point, the function scipy gets returns the value of every remaining equation, in order, with the unknowns read
from the vector and the parameters by name. -/
theorem C123_residual (eqs : List SExpr) (nodes : List Sym) (hn : nodes.Nodup) (asm : List Asm) (params : List (Str × ℝ)) (hcl : Closed eqs nodes params)
    (useJac : Bool) (kw : OptKw) (c : RootCall) (h : rootCall eqs nodes asm params useJac kw = .ok c) (x : Nat → ℝ) (σ : Sym → ℝ)
    (hσ : PointIs nodes params x σ) : c.f x = some (eqs.map (SExpr.eval σ)) := by
  obtain ⟨j, _, hf, _⟩ := SSG.root_ok h
  rw [hf, SSG.f_eq hn hcl]
  congr 1
  exact List.map_congr_left fun e he => OEq.eval_congr e _ _ (SSG.closed_at hn hcl hσ he)

/-- **C123** `how="root"`: the Jacobian scipy gets has one row per equation and one column per unknown, and its entries are the derivatives of
the residual function wherever the equations are inside their domains. -/
theorem C123_jacobian (eqs : List SExpr) (nodes : List Sym) (hn : nodes.Nodup) (asm : List Asm) (params : List (Str × ℝ)) (hcl : Closed eqs nodes params)
    (kw : OptKw) (c : RootCall) (h : rootCall eqs nodes asm params true kw = .ok c) (x : Nat → ℝ) :
    ∃ j M, c.jac = some j ∧ j x = some M ∧ M.length = eqs.length ∧ (∀ row ∈ M, row.length = nodes.length) ∧
      ∀ σ, PointIs nodes params x σ → ∀ (i : Nat) (e : SExpr), eqs[i]? = some e → e.SmoothAt σ → ∀ k < nodes.length,
        HasDerivAt (fun v => ((c.f (Function.update x k v)).getD []).getD i 0) ((M.getD i []).getD k 0) (x k) := by
  obtain ⟨j, hb, hf, hj⟩ := SSG.root_ok h
  obtain ⟨_, J, rfl, hl, hrow, heq, hsy⟩ := SSG.root_jac hb
  refine ⟨_, _, hj, SSG.callMatrix_eq hn params _ ?_ x, ?_, ?_, ?_⟩
  · intro row hr e he s hs
    obtain ⟨row', hr', rfl⟩ := List.mem_map.mp hr
    obtain ⟨e', he', rfl⟩ := List.mem_map.mp he
    obtain ⟨e, he, hse⟩ := hsy row' hr' e' he' s hs
    exact hcl e he s hse
  · simp [hl]
  · intro row hr
    simp only [List.map_map, List.mem_map, Function.comp_apply] at hr
    obtain ⟨row', hr', rfl⟩ := hr
    simp [hrow row' hr']
  · intro σ hσ i e he hsm k hk
    have hM := heq ⟨by rintro rfl; simp at he, by rintro rfl; simp at hk⟩
    have hnk := List.getElem?_eq_getElem hk
    have key := SSG.partial_ hn params x hnk 0 (.s e)
      (OEq.smooth_congr e _ _ (fun s hs => (SSG.closed_at hn hcl hσ (List.mem_of_getElem? he) s hs).symm) hsm)
    have hfun : (fun v => ((c.f (Function.update x k v)).getD []).getD i 0) = fun v => (TG.s e).eval 0 (SSG.at_ nodes params (Function.update x k v)) := by
      funext v
      rw [hf, SSG.f_eq hn hcl]
      simp [List.getD_eq_getElem?_getD, he, TG.eval]
    rw [hfun]
    refine key.congr_deriv ?_
    simp [hM, List.getD_eq_getElem?_getD, he, List.getElem?_eq_getElem hk, TG.eval, TG.grad]

/-- **C123** `how="root"`: with a Jacobian asked for, pytensor refuses exactly when some unknown occurs in no remaining equation, and names
those unknowns. -/
theorem C123_root_refuses (eqs : List SExpr) (nodes : List Sym) (asm : List Asm) (params : List (Str × ℝ)) (useJac : Bool) (kw : OptKw) :
    ((∃ c, rootCall eqs nodes asm params useJac kw = .ok c) ↔
      (useJac = true → eqs ≠ [] → ∀ n ∈ nodes, ∃ e ∈ eqs, n ∈ e.syms)) ∧
    ∀ err, rootCall eqs nodes asm params useJac kw = .error err →
      ∃ bad, err = .disconnected bad ∧ bad ≠ [] ∧ ∀ n, n ∈ bad ↔ n ∈ nodes ∧ ∀ e ∈ eqs, n ∉ e.syms := by
  have h1 : (∃ c, rootCall eqs nodes asm params useJac kw = .ok c) ↔ ∃ r, buildRootGraphs eqs nodes useJac = .ok r := by
    unfold rootCall
    dsimp only
    cases buildRootGraphs eqs nodes useJac with
    | ok r => exact ⟨fun _ => ⟨r, rfl⟩, fun _ => ⟨_, rfl⟩⟩
    | error e => exact ⟨fun ⟨_, h⟩ => (by cases h), fun ⟨_, h⟩ => (by cases h)⟩
  have h2 : ∀ err, rootCall eqs nodes asm params useJac kw = .error err → buildRootGraphs eqs nodes useJac = .error err := by
    intro err
    unfold rootCall
    dsimp only
    cases buildRootGraphs eqs nodes useJac with
    | ok r => intro h; cases h
    | error e => intro h; cases h; rfl
  rw [h1]
  suffices hs : ((∃ r, buildRootGraphs eqs nodes useJac = .ok r) ↔ (useJac = true → eqs ≠ [] → ∀ n ∈ nodes, ∃ e ∈ eqs, n ∈ e.syms)) ∧
      ∀ err, buildRootGraphs eqs nodes useJac = .error err →
        ∃ bad, err = .disconnected bad ∧ bad ≠ [] ∧ ∀ n, n ∈ bad ↔ n ∈ nodes ∧ ∀ e ∈ eqs, n ∉ e.syms from
    ⟨hs.1, fun err h => hs.2 err (h2 err h)⟩
  clear h1 h2
  have hcon : connected (eqs.map SExpr.syms) nodes = .ok () ↔ ∀ n ∈ nodes, ∃ e ∈ eqs, n ∈ e.syms := by
    rw [SSG.connected_ok]; simp
  unfold buildRootGraphs
  cases useJac
  · exact ⟨⟨fun _ h => (by cases h), fun _ => ⟨_, rfl⟩⟩, fun err h => (by cases h)⟩
  · by_cases hne : eqs ≠ [] ∧ nodes ≠ []
    · rw [if_pos rfl, if_pos hne]
      cases hc : connected (eqs.map SExpr.syms) nodes with
      | ok u => exact ⟨⟨fun _ _ _ => hcon.mp hc, fun _ => ⟨_, rfl⟩⟩, fun err h => by cases h⟩
      | error e =>
        refine ⟨⟨fun ⟨_, h⟩ => (by cases h), fun h => ?_⟩, fun err h => ?_⟩
        · rw [hcon.mpr (h rfl hne.1)] at hc; cases hc
        · cases h
          obtain ⟨bad, h1, h2, h3⟩ := SSG.connected_err _ _ _ hc
          exact ⟨bad, h1, h2, fun n => by rw [h3]; simp⟩
    · rw [if_pos rfl, if_neg hne]
      refine ⟨⟨fun _ _ h1 => ?_, fun _ => ⟨_, rfl⟩⟩, fun err h => by cases h⟩
      have : nodes = [] := by by_contra h; exact hne ⟨h1, h⟩
      simp [this]

namespace SSG

/-- the equations `minimize` works on -/
def solveEqs (eqs : List SExpr) (nodes : List Sym) : BoundPlan → List SExpr
  | .box _ _ => eqs
  | .transformed _ ts => transformEquations eqs nodes ts

theorem back_syms (t : Option Transform) (s s' : Sym) : s' ∈ (backwardExpr t (.sym s)).syms ↔ s' = s := by
  rcases t with _ | ⟨lo, hi⟩ | _ | _
  · simp [backwardExpr, SExpr.syms]
  · rcases lo with _ | lo <;> rcases hi with _ | hi <;> simp [backwardExpr, sigmoidExpr, SExpr.syms, SExpr.sub, SExpr.neg]
  · simp [backwardExpr, sigmoidExpr, SExpr.syms, SExpr.neg]
  · simp [backwardExpr, SExpr.syms]

theorem back_smooth (t : Option Transform) (s : Sym) (env : Sym → ℝ) : (backwardExpr t (.sym s)).SmoothAt env := by
  have hsig : (sigmoidExpr (.sym s)).SmoothAt env := by
    refine ⟨⟨trivial, trivial, trivial⟩, trivial, .inl ?_⟩
    simp only [SExpr.eval]
    have := Real.exp_pos ((SExpr.neg (.sym s)).eval env)
    push_cast
    positivity
  rcases t with _ | ⟨lo, hi⟩ | _ | _
  · trivial
  · rcases lo with _ | lo <;> rcases hi with _ | hi
    · trivial
    · exact ⟨trivial, trivial, trivial⟩
    · exact ⟨trivial, trivial⟩
    · exact ⟨⟨hsig, trivial⟩, ⟨trivial, trivial, hsig⟩, trivial⟩
  · exact hsig
  · trivial

/-- what the transformed equations are -/
theorem solve_spec (nodes : List Sym) (hn : nodes.Nodup) (plan : BoundPlan) (hp : ∀ m ts, plan = .transformed m ts → ts.length = nodes.length) :
    ∃ tr : SExpr → SExpr, (∀ eqs, solveEqs eqs nodes plan = eqs.map tr) ∧ (∀ e s, s ∈ (tr e).syms ↔ s ∈ e.syms) ∧
      (∀ params x e, (tr e).eval (at_ nodes params x) = e.eval (at_ nodes params (reportedPoint plan nodes.length x))) ∧
      ∀ params x e, e.SmoothAt (at_ nodes params (reportedPoint plan nodes.length x)) → (tr e).SmoothAt (at_ nodes params x) := by
  cases plan with
  | box m b =>
    have hpt : ∀ params x, ∀ s, at_ nodes params (reportedPoint (.box m b) nodes.length x) s = at_ nodes params x s := by
      intro params x s
      unfold at_ Drv.packValues
      split
      · next hs =>
        simp [reportedPoint, minimizePoint, List.getD_eq_getElem?_getD, List.getElem?_range (List.idxOf_lt_length_iff.mpr hs)]
      · rfl
    refine ⟨id, fun eqs => by simp [solveEqs], fun _ _ => Iff.rfl, fun params x e => ?_, fun params x e h => ?_⟩
    · exact OEq.eval_congr e _ _ fun s _ => (hpt params x s).symm
    · exact OEq.smooth_congr e _ _ (fun s _ => hpt params x s) h
  | transformed m ts =>
    have hl := hp m ts rfl
    set f : Sym → SExpr := fun s => match dget (dupdate [] (nodes.zip ts)) s with
      | some t => backwardExpr t (.sym s)
      | none => .sym s with hf
    have hk : dkeys (nodes.zip ts) = nodes := by unfold dkeys; rw [List.map_fst_zip (by omega)]
    have hd : dupdate [] (nodes.zip ts) = nodes.zip ts := by
      rw [dupdate_fresh [] _ (by rw [List.nil_append, hk]; exact hn)]; rfl
    have hget : ∀ (i : Nat) (n : Sym) (t : Option Transform), nodes[i]? = some n → ts[i]? = some t → dget (dupdate [] (nodes.zip ts)) n = some t := by
      intro i n t h1 h2
      rw [hd]
      refine dget_of_mem _ (by rw [hk]; exact hn) _ _ (List.mem_of_getElem? (i := i) ?_)
      rw [List.getElem?_zip_eq_some]; exact ⟨h1, h2⟩
    have hnone : ∀ s, s ∉ nodes → dget (dupdate [] (nodes.zip ts)) s = none := by
      intro s hs
      rw [hd, dget_eq_none, hk]; exact hs
    have hev : ∀ params x s, (f s).eval (at_ nodes params x) = at_ nodes params (reportedPoint (.transformed m ts) nodes.length x) s := by
      intro params x s
      by_cases hs : s ∈ nodes
      · obtain ⟨i, hi⟩ := List.getElem?_of_mem hs
        have hi' := (List.getElem?_eq_some_iff.mp hi).1
        have ht : ts[i]? = some ts[i] := List.getElem?_eq_getElem (by omega)
        have hfs : f s = backwardExpr ts[i] (.sym s) := by simp only [hf, hget i s _ hi ht]
        rw [hfs, Drv.back_eval, at_node hn _ _ hi]
        simp only [SExpr.eval, at_node hn _ _ hi, reportedPoint, minimizePoint, Drv.toConstrained_eq, List.getD_eq_getElem?_getD, List.getElem?_zipWith, ht,
          List.getElem?_map, List.getElem?_range hi', Option.map_some, Option.getD_some]
      · have hfs : f s = .sym s := by simp only [hf, hnone s hs]
        rw [hfs]
        simp only [SExpr.eval, at_, Drv.packValues, if_neg hs]
    refine ⟨fun e => e.replace f, fun eqs => rfl, fun e s => ?_, fun params x e => Drv.eval_replace f _ _ (hev params x) e,
      fun params x e h => OEq.smooth_replace f _ _ (hev params x) (fun s => ?_) e h⟩
    · rw [syms_replace]
      have hfs : ∀ q, s ∈ (f q).syms ↔ s = q := by
        intro q
        simp only [hf]
        split
        · exact back_syms _ _ _
        · simp [SExpr.syms]
      simp [hfs]
    · simp only [hf]
      split
      · exact back_smooth _ _ _
      · trivial

theorem plan_length {parAsm : Str → Asm} {vars : List Sym} {user : List (Str × Bound)} {prefer : Bool} {method : Option Str} {m : Str}
    {ts : List (Option Transform)} (h : boundPlan parAsm vars user prefer method = .transformed m ts) : ts.length = vars.length := by
  rw [Drv.plan_transformed h, List.length_map]

/-- the pieces of a successful `buildMinimizeGraphs` -/
theorem graphs_ok {eqs nodes f useJac useHess useHessp} {m : MinGraphs} (h : buildMinimizeGraphs eqs nodes f useJac useHess useHessp = .ok m) :
    errorGraph eqs f = some m.error ∧
      ((useJac || useHess || useHessp) = true → (∀ n ∈ nodes, n ∈ m.error.syms) ∧ nodes ≠ []) ∧
      m.grad = (if useJac || useHess || useHessp then some (nodes.map fun x => m.error.grad x) else none) ∧
      m.hess = (if useHess then some (nodes.map fun y => nodes.map fun x => (m.error.grad y).grad x) else none) ∧
      m.hessp = (if useHessp then some (hessianVectorProduct m.error nodes) else none) := by
  unfold buildMinimizeGraphs at h
  split at h
  · cases h
  · next g hg =>
    split at h
    · next hfl =>
      split at h
      · cases h
      · next hc =>
        split at h
        · cases h
        · next hne =>
          dsimp only at h
          split at h
          · cases h
          · cases h
            refine ⟨hg, fun _ => ⟨fun n hn => ?_, hne⟩, by rw [if_pos hfl], ?_, rfl⟩
            · obtain ⟨o, ho, hno⟩ := (connected_ok _ _).mp hc n hn
              rw [List.mem_singleton] at ho; subst ho; exact hno
            · dsimp only
              congr 1
              rw [stack_mapT (nodes.map fun x => g.grad x) nodes (fun x g => g.grad x) _ (by simp), List.map_map]
              rfl
    · next hfl =>
      cases h
      have hfl' : useJac = false ∧ useHess = false ∧ useHessp = false := by
        revert hfl; cases useJac <;> cases useHess <;> cases useHessp <;> simp
      obtain ⟨rfl, rfl, rfl⟩ := hfl'
      exact ⟨hg, fun h => (by cases h), rfl, rfl, rfl⟩

/-- the pieces of a successful `minimizeCall` -/
theorem min_ok {parAsm eqs nodes params f useJac useHess useHessp user prefer kw} {c : MinCall}
    (h : minimizeCall parAsm eqs nodes params f useJac useHess useHessp user prefer kw = .ok c) :
    ∃ g, errorGraph (solveEqs eqs nodes (boundPlan parAsm nodes user prefer kw.method)) f = some g ∧ c.f = callScalar nodes params g ∧
      ((useJac || useHess || useHessp) = true → (∀ n ∈ nodes, n ∈ g.syms) ∧ nodes ≠ []) ∧
      c.jac = (if useJac || useHess || useHessp then some (callVector nodes params (nodes.map fun x => g.grad x)) else none) ∧
      c.hess = (if useHess && !useHessp then
        some (callMatrix nodes params (nodes.map fun y => nodes.map fun x => (g.grad y).grad x)) else none) ∧
      c.hessp = (if useHessp then some (callHessp nodes params (hessianVectorProduct g nodes)) else none) := by
  unfold minimizeCall at h
  dsimp only at h
  split at h
  · cases h
  · next g hg =>
    have heq : ((boundPlan parAsm nodes user prefer kw.method).setup eqs nodes (initialX0 kw.x0 (nodes.map (asmOf parAsm)))).eqs =
        solveEqs eqs nodes (boundPlan parAsm nodes user prefer kw.method) := by
      cases boundPlan parAsm nodes user prefer kw.method <;> rfl
    rw [heq] at hg
    obtain ⟨h1, h2, h3, h4, h5⟩ := graphs_ok hg
    cases h
    refine ⟨g.error, h1, rfl, ?_, ?_, ?_, ?_⟩
    · intro hfl
      refine h2 ?_
      revert hfl; cases useJac <;> cases useHess <;> cases useHessp <;> simp
    · dsimp only; rw [h3]; cases useJac <;> cases useHess <;> cases useHessp <;> rfl
    · dsimp only; rw [h4]; cases useHess <;> cases useHessp <;> rfl
    · dsimp only; rw [h5]; cases useHessp <;> rfl

/-- without a direction -/
def NoDir : TG → Prop
  | .s _ => True
  | .add a b => NoDir a ∧ NoDir b
  | .mul a b => NoDir a ∧ NoDir b
  | .abs a => NoDir a
  | .sgn a => NoDir a
  | .sqrt a => NoDir a
  | .inv a => NoDir a
  | .dir _ => False

theorem nodir_eval (p q : Nat → ℝ) (env : Sym → ℝ) (g : TG) (h : NoDir g) : g.eval p env = g.eval q env := by
  induction g with
  | s e => rfl
  | dir i => exact h.elim
  | add a b iha ihb => simp only [TG.eval, iha h.1, ihb h.2]
  | mul a b iha ihb => simp only [TG.eval, iha h.1, ihb h.2]
  | abs a ih => simp only [TG.eval, ih h]
  | sgn a ih => simp only [TG.eval, ih h]
  | sqrt a ih => simp only [TG.eval, ih h]
  | inv a ih => simp only [TG.eval, ih h]

theorem nodir_grad (x : Sym) (g : TG) (h : NoDir g) : NoDir (g.grad x) := by
  induction g with
  | s e => trivial
  | dir i => trivial
  | add a b iha ihb => exact ⟨iha h.1, ihb h.2⟩
  | mul a b iha ihb => exact ⟨⟨iha h.1, h.2⟩, h.1, ihb h.2⟩
  | abs a ih => exact ⟨h, ih h⟩
  | sgn a ih => trivial
  | sqrt a ih => exact ⟨ih h, trivial, h⟩
  | inv a ih => exact ⟨ih h, trivial, h, h⟩

theorem nodir_sum (l : List TG) (h : ∀ g ∈ l, NoDir g) : NoDir (TG.sum l) := by
  induction l with
  | nil => trivial
  | cons a l ih => exact ⟨h a (by simp), ih fun g hg => h g (by simp [hg])⟩

theorem nodir_error (eqs : List SExpr) (f : ErrFn) (g : TG) (hg : errorGraph eqs f = some g) : NoDir g := by
  have hsq : NoDir (TG.sum (eqs.map fun r => .mul (.s r) (.s r))) := nodir_sum _ fun g hg => by
    obtain ⟨e, _, rfl⟩ := List.mem_map.mp hg; exact ⟨trivial, trivial⟩
  cases f with
  | squared => cases hg; exact hsq
  | meanSquared => cases hg; exact ⟨hsq, trivial⟩
  | abs => cases hg; exact nodir_sum _ fun g hg => by obtain ⟨e, _, rfl⟩ := List.mem_map.mp hg; trivial
  | l2norm => cases hg; exact hsq
  | other => cases hg

theorem smooth_nodir (p q : Nat → ℝ) (env : Sym → ℝ) (g : TG) (h : NoDir g) (hs : Smooth p env g) : Smooth q env g := by
  induction g with
  | s e => exact hs
  | dir i => exact h.elim
  | add a b iha ihb => exact ⟨iha h.1 hs.1, ihb h.2 hs.2⟩
  | mul a b iha ihb => exact ⟨iha h.1 hs.1, ihb h.2 hs.2⟩
  | abs a ih => exact ⟨ih h hs.1, by rw [nodir_eval q p env a h]; exact hs.2⟩
  | sgn a ih => exact ⟨ih h hs.1, by rw [nodir_eval q p env a h]; exact hs.2⟩
  | sqrt a ih => exact ⟨ih h hs.1, by rw [nodir_eval q p env a h]; exact hs.2⟩
  | inv a ih => exact ⟨ih h hs.1, by rw [nodir_eval q p env a h]; exact hs.2⟩

/-- everything about the error graph of a successful call -/
theorem min_error {parAsm eqs nodes params f user prefer kw} {g : TG} (hn : nodes.Nodup) (hcl : Closed eqs nodes params)
    (hg : errorGraph (solveEqs eqs nodes (boundPlan parAsm nodes user prefer kw)) f = some g) :
    (∀ s ∈ g.syms, s ∈ nodes ∨ symName s ∈ dkeys params) ∧ (∀ s, s ∈ g.syms ↔ ∃ e ∈ eqs, s ∈ e.syms) ∧ NoDir g ∧
    ∀ x σ, PointIs nodes params (reportedPoint (boundPlan parAsm nodes user prefer kw) nodes.length x) σ →
      some (g.eval 0 (at_ nodes params x)) = errorFromResid (eqs.map (SExpr.eval σ)) f ∧
      (eqs ≠ [] → ErrSmooth eqs f σ → ∀ p, Smooth p (at_ nodes params x) g) := by
  obtain ⟨tr, h1, h2, h3, h4⟩ := solve_spec nodes hn (boundPlan parAsm nodes user prefer kw) (fun m ts h => plan_length h)
  rw [h1] at hg
  have hsy : ∀ s, s ∈ g.syms ↔ ∃ e ∈ eqs, s ∈ e.syms := by
    intro s; rw [errorGraph_syms _ _ _ hg]; simp [h2]
  refine ⟨fun s hs => ?_, hsy, nodir_error _ _ _ hg, fun x σ hσ => ?_⟩
  · obtain ⟨e, he, hse⟩ := (hsy s).mp hs
    exact hcl e he s hse
  · have hval : ∀ e ∈ eqs, (tr e).eval (at_ nodes params x) = e.eval σ := by
      intro e he
      rw [h3 params x e]
      exact OEq.eval_congr e _ _ (closed_at hn hcl hσ he)
    constructor
    · have := errorGraph_eval (eqs.map tr) f 0 (at_ nodes params x)
      rw [hg, Option.map_some, List.map_map] at this
      rw [this]
      congr 1
      exact List.map_congr_left fun e he => hval e he
    · intro hne hsm p
      refine errorGraph_smooth _ _ _ hg p _ ⟨?_, ?_, ?_⟩ (by simpa using hne)
      · intro e' he'
        obtain ⟨e, he, rfl⟩ := List.mem_map.mp he'
        exact h4 params x e (OEq.smooth_congr e _ _ (fun s hs => (closed_at hn hcl hσ he s hs).symm) (hsm.1 e he))
      · intro hf e' he'
        obtain ⟨e, he, rfl⟩ := List.mem_map.mp he'
        rw [hval e he]; exact hsm.2.1 hf e he
      · intro hf
        obtain ⟨e, he, h0⟩ := hsm.2.2 hf
        exact ⟨tr e, List.mem_map.mpr ⟨e, he, rfl⟩, by rw [hval e he]; exact h0⟩

end SSG

section Minimize
variable (parAsm : Str → Asm) (eqs : List SExpr) (nodes : List Sym) (hn : nodes.Nodup) (params : List (Str × ℝ)) (hcl : Closed eqs nodes params)
  (f : ErrFn) (useJac useHess useHessp : Bool) (user : List (Str × Bound)) (prefer : Bool) (kw : OptKw) (c : MinCall)
  (h : minimizeCall parAsm eqs nodes params f useJac useHess useHessp user prefer kw = .ok c)

include hn hcl h

/-- **C123** `how="minimize"`: at every point the function scipy minimises is the chosen error of the remaining equations, evaluated at the point
of the original variables which would be reported there -- with or without transforms. -/
theorem C123_error (x : Nat → ℝ) (σ : Sym → ℝ) (hσ : PointIs nodes params (reportedPoint (boundPlan parAsm nodes user prefer kw.method) nodes.length x) σ) :
    c.f x = errorFromResid (eqs.map (SExpr.eval σ)) f := by
  obtain ⟨g, hg, hf, _⟩ := SSG.min_ok h
  obtain ⟨h1, _, _, h3⟩ := SSG.min_error hn hcl hg
  rw [hf, SSG.callScalar_eq hn params g h1, (h3 x σ hσ).1]

/-- **C123** `how="minimize"`: the gradient scipy gets is the gradient of the function it minimises, wherever that function is differentiable. -/
theorem C123_gradient (hfl : (useJac || useHess || useHessp) = true) (x : Nat → ℝ) :
    ∃ j g, c.jac = some j ∧ j x = some g ∧ g.length = nodes.length ∧
      ∀ σ, PointIs nodes params (reportedPoint (boundPlan parAsm nodes user prefer kw.method) nodes.length x) σ → ErrSmooth eqs f σ →
        ∀ k < nodes.length, HasDerivAt (fun v => (c.f (Function.update x k v)).getD 0) (g.getD k 0) (x k) := by
  obtain ⟨g, hg, hf, hcon, hj, _⟩ := SSG.min_ok h
  obtain ⟨h1, h2, _, h3⟩ := SSG.min_error hn hcl hg
  obtain ⟨hc1, hc2⟩ := hcon hfl
  have hcv := SSG.callVector_eq hn params (nodes.map fun x => g.grad x) (by
    intro e he s hs
    obtain ⟨n, _, rfl⟩ := List.mem_map.mp he
    exact h1 s (SSG.syms_grad _ _ s hs)) x
  refine ⟨_, _, by rw [hj, if_pos hfl], hcv, by simp, fun σ hσ hsm k hk => ?_⟩
  have hne : eqs ≠ [] := by
    rintro rfl
    obtain ⟨n, hn'⟩ := List.exists_mem_of_ne_nil _ hc2
    obtain ⟨e, he, _⟩ := (h2 n).mp (hc1 n hn')
    cases he
  have key := SSG.partial_ hn params x (List.getElem?_eq_getElem hk) 0 g ((h3 x σ hσ).2 hne hsm 0)
  have hfun : (fun v => (c.f (Function.update x k v)).getD 0) = fun v => g.eval 0 (SSG.at_ nodes params (Function.update x k v)) := by
    funext v; rw [hf, SSG.callScalar_eq hn params g h1]; rfl
  rw [hfun]
  refine key.congr_deriv ?_
  simp [List.getD_eq_getElem?_getD, List.getElem?_eq_getElem hk]

/-- **C123** `how="minimize"` with `use_hess` alone: the Hessian scipy gets holds the derivatives of the gradient it gets, and is symmetric. -/
theorem C123_hessian (hfl : useHess = true ∧ useHessp = false) (x : Nat → ℝ) :
    ∃ j hs H, c.jac = some j ∧ c.hess = some hs ∧ hs x = some H ∧ H.length = nodes.length ∧ (∀ row ∈ H, row.length = nodes.length) ∧
      (∀ i < nodes.length, ∀ k < nodes.length, (H.getD i []).getD k 0 = (H.getD k []).getD i 0) ∧
      ∀ σ, PointIs nodes params (reportedPoint (boundPlan parAsm nodes user prefer kw.method) nodes.length x) σ → ErrSmooth eqs f σ →
        ∀ i < nodes.length, ∀ k < nodes.length,
          HasDerivAt (fun v => ((j (Function.update x k v)).getD []).getD i 0) ((H.getD i []).getD k 0) (x k) := by
  obtain ⟨g, hg, hf, hcon, hj, hh, _⟩ := SSG.min_ok h
  obtain ⟨h1, h2, _, h3⟩ := SSG.min_error hn hcl hg
  obtain ⟨hc1, hc2⟩ := hcon (by simp [hfl.1])
  have hcv := fun x => SSG.callVector_eq hn params (nodes.map fun x => g.grad x) (by
    intro e he s hs
    obtain ⟨n, _, rfl⟩ := List.mem_map.mp he
    exact h1 s (SSG.syms_grad _ _ s hs)) x
  have hcm := SSG.callMatrix_eq hn params (nodes.map fun y => nodes.map fun x => (g.grad y).grad x) (by
    intro row hr e he s hs
    obtain ⟨n, _, rfl⟩ := List.mem_map.mp hr
    obtain ⟨n', _, rfl⟩ := List.mem_map.mp he
    exact h1 s (SSG.syms_grad _ _ s (SSG.syms_grad _ _ s hs))) x
  have hent : ∀ i (_ : i < nodes.length) k (_ : k < nodes.length), ((((nodes.map fun y => nodes.map fun x => (g.grad y).grad x).map fun row =>
      row.map (TG.eval 0 (SSG.at_ nodes params x))).getD i []).getD k 0) = ((g.grad nodes[i]).grad nodes[k]).eval 0 (SSG.at_ nodes params x) := by
    intro i hi k hk
    simp [List.getD_eq_getElem?_getD, List.getElem?_eq_getElem hi, List.getElem?_eq_getElem hk]
  refine ⟨_, _, _, by rw [hj, if_pos (by simp [hfl.1])], by rw [hh, if_pos (by simp [hfl])], hcm, by simp, ?_, ?_, ?_⟩
  · intro row hr
    simp only [List.map_map, List.mem_map, Function.comp_apply] at hr
    obtain ⟨n, _, rfl⟩ := hr
    simp
  · intro i hi k hk
    rw [hent i hi k hk, hent k hk i hi, SSG.grad_symm]
  · intro σ hσ hsm i hi k hk
    have hne : eqs ≠ [] := by
      rintro rfl
      obtain ⟨n, hn'⟩ := List.exists_mem_of_ne_nil _ hc2
      obtain ⟨e, he, _⟩ := (h2 n).mp (hc1 n hn')
      cases he
    have key := SSG.partial_ hn params x (List.getElem?_eq_getElem hk) 0 (g.grad nodes[i]) (SSG.grad_smooth _ _ _ _ ((h3 x σ hσ).2 hne hsm 0))
    rw [hent i hi k hk]
    have hfun : (fun v => ((callVector nodes params (nodes.map fun x => g.grad x) (Function.update x k v)).getD []).getD i 0) =
        fun v => (g.grad nodes[i]).eval 0 (SSG.at_ nodes params (Function.update x k v)) := by
      funext v; rw [hcv]; simp [List.getD_eq_getElem?_getD, List.getElem?_eq_getElem hi]
    rw [hfun]
    exact key

/-- **C123** `how="minimize"` with `use_hessp`: the product scipy gets is the change of the gradient along the direction. Names must tell the unknowns
and the parameters apart. -/
theorem C123_hessp (hfl : useHessp = true) (hnames : (nodes.map symName).Nodup) (hdis : ∀ n ∈ nodes, symName n ∉ dkeys params) (x p : Nat → ℝ) :
    ∃ j hp v, c.jac = some j ∧ c.hessp = some hp ∧ hp x p = some v ∧ v.length = nodes.length ∧
      ∀ σ, PointIs nodes params (reportedPoint (boundPlan parAsm nodes user prefer kw.method) nodes.length x) σ → ErrSmooth eqs f σ →
        ∀ i < nodes.length, HasDerivAt (fun t => ((j fun k => x k + t * p k).getD []).getD i 0) (v.getD i 0) 0 := by
  obtain ⟨g, hg, hf, hcon, hj, _, hh⟩ := SSG.min_ok h
  obtain ⟨h1, h2, hnd, h3⟩ := SSG.min_error hn hcl hg
  obtain ⟨hc1, hc2⟩ := hcon (by simp [hfl])
  have hcv := fun x => SSG.callVector_eq hn params (nodes.map fun x => g.grad x) (by
    intro e he s hs
    obtain ⟨n, _, rfl⟩ := List.mem_map.mp he
    exact h1 s (SSG.syms_grad _ _ s hs)) x
  set kws : List (Str × ℝ) := (nodes.map symName).zipIdx.map fun n => (n.1, x n.2) with hkws
  have hkeys : dkeys kws = nodes.map symName := by
    simp only [hkws, dkeys, List.map_map, Function.comp_def]
    exact List.zipIdx_map_fst 0 _
  have hkw : dupdate [] kws = kws := by rw [dupdate_fresh [] kws (by rw [List.nil_append, hkeys]; exact hnames)]; rfl
  have hsyms : ∀ e ∈ hessianVectorProduct g nodes, ∀ s ∈ e.syms, s ∈ g.syms := by
    intro e he s hs
    obtain ⟨n, _, rfl⟩ := List.mem_map.mp he
    have := SSG.syms_grad _ _ s hs
    obtain ⟨t, ht, hst⟩ := (SSG.syms_sum _ s).mp this
    obtain ⟨q, _, rfl⟩ := List.mem_map.mp ht
    simp only [TG.syms, List.append_nil] at hst
    exact SSG.syms_grad _ _ s hst
  have hlook : ∀ s ∈ g.syms, dget (kws ++ params) (symName s) = some (SSG.at_ nodes params x s) := by
    intro s hs
    rw [Drv.dget_app]
    by_cases hin : s ∈ nodes
    · obtain ⟨i, hi⟩ := List.getElem?_of_mem hin
      rw [SSG.at_node hn params x hi]
      rw [dget_of_mem kws (by rw [hkeys]; exact hnames) (symName s) (x i)]
      · rfl
      · refine List.mem_map.mpr ⟨(symName s, i), List.mem_zipIdx_iff_getElem?.mpr ?_, rfl⟩
        rw [List.getElem?_map, hi]; rfl
    · have hp := (h1 s hs).resolve_left hin
      have hno : dget kws (symName s) = none := by
        rw [dget_eq_none, hkeys]
        intro hc
        obtain ⟨n, hn', hns⟩ := List.mem_map.mp hc
        exact hdis n hn' (hns ▸ hp)
      rw [hno, Option.none_or]
      obtain ⟨v, hv⟩ := Option.isSome_iff_exists.mp ((dget_isSome _ _).mpr hp)
      simp only [SSG.at_, Drv.packValues, if_neg hin, hv, Option.getD_some]
  have hcall : callHessp nodes params (hessianVectorProduct g nodes) x p =
      some ((hessianVectorProduct g nodes).map (TG.eval p (SSG.at_ nodes params x))) := by
    unfold callHessp
    dsimp only
    rw [← hkws, hkw, if_neg, if_pos]
    · congr 1
      refine List.map_congr_left fun e he => SSG.eval_congr p e _ _ fun s hs => ?_
      rw [hlook s (hsyms e he s hs)]; rfl
    · rw [List.all_eq_true]
      intro s hs
      obtain ⟨e, he, hse⟩ := List.mem_flatMap.mp hs
      refine decide_eq_true ((dget_isSome _ _).mp ?_)
      rw [hlook s (hsyms e he s hse)]; rfl
    · rw [hkeys]
      intro hc
      obtain ⟨k, hk, hkp⟩ := List.any_eq_true.mp hc
      obtain ⟨n, hn', rfl⟩ := List.mem_map.mp hk
      exact hdis n hn' (of_decide_eq_true hkp)
  refine ⟨_, _, _, by rw [hj, if_pos (by simp [hfl])], by rw [hh, if_pos hfl], hcall, by simp [hessianVectorProduct], fun σ hσ hsm i hi => ?_⟩
  have hne : eqs ≠ [] := by
    rintro rfl
    obtain ⟨n, hn'⟩ := List.exists_mem_of_ne_nil _ hc2
    obtain ⟨e, he, _⟩ := (h2 n).mp (hc1 n hn')
    cases he
  have key := SSG.along hn params x p 0 (g.grad nodes[i]) (SSG.grad_smooth _ _ _ _ ((h3 x σ hσ).2 hne hsm 0))
  have hfun : (fun t => ((callVector nodes params (nodes.map fun x => g.grad x) fun k => x k + t * p k).getD []).getD i 0) =
      fun t => (g.grad nodes[i]).eval 0 (SSG.at_ nodes params fun k => x k + t * p k) := by
    funext v; rw [hcv]; simp [List.getD_eq_getElem?_getD, List.getElem?_eq_getElem hi]
  rw [hfun]
  refine key.congr_deriv ?_
  simp only [List.getD_eq_getElem?_getD, hessianVectorProduct, List.getElem?_map, List.getElem?_eq_getElem hi, Option.map_some, Option.getD_some]
  rw [SSG.grad_sum, List.map_map]
  congr 1
  refine List.map_congr_left fun n _ => ?_
  simp only [Function.comp_apply, TG.grad, TG.eval, SExpr.eval]
  rw [SSG.nodir_eval p 0 _ ((g.grad n.1).grad nodes[i]) (SSG.nodir_grad _ _ (SSG.nodir_grad _ _ hnd)), SSG.grad_symm]
  push_cast
  ring

end Minimize

/-- **C123** `how="minimize"` is refused before any iteration exactly when the error function is unknown or, when any derivative is asked for, there is
nothing to solve for or an unknown occurs in no equation. -/
theorem C123_minimize_refuses (parAsm : Str → Asm) (eqs : List SExpr) (nodes : List Sym) (hn : nodes.Nodup) (params : List (Str × ℝ)) (f : ErrFn)
    (useJac useHess useHessp : Bool) (user : List (Str × Bound)) (prefer : Bool) (kw : OptKw) :
    (∃ c, minimizeCall parAsm eqs nodes params f useJac useHess useHessp user prefer kw = .ok c) ↔
      f ≠ .other ∧ ((useJac || useHess || useHessp) = true → nodes ≠ [] ∧ ∀ n ∈ nodes, ∃ e ∈ eqs, n ∈ e.syms) := by
  obtain ⟨tr, h1, h2, _⟩ := SSG.solve_spec nodes hn (boundPlan parAsm nodes user prefer kw.method) (fun m ts h => SSG.plan_length h)
  have hsy : ∀ g, errorGraph (SSG.solveEqs eqs nodes (boundPlan parAsm nodes user prefer kw.method)) f = some g →
      ∀ s, s ∈ g.syms ↔ ∃ e ∈ eqs, s ∈ e.syms := by
    intro g hg s
    rw [h1] at hg
    rw [SSG.errorGraph_syms _ _ _ hg]; simp [h2]
  constructor
  · rintro ⟨c, h⟩
    obtain ⟨g, hg, _, hcon, _⟩ := SSG.min_ok h
    refine ⟨?_, fun hfl => ⟨(hcon hfl).2, fun n hn' => (hsy g hg n).mp ((hcon hfl).1 n hn')⟩⟩
    rintro rfl
    cases hg
  · rintro ⟨hf, hcon⟩
    have hgex : ∃ g, errorGraph (SSG.solveEqs eqs nodes (boundPlan parAsm nodes user prefer kw.method)) f = some g := by
      cases f with
      | other => exact (hf rfl).elim
      | _ => exact ⟨_, rfl⟩
    obtain ⟨g, hg⟩ := hgex
    have heq : ((boundPlan parAsm nodes user prefer kw.method).setup eqs nodes (initialX0 kw.x0 (nodes.map (asmOf parAsm)))).eqs =
        SSG.solveEqs eqs nodes (boundPlan parAsm nodes user prefer kw.method) := by
      cases boundPlan parAsm nodes user prefer kw.method <;> rfl
    suffices hs : ∀ uH : Bool, (uH = true → useHess = true) →
        ∃ m, buildMinimizeGraphs (SSG.solveEqs eqs nodes (boundPlan parAsm nodes user prefer kw.method)) nodes f useJac uH useHessp = .ok m by
      unfold minimizeCall
      dsimp only
      rw [heq]
      obtain ⟨m, hm⟩ := hs (if useHess && useHessp then false else useHess) (by cases useHess <;> cases useHessp <;> simp)
      rw [hm]
      exact ⟨_, rfl⟩
    intro uH hu
    unfold buildMinimizeGraphs
    rw [hg]
    dsimp only
    by_cases hfl : (useJac || uH || useHessp) = true
    · rw [if_pos hfl]
      have hfl' : (useJac || useHess || useHessp) = true := by
        revert hfl hu; cases useJac <;> cases useHess <;> cases useHessp <;> cases uH <;> simp
      obtain ⟨hne, hall⟩ := hcon hfl'
      rw [(SSG.connected_ok _ _).mpr (by simpa [hsy g hg] using hall)]
      dsimp only
      rw [if_neg hne]
      cases uH with
      | false => exact ⟨_, rfl⟩
      | true =>
        rw [if_pos rfl, (SSG.connected_ok _ _).mpr]
        · exact ⟨_, rfl⟩
        · intro n hn'
          obtain ⟨n0, hn0⟩ := List.exists_mem_of_ne_nil _ hne
          refine ⟨(g.grad n0).syms, by simp only [List.mem_map]; exact ⟨_, ⟨n0, hn0, rfl⟩, rfl⟩, ?_⟩
          obtain ⟨e, he, hs⟩ := hall n hn'
          rw [h1] at hg
          exact SSG.grad_keeps _ _ _ hg n0 n ⟨tr e, List.mem_map.mpr ⟨e, he, rfl⟩, (h2 e n).mpr hs⟩
    · rw [if_neg hfl]
      exact ⟨_, rfl⟩

/-- **C123** Which derivatives scipy gets: the Hessian-vector product exactly when asked for, the Hessian when only it is asked for, the gradient when
any of the three flags is set. -/
theorem C123_flags (parAsm : Str → Asm) (eqs : List SExpr) (nodes : List Sym) (params : List (Str × ℝ)) (f : ErrFn)
    (useJac useHess useHessp : Bool) (user : List (Str × Bound)) (prefer : Bool) (kw : OptKw) (c : MinCall)
    (h : minimizeCall parAsm eqs nodes params f useJac useHess useHessp user prefer kw = .ok c) :
    (c.hessp.isSome ↔ useHessp = true) ∧ (c.hess.isSome ↔ useHess = true ∧ useHessp = false) ∧
      (c.jac.isSome ↔ useJac = true ∨ useHess = true ∨ useHessp = true) := by
  obtain ⟨g, _, _, _, hj, hh, hp⟩ := SSG.min_ok h
  rw [hj, hh, hp]
  cases useJac <;> cases useHess <;> cases useHessp <;> simp

/-- **C123** The documented meaning of `use_jac=False` (no Jacobian is used) fails with the default `use_hessp=True`: every successful call gets the
gradient. -/
theorem C123_use_jac_violated (parAsm : Str → Asm) (eqs : List SExpr) (nodes : List Sym) (params : List (Str × ℝ)) (f : ErrFn) (useHess : Bool)
    (user : List (Str × Bound)) (prefer : Bool) (kw : OptKw) (c : MinCall)
    (h : minimizeCall parAsm eqs nodes params f false useHess true user prefer kw = .ok c) : c.jac.isSome := by
  rw [(C123_flags _ _ _ _ _ _ _ _ _ _ _ _ h).2.2]; simp

/-- **C123** Start, tolerance, method and bounds of `minimize`: the start is the caller's `x0` (else 0.8, negated for negative variables), mapped to the
solver's space; the bounds are passed exactly for a box method without `prefer_transform`. -/
theorem C123_minimize_setup (parAsm : Str → Asm) (eqs : List SExpr) (nodes : List Sym) (params : List (Str × ℝ)) (f : ErrFn)
    (useJac useHess useHessp : Bool) (user : List (Str × Bound)) (prefer : Bool) (kw : OptKw) (c : MinCall)
    (h : minimizeCall parAsm eqs nodes params f useJac useHess useHessp user prefer kw = .ok c) :
    c.method = kw.method.getD "trust-ncg".toList ∧ c.tol = kw.tol.getD (1 / 10 ^ 30) ∧
    (c.bounds.isSome ↔ prefer = false ∧ (kw.method = some "trust-constr".toList ∨ kw.method = some "L-BFGS-B".toList ∨ kw.method = some "powell".toList)) ∧
    (c.bounds.isSome → c.x0 = (initialX0 kw.x0 (nodes.map (asmOf parAsm))).map fun q => some (q : ℝ)) ∧
    (c.bounds = none → c.x0 = toUnconstrained (nodes.map fun v => inferTransform (asmOf parAsm v)
      (some ((dget (boundDict parAsm nodes user) (symName v)).getD (none, none)))) ((initialX0 kw.x0 (nodes.map (asmOf parAsm))).map fun q => (q : ℝ))) := by
  have hbox : (prefer = false ∧ (kw.method = some "trust-constr".toList ∨ kw.method = some "L-BFGS-B".toList ∨ kw.method = some "powell".toList)) ↔
      prefer = false ∧ ∃ m, kw.method = some m ∧ m ∈ boxMethods := by
    simp only [boxMethods, List.mem_cons, List.not_mem_nil, or_false]
    constructor
    · rintro ⟨h1, h2 | h2 | h2⟩ <;> exact ⟨h1, _, h2, by simp⟩
    · rintro ⟨h1, m, h2, h3⟩
      exact ⟨h1, by rw [h2]; simpa using h3⟩
  rw [hbox]
  unfold minimizeCall at h
  dsimp only at h
  split at h
  · cases h
  · cases h
    dsimp only
    cases hm : kw.method with
    | none => simp [boundPlan, BoundPlan.setup]
    | some m =>
      by_cases hb : (!prefer && decide (m ∈ boxMethods)) = true
      · have hb' : prefer = false ∧ m ∈ boxMethods := by simpa using hb
        simp [boundPlan, hb', BoundPlan.setup]
      · have hb' : ¬ (prefer = false ∧ m ∈ boxMethods) := by simpa using hb
        simp only [boundPlan, if_neg hb, BoundPlan.setup, Option.getD_some, Option.isSome_none]
        refine ⟨trivial, trivial, ⟨fun h => (by cases h), ?_⟩, fun h => (by cases h), fun _ => trivial⟩
        rintro ⟨h1, m', h2, h3⟩
        cases h2
        exact (hb' ⟨h1, h3⟩).elim

/-- **C123** The documentation names `trust-krylov` as the default method of `how="minimize"`; it is `trust-ncg`. -/
theorem C123_default_method_violated (parAsm : Str → Asm) (eqs : List SExpr) (nodes : List Sym) (params : List (Str × ℝ)) (f : ErrFn)
    (useJac useHess useHessp : Bool) (user : List (Str × Bound)) (prefer : Bool) (kw : OptKw) (hm : kw.method = none) (c : MinCall)
    (h : minimizeCall parAsm eqs nodes params f useJac useHess useHessp user prefer kw = .ok c) : c.method ≠ "trust-krylov".toList := by
  rw [(C123_minimize_setup _ _ _ _ _ _ _ _ _ _ _ _ h).1, hm]
  decide

/-- **C123** The iteration budget: the option holding it, named as the method wants it, is the caller's `maxiter`, 5000 without one; the
caller's other options are passed on unchanged. -/
theorem C123_budget (eqs : List SExpr) (nodes : List Sym) (params : List (Str × ℝ)) (kw : OptKw) :
    (∀ asm useJac (c : RootCall), rootCall eqs nodes asm params useJac kw = .ok c →
      ∀ k, dget c.options k =
        if k = (if c.method = "hybr".toList ∨ c.method = "df-sane".toList then "maxfev".toList else "maxiter".toList) then some (kw.maxiter.getD 5000)
        else dget (kw.options.getD []) k) ∧
    ∀ parAsm f useJac useHess useHessp user prefer (c : MinCall),
      minimizeCall parAsm eqs nodes params f useJac useHess useHessp user prefer kw = .ok c →
      ∀ k, dget c.options k =
        if k = "maxiter".toList ∨ (c.method = "L-BFGS-B".toList ∧ k = "maxfun".toList) then some (kw.maxiter.getD 5000)
        else dget (kw.options.getD []) k := by
  constructor
  · intro asm useJac c h k
    unfold rootCall at h
    dsimp only at h
    split at h
    · cases h
    · cases h
      dsimp only
      rw [dget_dset]
      simp only [List.mem_cons, List.not_mem_nil, or_false, eq_comm (a := k)]
  · intro parAsm f useJac useHess useHessp user prefer c h k
    unfold minimizeCall at h
    dsimp only at h
    split at h
    · cases h
    · cases h
      dsimp only [minOptions]
      generalize ((boundPlan parAsm nodes user prefer kw.method).setup eqs nodes (initialX0 kw.x0 (nodes.map (asmOf parAsm)))).method = m
      by_cases hm : m = "L-BFGS-B".toList
      · rw [if_pos hm, dget_dset, dget_dset]
        by_cases h1 : "maxfun".toList = k
        · rw [if_pos h1, if_pos (.inr ⟨hm, h1.symm⟩)]
        · rw [if_neg h1]
          by_cases h2 : "maxiter".toList = k
          · rw [if_pos h2, if_pos (.inl h2.symm)]
          · rw [if_neg h2, if_neg (by rintro (h | h); exacts [h2 h.symm, h1 h.2.symm])]
      · rw [if_neg hm, dget_dset]
        by_cases h2 : "maxiter".toList = k
        · rw [if_pos h2, if_pos (.inl h2.symm)]
        · rw [if_neg h2, if_neg (by rintro (h | h); exacts [h2 h.symm, hm h.1])]

/-- **C123** Options are "passed to scipy", but a budget given the way scipy documents it, in `options`, is overwritten by 5000. -/
theorem C123_options_violated (eqs : List SExpr) (nodes : List Sym) (params : List (Str × ℝ)) (kw : OptKw) (hmax : kw.maxiter = none) (n : Nat)
    (hn : n ≠ 5000) :
    (kw.method = none → kw.options = some [("maxfev".toList, n)] → ∀ asm useJac c, rootCall eqs nodes asm params useJac kw = .ok c →
      dget c.options "maxfev".toList = some 5000) ∧
    (kw.options = some [("maxiter".toList, n)] → ∀ parAsm f useJac useHess useHessp user prefer c,
      minimizeCall parAsm eqs nodes params f useJac useHess useHessp user prefer kw = .ok c → dget c.options "maxiter".toList = some 5000) := by
  constructor
  · intro hm ho asm useJac c h
    have hc : c.method = "hybr".toList := by
      unfold rootCall at h
      dsimp only at h
      split at h
      · cases h
      · cases h; simp [hm]
    rw [(C123_budget eqs nodes params kw).1 asm useJac c h, if_pos (by rw [if_pos (.inl hc)]), hmax]
    rfl
  · intro ho parAsm f useJac useHess useHessp user prefer c h
    rw [(C123_budget eqs nodes params kw).2 parAsm f useJac useHess useHessp user prefer c h, if_pos (.inl rfl), hmax]
    rfl

namespace SSG

theorem evalN_sum_some (p : Nat → ℝ) (env : Sym → ℝ) (l : List TG) (h : ∀ g ∈ l, g.evalN p env = some (g.eval p env)) :
    (TG.sum l).evalN p env = some ((TG.sum l).eval p env) := by
  induction l with
  | nil => rfl
  | cons a l ih =>
    have h1 := h a (by simp)
    have h2 := ih fun g hg => h g (by simp [hg])
    simp only [TG.sum, List.foldr_cons, TG.evalN, TG.eval] at h2 ⊢
    rw [h1, h2]; rfl

theorem sqsum_evalN (p : Nat → ℝ) (env : Sym → ℝ) (eqs : List SExpr) :
    (TG.sum (eqs.map fun r => .mul (.s r) (.s r))).evalN p env = some ((TG.sum (eqs.map fun r => .mul (.s r) (.s r))).eval p env) := by
  refine evalN_sum_some p env _ fun g hg => ?_
  obtain ⟨e, _, rfl⟩ := List.mem_map.mp hg
  rfl

theorem sqsum_eval (p : Nat → ℝ) (env : Sym → ℝ) (eqs : List SExpr) :
    (TG.sum (eqs.map fun r => .mul (.s r) (.s r))).eval p env = (eqs.map fun r => r.eval env ^ 2).sum := by
  rw [eval_sum, List.map_map]
  congr 1
  exact List.map_congr_left fun e _ => by simp [TG.eval, sq]

end SSG

/-- **C123** With `error_function="l2-norm"` every entry of the gradient is a division by zero at an exact steady state, so it is not a number; away from
one every entry is a number. -/
theorem C123_l2_violated (eqs : List SExpr) (x : Sym) (g : TG) (hg : errorGraph eqs .l2norm = some g) (env : Sym → ℝ) :
    ((g.grad x).evalN 0 env = none ↔ ∀ e ∈ eqs, e.eval env = 0) := by
  cases hg
  have hsum := SSt.sum_nonneg_eq_zero (eqs.map fun r => r.eval env ^ 2) (by
    intro r hr
    obtain ⟨e, _, rfl⟩ := List.mem_map.mp hr
    exact sq_nonneg _)
  set q := TG.sum (eqs.map fun r => TG.mul (.s r) (.s r)) with hq
  have hqN : q.evalN 0 env = some (q.eval 0 env) := SSG.sqsum_evalN 0 env eqs
  have hqe : q.eval 0 env = (eqs.map fun r => r.eval env ^ 2).sum := SSG.sqsum_eval 0 env eqs
  have hgradN : (q.grad x).evalN 0 env = some ((q.grad x).eval 0 env) := by
    have : ∀ l : List TG, (∀ g ∈ l, (g.grad x).evalN 0 env = some ((g.grad x).eval 0 env)) →
        ((TG.sum l).grad x).evalN 0 env = some (((TG.sum l).grad x).eval 0 env) := by
      intro l
      induction l with
      | nil => intro _; rfl
      | cons a l ih =>
        intro h
        have h1 := h a (by simp)
        have h2 := ih fun g hg => h g (by simp [hg])
        simp only [TG.sum, List.foldr_cons, TG.grad, TG.evalN, TG.eval] at h2 ⊢
        rw [h1, h2]; rfl
    refine this _ fun g hg => ?_
    obtain ⟨e, _, rfl⟩ := List.mem_map.mp hg
    rfl
  have hz : (∀ e ∈ eqs, e.eval env = 0) ↔ q.eval 0 env = 0 := by
    rw [hqe, hsum.2]
    simp
  have hval : (TG.mul (TG.s (.num 2)) (TG.sqrt q)).evalN 0 env = some (2 * Real.sqrt (q.eval 0 env)) := by
    simp only [TG.evalN, hqN, SExpr.eval]
    norm_num
  rw [hz]
  show (do return (← (q.grad x).evalN 0 env) * (← (TG.inv (TG.mul (TG.s (.num 2)) (TG.sqrt q))).evalN 0 env) : Num) = none ↔ _
  rw [hgradN]
  have hinv : (TG.inv (TG.mul (TG.s (.num 2)) (TG.sqrt q))).evalN 0 env =
      (some (2 * Real.sqrt (q.eval 0 env)) : Num).bind fun v => open Classical in if v = 0 then none else some v⁻¹ := by
    show Option.bind _ _ = _
    rw [hval]
  rw [hinv]
  have h0 : 0 ≤ q.eval 0 env := by rw [hqe]; exact hsum.1
  by_cases hq0 : q.eval 0 env = 0
  · rw [hq0]; simp
  · have : 2 * Real.sqrt (q.eval 0 env) ≠ 0 := by
      have := Real.sqrt_pos.mpr (lt_of_le_of_ne h0 (Ne.symm hq0))
      positivity
    simp [this, hq0]

/-- **C123** The gradient judged after `root` is the derivative of the sum of squared residuals (with `use_jac`). -/
theorem C123_postprocess (eqs : List SExpr) (nodes : List Sym) (env : Sym → ℝ) (hs : ∀ e ∈ eqs, e.SmoothAt env) (k : Nat) (n : Sym)
    (hk : nodes[k]? = some n) :
    (rootGradient eqs nodes true env).length = nodes.length ∧
    HasDerivAt (fun v => (eqs.map fun e => e.eval (Function.update env n v) ^ 2).sum) ((rootGradient eqs nodes true env).getD k 0) (env n) := by
  obtain ⟨hk', hkn⟩ := List.getElem?_eq_some_iff.mp hk
  refine ⟨by simp [rootGradient], ?_⟩
  have hent : (rootGradient eqs nodes true env).getD k 0 = (eqs.map fun e => 2 * e.eval env * (e.diff n).eval env).sum := by
    simp only [rootGradient, if_true, List.getD_eq_getElem?_getD, List.getElem?_map, List.getElem?_range hk', Option.map_some, Option.getD_some]
    clear hs
    induction eqs with
    | nil => simp
    | cons e l ih =>
      simp only [List.map_cons, List.zipWith_cons_cons, List.sum_cons, mul_add, ih, List.getElem?_map, hk, Option.map_some, Option.getD_some]
      ring
  rw [hent]
  clear hent
  induction eqs with
  | nil => simpa using hasDerivAt_const (env n) (0 : ℝ)
  | cons e l ih =>
    simp only [List.map_cons, List.sum_cons]
    refine HasDerivAt.fun_add ?_ (ih fun e he => hs e (by simp [he]))
    have hd := OEq.chain [n] (by simp) (fun v => Function.update env n v) (fun x => if x = n then 1 else 0) (env n) (fun x => by
      by_cases hx : x = n
      · subst hx; simpa using hasDerivAt_id' (env x)
      · simpa [hx] using hasDerivAt_const (env n) (env x)) (fun x hx => if_neg (by simpa using hx)) e (by
        rw [Function.update_eq_self]; exact hs e (by simp))
    simp only [Function.update_eq_self, List.map_cons, List.map_nil, List.sum_cons, List.sum_nil, if_true, mul_one, add_zero] at hd
    have h2 := hd.fun_pow 2
    refine h2.congr_deriv ?_
    simp

/-- **C123** Without `use_jac` that gradient is zero at every point, stationary or not, so the reported gradient norm says nothing. -/
theorem C123_postprocess_violated (eqs : List SExpr) (nodes : List Sym) (env : Sym → ℝ) :
    ∀ d ∈ rootGradient eqs nodes false env, d = 0 := by
  intro d hd
  simp only [rootGradient, Bool.false_eq_true, if_false] at hd
  exact (List.mem_replicate.mp hd).2

/-- **C123** Start, method, Jacobian and tolerance of `root`: the caller's, with the documented defaults. -/
theorem C123_root_setup (eqs : List SExpr) (nodes : List Sym) (asm : List Asm) (params : List (Str × ℝ)) (useJac : Bool) (kw : OptKw) (c : RootCall)
    (h : rootCall eqs nodes asm params useJac kw = .ok c) :
    c.method = kw.method.getD "hybr".toList ∧ c.tol = kw.tol ∧ (c.jac.isSome ↔ useJac = true) ∧
    (∀ x0, kw.x0 = some x0 → c.x0 = x0) ∧
    (kw.x0 = none → c.x0.length = asm.length ∧ ∀ (i : Nat) a, asm[i]? = some a → c.x0[i]? = some (if a.has negativeStr then -(8 / 10) else 8 / 10)) := by
  have hj : c.jac.isSome ↔ useJac = true := by
    unfold rootCall at h
    dsimp only at h
    cases useJac with
    | false => cases h; simp
    | true =>
      split at h
      · cases h
      · next resid jac hb =>
        cases h
        obtain ⟨_, J, rfl, _⟩ := SSG.root_jac hb
        simp
  unfold rootCall at h
  dsimp only at h
  split at h
  · cases h
  · cases h
    refine ⟨rfl, rfl, hj, fun x0 hx => by simp [hx, initialX0], fun hx => ?_⟩
    simp only [hx, initialX0, List.length_map, true_and, List.getElem?_map]
    intro i a ha
    rw [ha]; rfl

namespace SSG

/-! ### a concrete case: `x² = a` with `a = 4` -/

def exX : Sym := .tv { base := "x".toList, idx := .ss }
def exE : SExpr := .sub (.mul (.sym exX) (.sym exX)) (.sym (.par "a".toList))
noncomputable def exP : List (Str × ℝ) := [("a".toList, 4)]
/-- the values at the point `v` -/
def exAt (v : ℝ) : Sym → ℝ := fun s => if s = exX then v else 4

theorem ex_nodup : [exX].Nodup := by decide
theorem ex_closed : Closed [exE] [exX] exP := by
  intro e he s hs
  rw [List.mem_singleton] at he
  subst he
  have : s = exX ∨ s = .par "a".toList := by simpa [exE, SExpr.sub, SExpr.syms] using hs
  rcases this with rfl | rfl
  · exact .inl (by simp)
  · exact .inr (by simp [exP, dkeys, symName])
theorem ex_point (v : ℝ) : PointIs [exX] exP (fun _ => v) (exAt v) := by
  constructor
  · intro i n h
    cases i with
    | zero => cases h; simp [exAt]
    | succ i => cases h
  · intro s hs w hw
    have hne : s ≠ exX := by simpa using hs
    have hk : symName s ∈ dkeys exP := (dget_isSome _ _).mp (by rw [hw]; rfl)
    have hk' : symName s = "a".toList := by simpa [exP, dkeys] using hk
    rw [hk'] at hw
    simp only [exAt, if_neg hne]
    cases hw; rfl
theorem ex_smooth (f : ErrFn) (v : ℝ) (h : v ^ 2 ≠ 4) : ErrSmooth [exE] f (exAt v) := by
  have hv : exE.eval (exAt v) = v ^ 2 - 4 := by
    simp only [exE, SExpr.sub, SExpr.eval, exAt, if_pos, show ¬ (Sym.par "a".toList = exX) by decide, if_false]
    push_cast; ring
  refine ⟨?_, ?_, ?_⟩
  · intro e he; rw [List.mem_singleton] at he; subst he; exact ⟨⟨trivial, trivial⟩, trivial, trivial⟩
  · intro _ e he; rw [List.mem_singleton] at he; subst he; rw [hv]; exact sub_ne_zero.mpr h
  · intro _; exact ⟨exE, by simp, by rw [hv]; exact sub_ne_zero.mpr h⟩

example : ∃ c, rootCall [exE] [exX] [[]] exP true {} = .ok c := (C123_root_refuses _ _ _ _ _ _).1.mpr fun _ _ n hn => by
  rw [List.mem_singleton] at hn; subst hn; exact ⟨exE, by simp, by decide⟩

example (f : ErrFn) (hf : f ≠ .other) : ∃ c, minimizeCall (fun _ => []) [exE] [exX] exP f true false true [] false {} = .ok c :=
  (C123_minimize_refuses _ _ _ ex_nodup _ _ _ _ _ _ _ _).mpr ⟨hf, fun _ => ⟨by simp, fun n hn => by
    rw [List.mem_singleton] at hn; subst hn; exact ⟨exE, by simp, by decide⟩⟩⟩

/-- the residual at 3 is 5 -/
example (c : RootCall) (h : rootCall [exE] [exX] [[]] exP true {} = .ok c) : c.f (fun _ => 3) = some [5] := by
  rw [C123_residual [exE] [exX] ex_nodup [[]] exP ex_closed true {} c h (fun _ => 3) (exAt 3) (ex_point 3)]
  simp only [List.map_cons, List.map_nil, exE, SExpr.sub, SExpr.eval, exAt, if_pos, show ¬ (Sym.par "a".toList = exX) by decide, if_false]
  norm_num

/-- the gradient judged after `root` at 3 is 60 with the Jacobian, 0 without -/
example : rootGradient [exE] [exX] true (exAt 3) = [60] ∧ rootGradient [exE] [exX] false (exAt 3) = [0] := by
  have ha : exAt 3 (Sym.par "a".toList) = 4 := if_neg (by decide)
  have hx : exAt 3 exX = 3 := if_pos rfl
  constructor
  · have h0 : exE.eval (exAt 3) = 5 := by simp only [exE, SExpr.sub, SExpr.eval, ha, hx]; norm_num
    have h1 : (exE.diff exX).eval (exAt 3) = 6 := by
      simp only [exE, SExpr.sub, SExpr.diff, SExpr.eval, hx, if_true, if_neg (show ¬ (Sym.par "a".toList = exX) by decide),
        if_neg (show ¬ (exX = Sym.par "a".toList) by decide)]
      norm_num
    simp [rootGradient, h0, h1]; norm_num
  · simp [rootGradient]

end SSG

end GE
