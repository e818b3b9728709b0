import Verif.Props.DynareBlocks
/-! # C104: the steady state block of the exported file; examples for C101, C103, C104 -/

namespace GE.Dyn

/-- a parameter or temporary gets a value -/
def setPar (P : Str → ℝ) (n : Str) (v : ℝ) : Str → ℝ := fun n' => if n' = n then v else P n'

/-- the values in scope after working through the replacements `sp.cse` lists, from the first to the last -/
noncomputable def cseRun (F : Funs) (V : TSym → ℝ) : (Str → ℝ) → List (Str × DE) → Str → ℝ
  | P, [] => P
  | P, q :: qs => cseRun F V (setPar P q.1 (q.2.val F V P)) qs

/-- an expression the printer can print and Dynare evaluate in a steady state block: canonical, with real powers, and
mentioning parameters and temporaries only -/
def Plain (F : Funs) (V : TSym → ℝ) (P : Str → ℝ) (e : DE) : Prop :=
  e.Canon ∧ e.RealPowers F V P ∧ ∀ x ∈ e.syms, ∃ n, x = Sum.inr n

/-- what `sp.cse` promises for the expressions `rhs`: replacements and reduced expressions, one for each, that have the
values of `rhs` once the replacements have been made in order -/
structure CseOk (F : Funs) (V : TSym → ℝ) (P : Str → ℝ) (rhs : List DE) (r : List (Str × DE) × List DE) : Prop where
  vals : r.2.map (DE.val F V (cseRun F V P r.1)) = rhs.map (DE.val F V P)
  temps : ∀ pre q post, r.1 = pre ++ q :: post → Plain F V (cseRun F V P pre) q.2
  reduced : ∀ e ∈ r.2, Plain F V (cseRun F V P r.1) e

theorem assigns_append {F : Funs} {e1 e2 e3 : Str → Int → ℝ} {l1 l2 : List (Str × List DTok)} (h1 : Assigns F e1 l1 e2)
    (h2 : Assigns F e2 l2 e3) : Assigns F e1 (l1 ++ l2) e3 := by
  induction h1 with
  | nil => exact h2
  | cons hr _ ih => exact .cons hr (ih h2)

theorem assigns_split {F : Funs} : ∀ {l1 l2 : List (Str × List DTok)} {e1 e3 : Str → Int → ℝ}, Assigns F e1 (l1 ++ l2) e3 →
    ∃ e2, Assigns F e1 l1 e2 ∧ Assigns F e2 l2 e3
  | [], _, e1, _, h => ⟨e1, .nil e1, h⟩
  | _ :: l1, l2, e1, e3, h => by
    cases h with
    | cons hr hs =>
      obtain ⟨e2, h1, h2⟩ := assigns_split hs
      exact ⟨e2, .cons hr h1, h2⟩

theorem plain_agrees {V : TSym → ℝ} {P : Str → ℝ} {env : Str → Int → ℝ} {e : DE} (h : ∀ x ∈ e.syms, ∃ n, x = Sum.inr n)
    (ha : ∀ n, Sum.inr n ∈ e.syms → env n 0 = P n) : Agrees V P env e := by
  intro x hx
  obtain ⟨n, rfl⟩ := h x hx
  exact ha n hx

theorem temps_ok (F : Funs) (V : TSym → ℝ) : ∀ (qs : List (Str × DE)) (P : Str → ℝ) (env : Str → Int → ℝ),
    (∀ pre q post, qs = pre ++ q :: post → Plain F V (cseRun F V P pre) q.2) → (∀ n, env n 0 = P n) →
    ∃ env', Assigns F env (qs.map fun p => (p.1, toks p.2)) env' ∧
      (∀ env'', Assigns F env (qs.map fun p => (p.1, toks p.2)) env'' → env'' = env') ∧ ∀ n, env' n 0 = cseRun F V P qs n
  | [], P, env, _, he => ⟨env, .nil env, fun _ h => by cases h; rfl, he⟩
  | q :: qs, P, env, hp, he => by
    obtain ⟨c, r, s⟩ := hp [] q qs rfl
    obtain ⟨⟨a, ha⟩, hv⟩ := means_expr (env := env) c r (plain_agrees s fun n _ => he n)
    obtain ⟨env', h1, h2, h3⟩ := temps_ok F V qs (setPar P q.1 (q.2.val F V P)) (bindName env q.1 (q.2.val F V P))
      (fun pre q' post h => by
        have := hp (q :: pre) q' post (by rw [h]; rfl)
        exact this)
      (fun n => by by_cases e : n = q.1 <;> simp [bindName, setPar, e, he])
    refine ⟨env', ?_, ?_, h3⟩
    · refine Assigns.cons ha ?_
      rw [hv a ha]
      exact h1
    · intro env'' h
      cases h with
      | cons hr hs => rw [show _ = _ from hv _ hr] at hs; exact h2 _ hs

end GE.Dyn

namespace GE
open Dyn

/-- **C104** (closed forms): when the model has a closed form for the steady state of every variable, the block written is
a `steady_state_model`; Dynare reads it in one way, and working through it with the parameters at their values gives every
variable the value of its closed form, with or without common subexpressions. -/
theorem C104_analytic (F : Funs) (V : TSym → ℝ) (P : Str → ℝ) (env : Str → Int → ℝ) (m : ModelView)
    (cse : List DE → List (Str × DE) × List DE) (useCse : Bool) (hfull : m.ssRel.length = m.vars.length)
    (henv : ∀ n, env n 0 = P n) (hnd : (m.ssRel.map fun p => p.1.base).Nodup)
    (hplain : useCse = false → ∀ p ∈ m.ssRel, Plain F V P p.2)
    (hcse : useCse = true → CseOk F V P (m.ssRel.map Prod.snd) (cse (m.ssRel.map Prod.snd)))
    (hfresh : ∀ p ∈ m.ssRel, (useCse = false → ∀ q ∈ m.ssRel, Sum.inr p.1.base ∉ q.2.syms) ∧
      (useCse = true → ∀ e ∈ (cse (m.ssRel.map Prod.snd)).2, Sum.inr p.1.base ∉ e.syms)) :
    ∃ lines, steadyBlock m cse useCse = some (.analytic lines) ∧ (∃ env', Assigns F env lines env') ∧
      ∀ env', Assigns F env lines env' → ∀ p ∈ m.ssRel, ∀ k, env' p.1.base k = p.2.val F V P := by
  classical
  -- both cases: a list of temporaries and a list of reduced expressions
  obtain ⟨r, hr, hok, hfr⟩ : ∃ r : List (Str × DE) × List DE,
      (if useCse then cse (m.ssRel.map Prod.snd) else ([], m.ssRel.map Prod.snd)) = r ∧
      CseOk F V P (m.ssRel.map Prod.snd) r ∧ ∀ p ∈ m.ssRel, ∀ e ∈ r.2, Sum.inr p.1.base ∉ e.syms := by
    cases useCse with
    | true => exact ⟨_, by simp, hcse rfl, fun p hp => (hfresh p hp).2 rfl⟩
    | false =>
      refine ⟨([], m.ssRel.map Prod.snd), by simp, ⟨rfl, by simp, ?_⟩, ?_⟩
      · intro e he
        obtain ⟨p, hp, rfl⟩ := List.mem_map.1 he
        exact hplain rfl p hp
      · intro p hp e he
        obtain ⟨q, hq, rfl⟩ := List.mem_map.1 he
        exact (hfresh p hp).1 rfl q hq
  have hlen : r.2.length = m.ssRel.length := by simpa using congrArg List.length hok.vals
  refine ⟨(r.1.map fun p => (p.1, toks p.2)) ++ ((m.ssRel.map Prod.fst).zip r.2).map fun p => (p.1.base, toks p.2), ?_, ?_⟩
  · unfold steadyBlock
    rw [if_pos hfull]
    simp only [hr]
  obtain ⟨env1, a1, u1, v1⟩ := temps_ok F V r.1 P env hok.temps henv
  let N : Str → Prop := fun n => ∃ p ∈ m.ssRel, p.1.base = n
  let w : Str → ℝ := fun n => if h : N n then h.choose.2.val F V P else 0
  have hinj : ∀ p ∈ m.ssRel, ∀ q ∈ m.ssRel, p.1.base = q.1.base → p = q := by
    intro p hp q hq h
    exact List.inj_on_of_nodup_map hnd hp hq h
  have hw : ∀ p ∈ m.ssRel, w p.1.base = p.2.val F V P := by
    intro p hp
    have hN : N p.1.base := ⟨p, hp, rfl⟩
    have : hN.choose = p := hinj _ hN.choose_spec.1 _ hp hN.choose_spec.2
    simp only [w, dif_pos hN, this]
  have hzip : ∀ l ∈ ((m.ssRel.map Prod.fst).zip r.2).map (fun p => (p.1.base, toks p.2)),
      ∃ p ∈ m.ssRel, ∃ e ∈ r.2, l = (p.1.base, toks e) ∧ e.val F V (cseRun F V P r.1) = p.2.val F V P := by
    intro l hl
    obtain ⟨⟨s, e⟩, hse, rfl⟩ := List.mem_map.1 hl
    obtain ⟨i, hi, hie⟩ := List.getElem_of_mem hse
    have hi1 : i < m.ssRel.length := by simp at hi; omega
    have hi2 : i < r.2.length := by omega
    simp only [List.getElem_zip, List.getElem_map, Prod.mk.injEq] at hie
    refine ⟨m.ssRel[i], List.getElem_mem hi1, r.2[i], List.getElem_mem hi2, by rw [hie.1, hie.2], ?_⟩
    have := congrArg (fun l => l[i]?) hok.vals
    simp only [List.getElem?_map, List.getElem?_eq_getElem hi1, List.getElem?_eq_getElem hi2, Option.map_some,
      Option.some.injEq] at this
    exact this
  obtain ⟨env2, a2, u2, v2⟩ := assigns_ok F w env1 N
    (((m.ssRel.map Prod.fst).zip r.2).map fun p => (p.1.base, toks p.2))
    (fun l hl => by
      obtain ⟨p, hp, e, _, rfl, _⟩ := hzip l hl
      exact ⟨p, hp, rfl⟩)
    (fun l hl env' ho => by
      obtain ⟨p, hp, e, he, rfl, hv⟩ := hzip l hl
      obtain ⟨c1, c2, c3⟩ := hok.reduced e he
      rw [show w (p.1.base, toks e).1 = e.val F V (cseRun F V P r.1) by rw [hv]; exact hw p hp]
      refine means_expr c1 c2 (plain_agrees c3 ?_)
      intro n hn
      rw [ho, v1]
      rintro ⟨q, hq, rfl⟩
      exact hfr q hq e he hn)
    env1 (fun _ _ _ => rfl)
  refine ⟨⟨env2, assigns_append a1 a2⟩, ?_⟩
  intro env' ha p hp k
  obtain ⟨e2, b1, b2⟩ := assigns_split ha
  rw [u1 _ b1] at b2
  rw [u2 _ b2, v2, if_pos, hw p hp]
  have : (((m.ssRel.map Prod.fst).zip r.2).map fun p => (p.1.base, toks p.2)).map Prod.fst
      = m.ssRel.map fun p => p.1.base := by
    rw [List.map_map]
    have : (Prod.fst ∘ fun p : TSym × DE => (p.1.base, toks p.2)) = TSym.base ∘ Prod.fst := rfl
    rw [this, ← List.map_map, List.map_fst_zip (by simp [hlen]), List.map_map]
    rfl
  rw [this]
  exact List.mem_map.2 ⟨p, hp, rfl⟩

/-- **C104** (numbers): a model without all the closed forms, and without calibrated parameters, gets an `initval` block
that lists its numerical steady state, variable by variable and in order, each value within 1/2000. -/
theorem C104_numeric_partial (m : ModelView) (cse : List DE → List (Str × DE) × List DE) (useCse : Bool)
    (hnot : m.ssRel.length ≠ m.vars.length) (ss : List (TSym × Rat))
    (hss : m.steady = ss.map fun p => (.inl p.1, p.2)) :
    ∃ lines, steadyBlock m cse useCse = some (.initval lines) ∧
      List.Forall₂ (fun p l => l.1 = p.1.base ∧ |l.2 - p.2| ≤ 1/2000) ss lines := by
  have hm : ∀ ss : List (TSym × Rat), (ss.map fun p => ((Sum.inl p.1 : TSym ⊕ Str), p.2)).mapM baseNamed
      = some (ss.map fun p => (p.1.base, p.2)) := by
    intro ss
    induction ss with
    | nil => rfl
    | cons p ss ih => simp [baseNamed, ih]
  refine ⟨writeValues (ss.map fun p => (p.1.base, p.2)), ?_, ?_⟩
  · unfold steadyBlock
    rw [if_neg hnot, hss, hm]
    rfl
  · clear hss hm
    induction ss with
    | nil => exact .nil
    | cons p ss ih =>
      refine .cons ⟨rfl, ?_⟩ ih
      have := shown_near 3 p.2
      norm_num at this ⊢
      exact this

/-- **C104** does not hold as stated for every model: with a calibrated parameter among the steady state results and no
full set of closed forms, the export raises instead of writing a block. -/
theorem C104_calibrated_violated (m : ModelView) (cse : List DE → List (Str × DE) × List DE) (useCse : Bool)
    (hnot : m.ssRel.length ≠ m.vars.length) (p : Str) (v : Rat) (hp : (.inr p, v) ∈ m.steady) :
    steadyBlock m cse useCse = none := by
  unfold steadyBlock
  rw [if_neg hnot]
  have : ∀ l : List ((TSym ⊕ Str) × Rat), (.inr p, v) ∈ l → l.mapM baseNamed = none := by
    intro l
    induction l with
    | nil => simp
    | cons q l ih =>
      intro h
      rw [List.mapM_cons]
      rcases List.mem_cons.1 h with h | h
      · rw [← h]; rfl
      · cases hq : baseNamed q with
        | none => rfl
        | some y => simp [ih h]
  rw [this _ hp]
  rfl

/-- **C101** (one name for one symbol): unless two different symbols of the expression are written with the same name,
there are values of Dynare's names that agree with the values of the symbols, whatever these are. -/
theorem C101_env_exists (V : TSym → ℝ) (P : Str → ℝ) (e : DE)
    (hinj : ∀ x ∈ e.syms, ∀ y ∈ e.syms, dynName x = dynName y → x = y) : ∃ env, Agrees V P env e := by
  classical
  refine ⟨fun n k => if h : ∃ x ∈ e.syms, dynName x = (n, k) then Sum.elim V P h.choose else 0, ?_⟩
  intro x hx
  have h : ∃ y ∈ e.syms, dynName y = ((dynName x).1, (dynName x).2) := ⟨x, hx, rfl⟩
  have e1 : h.choose = x := hinj _ h.choose_spec.1 _ hx h.choose_spec.2
  simp only [dif_pos h, e1]

/-- the only ways two symbols get the same name: a parameter that is called like a variable or like `x_ss`, a variable
that is called `x_ss`, or the same variable with other assumptions -/
theorem C101_clashes (x y : TSym ⊕ Str) (h : dynName x = dynName y) :
    x = y ∨ (∃ s s', x = .inl s ∧ y = .inl s' ∧ s.base = s'.base ∧ s.idx = s'.idx) ∨
    (∃ s p, (x = .inl s ∧ y = .inr p ∨ x = .inr p ∧ y = .inl s) ∧
      (s.idx = .t 0 ∧ p = s.base ∨ s.idx = .ss ∧ p = s.base ++ "_ss".toList)) ∨
    (∃ s s', (x = .inl s ∧ y = .inl s' ∨ x = .inl s' ∧ y = .inl s) ∧ s.idx = .t 0 ∧ s'.idx = .ss ∧
      s.base = s'.base ++ "_ss".toList) := by
  rcases x with ⟨b, ix, as⟩ | p <;> rcases y with ⟨b', ix', as'⟩ | p'
  · cases ix <;> cases ix' <;> simp only [dynName, Prod.mk.injEq] at h
    · right; left; exact ⟨_, _, rfl, rfl, h.1, by rw [h.2]⟩
    · right; right; right
      exact ⟨_, _, .inl ⟨rfl, rfl⟩, by rw [h.2], rfl, h.1⟩
    · right; right; right
      exact ⟨_, _, .inr ⟨rfl, rfl⟩, by rw [← h.2], rfl, h.1.symm⟩
    · right; left; exact ⟨_, _, rfl, rfl, List.append_cancel_right h.1, rfl⟩
  · right; right; left
    cases ix <;> simp only [dynName, Prod.mk.injEq] at h
    · exact ⟨_, _, .inl ⟨rfl, rfl⟩, .inl ⟨by rw [h.2], h.1.symm⟩⟩
    · exact ⟨_, _, .inl ⟨rfl, rfl⟩, .inr ⟨rfl, h.1.symm⟩⟩
  · right; right; left
    cases ix' <;> simp only [dynName, Prod.mk.injEq] at h
    · exact ⟨_, _, .inr ⟨rfl, rfl⟩, .inl ⟨by rw [← h.2], h.1⟩⟩
    · exact ⟨_, _, .inr ⟨rfl, rfl⟩, .inr ⟨rfl, h.1⟩⟩
  · left
    simp only [dynName, Prod.mk.injEq] at h
    rw [h.1]

/-! ## the hypotheses are met: a growth model -/

namespace DynEx

/-- `K`, `Y` at a date or in steady state -/
def K (i : TIdx) : TSym := ⟨"K".toList, i, []⟩
def Y (i : TIdx) : TSym := ⟨"Y".toList, i, []⟩

/-- `Y - K(-1)**alpha / (1 - alpha)` and `K - K[ss]/2 - rho*K(-1)` -/
def eq1 : DE := .add [.tv (Y (.t 0)), .mul [.num (-1), .pow (.tv (K (.t (-1)))) (.par "alpha".toList),
  .pow (.add [.num 1, .mul [.num (-1), .par "alpha".toList]]) (.num (-1))]]
def eq2 : DE := .add [.tv (K (.t 0)), .mul [.num (-1/2), .tv (K .ss)], .mul [.num (-1), .par "rho".toList, .tv (K (.t (-1)))]]

/-- the texts: `Y - K(-1)^alpha/(1 - alpha)` and `K - K_ss/2 - rho*K(-1)` -/
example : toks eq1 = [.name "Y".toList, .op .sub, .name "K".toList, .lpar, .op .sub, .num 1, .rpar, .op .pow,
    .name "alpha".toList, .op .div, .lpar, .num 1, .op .sub, .name "alpha".toList, .rpar] ∧
  toks eq2 = [.name "K".toList, .op .sub, .name "K_ss".toList, .op .div, .num 2, .op .sub, .name "rho".toList, .op .mul,
    .name "K".toList, .lpar, .op .sub, .num 1, .rpar] := by decide +kernel

/-- the model, with closed forms -/
def mod1 : ModelView where
  vars := [K (.t 0), Y (.t 0)]
  shocks := []
  params := ["alpha".toList, "rho".toList]
  values := [("alpha".toList, 1/3), ("rho".toList, 9/10)]
  equations := [eq1, eq2]
  ssRel := [(K .ss, .pow (.par "alpha".toList) (.num 2)), (Y .ss, .mul [.num 3, .par "alpha".toList])]
  steady := [(.inl (K .ss), 1/9), (.inl (Y .ss), 1)]

/-- the same without closed forms -/
def mod2 : ModelView := { mod1 with ssRel := [] }

noncomputable def V : TSym → ℝ := fun s => if s = K .ss then 1/9 else if s = Y .ss then 1 else 2
noncomputable def P : Str → ℝ := fun n => if n = "alpha".toList then 1/3 else if n = "rho".toList then 9/10 else 0
noncomputable def env : Str → Int → ℝ := fun n _ =>
  if n = "alpha".toList then 1/3 else if n = "rho".toList then 9/10 else if n = "K".toList ∨ n = "Y".toList then 2 else 0

theorem syms1 : eq1.syms = [.inl (Y (.t 0)), .inl (K (.t (-1))), .inr "alpha".toList, .inr "alpha".toList] := by
  simp [eq1, DE.syms, DE.symsL]
theorem syms2 : eq2.syms = [.inl (K (.t 0)), .inl (K .ss), .inr "rho".toList, .inl (K (.t (-1)))] := by
  simp [eq2, DE.syms, DE.symsL]

theorem finds : findSS mod1 = [K .ss] := by decide +kernel

theorem real1 (F : Funs) : ∀ e ∈ [eq1, eq2], e.Canon ∧ e.RealPowers F V P := by
  intro e he
  rcases List.mem_cons.1 he with rfl | he
  · refine ⟨by simp [eq1, DE.Canon, DE.CanonL, quotLike], ?_⟩
    simp [eq1, DE.RealPowers, DE.RealPowersL, litOf]
  · rw [List.mem_singleton.1 he]
    refine ⟨by simp [eq2, DE.Canon, DE.CanonL], ?_⟩
    simp [eq2, DE.RealPowers, DE.RealPowersL]

theorem hyp (F : Funs) (m : ModelView) (he : m.equations = [eq1, eq2]) : BlockHyp F V P env m := by
  have hf : findSS m = [K .ss] := by
    have : findSS m = findSS mod1 := by simp only [findSS, he, mod1]
    rw [this, finds]
  have hs : ∀ e ∈ [eq1, eq2], ∀ x ∈ e.syms, isSteady x = false → x = .inl (Y (.t 0)) ∨ x = .inl (K (.t (-1))) ∨
      x = .inl (K (.t 0)) ∨ x = .inr "alpha".toList ∨ x = .inr "rho".toList := by
    intro e he x hx hst
    rcases List.mem_cons.1 he with rfl | he
    · rw [syms1] at hx
      simp only [List.mem_cons, List.not_mem_nil, or_false] at hx
      rcases hx with h | h | h | h <;> simp [h]
    · rw [List.mem_singleton.1 he, syms2] at hx
      simp only [List.mem_cons, List.not_mem_nil, or_false] at hx
      rcases hx with h | h | h | h
      · simp [h]
      · rw [h] at hst; exact absurd hst (by decide)
      · simp [h]
      · simp [h]
  refine ⟨?_, ?_, ?_, ?_⟩
  · rw [he]; exact real1 F
  · rw [he]
    intro e hm x hx hst
    rcases hs e hm x hx hst with rfl | rfl | rfl | rfl | rfl <;>
      simp [dynName, env, V, P, K, Y]
  · rw [he, hf]
    intro e hm x hx hst s hs'
    rw [List.mem_singleton.1 hs']
    rcases hs e hm x hx hst with rfl | rfl | rfl | rfl | rfl <;> decide
  · rw [hf]
    intro s h s' h' _
    rw [List.mem_singleton.1 h, List.mem_singleton.1 h']

/-- Dynare's residuals of the exported model are the residuals of the equations: closed forms -/
example (F : Funs) (vals : List ℝ) (h : BlockVals F env (modelBlock mod1) vals) :
    vals = [eq1, eq2].map (DE.val F V P) := by
  refine (C103_analytic F V P env mod1 (hyp F _ rfl) ?_ ?_).2 vals h
  · rw [finds]
    intro s hs
    rw [List.mem_singleton.1 hs]
    exact ⟨_, List.mem_cons_self ..⟩
  · intro s e hse hs
    rw [finds] at hs ⊢
    have := List.mem_singleton.1 hs
    subst this
    have he : e = .pow (.par "alpha".toList) (.num 2) := by
      simp only [mod1, List.mem_cons, Prod.mk.injEq, List.not_mem_nil, or_false] at hse
      rcases hse with ⟨_, h⟩ | ⟨h, _⟩
      · exact h
      · exact absurd h (by decide)
    subst he
    refine ⟨by simp [DE.Canon], ⟨trivial, trivial, ?_⟩, ?_, ?_⟩
    · intro r hr hneg
      simp only [litOf, Option.some.injEq] at hr
      subst hr; norm_num at hneg
    · simp [DE.val, P, V]; norm_num
    · intro x hx
      simp only [DE.syms, List.append_nil, List.mem_singleton] at hx
      subst hx
      refine ⟨rfl, by simp [dynName, env, P], ?_⟩
      intro s' hs'
      rw [List.mem_singleton.1 hs']; decide

/-- and numbers -/
example (F : Funs) (vals : List ℝ) (h : BlockVals F env (modelBlock mod2) vals) :
    vals = [eq1, eq2].map (DE.val F V P) := by
  have hf : findSS mod2 = [K .ss] := by
    have : findSS mod2 = findSS mod1 := rfl
    rw [this, finds]
  refine (C103_numeric F V P env mod2 (hyp F _ rfl) ⟨K .ss, by rw [hf]; simp, by simp [mod2]⟩ ?_ ?_).2 vals h
  · rw [hf]
    intro s hs
    rw [List.mem_singleton.1 hs]
    exact ⟨1/9, by simp [mod2, mod1]⟩
  · rw [hf]
    intro s v hv hs
    have := List.mem_singleton.1 hs
    subst this
    simp only [mod2, mod1, List.mem_cons, Prod.mk.injEq, List.not_mem_nil, or_false, Sum.inl.injEq] at hv
    rcases hv with ⟨_, h⟩ | ⟨h, _⟩
    · rw [h]; simp [V]
    · exact absurd h (by decide)

/-- `sp.cse` of the two closed forms of `mod1`, written by hand: `x0 = 3*alpha`, `K = x0**2/9`, `Y = x0` -/
def cse1 : List DE → List (Str × DE) × List DE := fun _ =>
  ([("x0".toList, .mul [.num 3, .par "alpha".toList])],
   [.mul [.num (1/9), .pow (.par "x0".toList) (.num 2)], .par "x0".toList])

theorem cseOk (F : Funs) : CseOk F V P (mod1.ssRel.map Prod.snd) (cse1 (mod1.ssRel.map Prod.snd)) := by
  have hP : P "alpha".toList = 1/3 := by simp [P]
  refine ⟨?_, ?_, ?_⟩
  · simp [mod1, cse1, DE.val, DE.vals, cseRun, setPar]
    ring
  · intro pre q post h
    have hpre : pre = [] := by
      cases pre with
      | nil => rfl
      | cons a pre => simp [cse1] at h
    subst hpre
    simp only [cse1, List.nil_append, List.cons.injEq] at h
    rw [← h.1]
    refine ⟨by simp [DE.Canon, DE.CanonL], by simp [DE.RealPowers, DE.RealPowersL], ?_⟩
    intro x hx
    simp [DE.syms, DE.symsL] at hx
    exact ⟨_, hx⟩
  · intro e he
    simp only [cse1, List.mem_cons, List.not_mem_nil, or_false] at he
    rcases he with rfl | rfl
    · refine ⟨by simp [DE.Canon, DE.CanonL, quotLike], ?_, ?_⟩
      · simp [DE.RealPowers, DE.RealPowersL, litOf]
      · intro x hx
        simp [DE.syms, DE.symsL] at hx
        exact ⟨_, hx⟩
    · refine ⟨trivial, trivial, ?_⟩
      intro x hx
      simp [DE.syms] at hx
      exact ⟨_, hx⟩

/-- the steady state block with common subexpressions gives `K = 1/9`, `Y = 1` -/
example (F : Funs) (lines : List (Str × List DTok)) (h : steadyBlock mod1 cse1 true = some (.analytic lines))
    (env0 env' : Str → Int → ℝ) (h0 : ∀ n, env0 n 0 = P n) (ha : Assigns F env0 lines env') :
    env' "K".toList 0 = 1/9 ∧ env' "Y".toList 0 = 1 := by
  obtain ⟨l, hl, _, hv⟩ := C104_analytic F V P env0 mod1 cse1 true rfl h0 (by decide) (by simp) (fun _ => cseOk F) (by
    intro p hp
    refine ⟨by simp, fun _ e he => ?_⟩
    simp only [mod1, List.mem_cons, List.not_mem_nil, or_false] at hp
    simp only [cse1, List.mem_cons, List.not_mem_nil, or_false] at he
    rcases hp with rfl | rfl <;> rcases he with rfl | rfl <;> simp [DE.syms, DE.symsL, K, Y])
  rw [hl] at h
  simp only [Option.some.injEq, SSBlock.analytic.injEq] at h
  subst h
  have h1 := hv env' ha (K .ss, _) (List.mem_cons_self ..) 0
  have h2 := hv env' ha (Y .ss, .mul [.num 3, .par "alpha".toList]) (by simp [mod1]) 0
  have hP : P "alpha".toList = 1/3 := by simp [P]
  simp only [K, Y] at h1 h2
  rw [h1, h2]
  simp only [DE.val, DE.vals, hP, List.prod_cons, List.prod_nil]
  norm_num

/-- a model without closed forms and with a calibrated parameter cannot be exported -/
example : steadyBlock { mod1 with ssRel := [], steady := [(.inl (K .ss), 1), (.inr "beta".toList, 1)] } cse1 true = none :=
  C104_calibrated_violated _ _ _ (by simp [mod1]) "beta".toList 1 (by simp)

/-- and one without calibrated parameters can -/
example : ∃ lines, steadyBlock mod2 cse1 true = some (.initval lines) ∧
    List.Forall₂ (fun p l => l.1 = p.1.base ∧ |l.2 - p.2| ≤ 1/2000) [(K .ss, 1/9), (Y .ss, 1)] lines :=
  C104_numeric_partial mod2 cse1 true (by simp [mod2, mod1]) _ rfl

/-- the two equations have no clashing names, so values that agree exist -/
example (V : TSym → ℝ) (P : Str → ℝ) : ∃ env, Agrees V P env eq1 :=
  C101_env_exists V P eq1 (by rw [syms1]; decide)

/-- a parameter called `K_ss` and the steady state of `K` are written alike: no values of the names agree with symbols
whose values differ -/
example (V : TSym → ℝ) (P : Str → ℝ) (h : V (K .ss) ≠ P "K_ss".toList) :
    ¬ ∃ env, Agrees V P env (.add [.tv (K .ss), .par "K_ss".toList]) := by
  rintro ⟨env, ha⟩
  have h1 := ha (.inl (K .ss)) (by simp [DE.syms, DE.symsL])
  have h2 := ha (.inr "K_ss".toList) (by simp [DE.syms, DE.symsL])
  exact h (h1.symm.trans h2)

end DynEx

end GE
