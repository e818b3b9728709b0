import Verif.Props.DynareFile
/-! # C103, C104: the model block and the steady state block of the exported file -/

namespace GE.Dyn

/-- the text can be read, and means `v` -/
def Means (F : Funs) (env : Str → Int → ℝ) (ts : List DTok) (v : ℝ) : Prop :=
  (∃ a, ReadsAs ts a) ∧ ∀ a, ReadsAs ts a → a.val F env = v

theorem assigns_ok (F : Funs) (w : Str → ℝ) (env0 : Str → Int → ℝ) (N : Str → Prop) : ∀ (lines : List (Str × List DTok)),
    (∀ l ∈ lines, N l.1) → (∀ l ∈ lines, ∀ env, (∀ n k, ¬ N n → env n k = env0 n k) → Means F env l.2 (w l.1)) →
    ∀ env, (∀ n k, ¬ N n → env n k = env0 n k) →
      ∃ env', Assigns F env lines env' ∧ (∀ env'', Assigns F env lines env'' → env'' = env') ∧
        ∀ n k, env' n k = if n ∈ lines.map Prod.fst then w n else env n k
  | [], _, _, env, _ => ⟨env, .nil env, fun _ h => by cases h; rfl, by simp⟩
  | (n, ts) :: lines, hN, hm, env, ho => by
    have hnN : N n := hN (n, ts) (by simp)
    obtain ⟨⟨a, ha⟩, hv⟩ := hm (n, ts) (by simp) env ho
    have ho' : ∀ n' k, ¬ N n' → bindName env n (w n) n' k = env0 n' k := by
      intro n' k hn'
      have : n' ≠ n := fun h => hn' (h ▸ hnN)
      simp [bindName, this, ho n' k hn']
    obtain ⟨env', h1, h2, h3⟩ := assigns_ok F w env0 N lines (fun l hl => hN l (by simp [hl]))
      (fun l hl => hm l (by simp [hl])) _ ho'
    refine ⟨env', .cons ha (by rw [hv a ha]; exact h1), ?_, ?_⟩
    · intro env'' h
      cases h with
      | cons hr hs => rw [hv _ hr] at hs; exact h2 _ hs
    · intro n' k
      rw [h3]
      by_cases e : n' = n
      · subst e; simp [bindName]
      · simp only [bindName, e, if_false, List.map_cons, List.mem_cons, false_or]

mutual
theorem mem_tsyms : ∀ (e : DE) (s : TSym), s ∈ tsyms e ↔ Sum.inl s ∈ e.syms
  | .num _, s => by simp [tsyms, DE.syms]
  | .flt _, s => by simp [tsyms, DE.syms]
  | .par _, s => by simp [tsyms, DE.syms]
  | .tv x, s => by simp [tsyms, DE.syms]
  | .add ts, s => by simpa [tsyms, DE.syms] using mem_tsymsL ts s
  | .mul ts, s => by simpa [tsyms, DE.syms] using mem_tsymsL ts s
  | .pow b e, s => by simp [tsyms, DE.syms, mem_tsyms b s, mem_tsyms e s]
  | .fn _ ts, s => by simpa [tsyms, DE.syms] using mem_tsymsL ts s
theorem mem_tsymsL : ∀ (es : List DE) (s : TSym), s ∈ tsymsL es ↔ Sum.inl s ∈ DE.symsL es
  | [], s => by simp [tsymsL, DE.symsL]
  | e :: es, s => by simp [tsymsL, DE.symsL, mem_tsyms e s, mem_tsymsL es s]
end

theorem mem_findSS (m : ModelView) (s : TSym) :
    s ∈ findSS m ↔ s.idx = .ss ∧ ∃ e ∈ m.equations, Sum.inl s ∈ e.syms := by
  simp only [findSS, List.mem_eraseDups, List.mem_filter, List.mem_flatMap, decide_eq_true_eq, mem_tsyms]
  exact and_comm

theorem ssName_inj {s s' : TSym} (h : ssName s = ssName s') : s.base = s'.base := List.append_cancel_right h

/-- the symbol is a steady state value -/
def isSteady : TSym ⊕ Str → Bool
  | .inl s => s.idx = .ss
  | .inr _ => false

theorem dynName_steady {s : TSym} (h : s.idx = .ss) : dynName (.inl s) = (ssName s, 0) := by
  obtain ⟨b, ix, as⟩ := s
  simp only at h; subst h; rfl

theorem means_expr {F : Funs} {V : TSym → ℝ} {P : Str → ℝ} {env : Str → Int → ℝ} {e : DE} (hc : e.Canon)
    (hr : e.RealPowers F V P) (ha : Agrees V P env e) : Means F env (toks e) (e.val F V P) :=
  C101_meaning F V P env e hc hr ha

theorem means_num {F : Funs} {env : Str → Int → ℝ} (v : Rat) : Means F env (numText v) v := by
  have h := C101_meaning F (fun _ => 0) (fun _ => 0) env (.flt v) trivial trivial (by simp [Agrees, DE.syms])
  simpa [Means, toks, numText, DE.val] using h

theorem forall2_means {F : Funs} {env : Str → Int → ℝ} {ts : List (List DTok)} {vs : List ℝ}
    (h : List.Forall₂ (fun t v => Means F env t v) ts vs) :
    List.Forall₂ (fun t v => ∃ a, ReadsAs t a ∧ a.val F env = v) ts vs ∧
    ∀ vs', List.Forall₂ (fun t v => ∃ a, ReadsAs t a ∧ a.val F env = v) ts vs' → vs' = vs := by
  induction h with
  | nil => exact ⟨.nil, fun vs' h => by cases h; rfl⟩
  | cons hm _ ih =>
    obtain ⟨⟨a, ha⟩, hv⟩ := hm
    refine ⟨.cons ⟨a, ha, hv a ha⟩ ih.1, ?_⟩
    intro vs' h'
    cases h' with
    | cons hx hs =>
      obtain ⟨a', ha', hv'⟩ := hx
      rw [ih.2 _ hs, ← hv', hv a' ha']

/-- what the model block needs of the model and of the names in scope: `V` values of the variables (dates and steady
states), `P` of the parameters, `env` of the names declared before the block -/
structure BlockHyp (F : Funs) (V : TSym → ℝ) (P : Str → ℝ) (env : Str → Int → ℝ) (m : ModelView) : Prop where
  /-- the equations are as sympy writes them, and their powers are real -/
  canon : ∀ e ∈ m.equations, e.Canon ∧ e.RealPowers F V P
  /-- the declared names have the values of the symbols -/
  agrees : ∀ e ∈ m.equations, ∀ x ∈ e.syms, isSteady x = false → env (dynName x).1 (dynName x).2 = Sum.elim V P x
  /-- no variable or parameter in the equations is called `x_ss`, with `x[ss]` in the equations -/
  noclash : ∀ e ∈ m.equations, ∀ x ∈ e.syms, isSteady x = false → ∀ s ∈ findSS m, (dynName x).1 ≠ ssName s
  /-- a steady state symbol has one set of assumptions -/
  one : ∀ s ∈ findSS m, ∀ s' ∈ findSS m, s.base = s'.base → s = s'

theorem block_ok {F : Funs} {V : TSym → ℝ} {P : Str → ℝ} {env : Str → Int → ℝ} {m : ModelView}
    (h : BlockHyp F V P env m)
    (hnames : ∀ n, n ∈ (hashDefs m).map Prod.fst ↔ ∃ s ∈ findSS m, ssName s = n)
    (hmeans : ∀ l ∈ hashDefs m, ∀ s ∈ findSS m, ssName s = l.1 → ∀ env',
      (∀ n k, (¬ ∃ s ∈ findSS m, ssName s = n) → env' n k = env n k) → Means F env' l.2 (V s)) :
    (∃ vals, BlockVals F env (modelBlock m) vals) ∧
    ∀ vals, BlockVals F env (modelBlock m) vals → vals = m.equations.map (DE.val F V P) := by
  classical
  let N : Str → Prop := fun n => ∃ s ∈ findSS m, ssName s = n
  let w : Str → ℝ := fun n => if h : N n then V h.choose else 0
  have hw : ∀ s ∈ findSS m, w (ssName s) = V s := by
    intro s hs
    have hN : N (ssName s) := ⟨s, hs, rfl⟩
    have : hN.choose = s := h.one _ hN.choose_spec.1 _ hs (ssName_inj hN.choose_spec.2)
    simp only [w, dif_pos hN, this]
  have hline : ∀ l ∈ hashDefs m, N l.1 := fun l hl => (hnames l.1).1 (List.mem_map.2 ⟨l, hl, rfl⟩)
  obtain ⟨env', ha, huniq, hval⟩ := assigns_ok F w env N (hashDefs m) hline (by
    intro l hl env' ho
    obtain ⟨s, hs, hn⟩ := hline l hl
    rw [← hn, hw s hs]
    exact hmeans l hl s hs hn env' ho) env (fun _ _ _ => rfl)
  have heq : List.Forall₂ (fun t v => Means F env' t v) (m.equations.map toks) (m.equations.map (DE.val F V P)) := by
    have : ∀ (es : List DE), (∀ e ∈ es, e ∈ m.equations) →
        List.Forall₂ (fun t v => Means F env' t v) (es.map toks) (es.map (DE.val F V P)) := by
      intro es
      induction es with
      | nil => intro _; exact .nil
      | cons e es ih =>
        intro hm
        have he := hm e (by simp)
        refine .cons (means_expr (h.canon e he).1 (h.canon e he).2 ?_) (ih (fun x hx => hm x (by simp [hx])))
        intro x hx
        cases hs : isSteady x with
        | false =>
          rw [hval, if_neg, h.agrees e he x hx hs]
          rw [hnames]
          rintro ⟨s, hs', hn⟩
          exact h.noclash e he x hx hs s hs' hn.symm
        | true =>
          cases x with
          | inr p => simp [isSteady] at hs
          | inl s =>
            have hss : s.idx = .ss := by simpa [isSteady] using hs
            have hmem : s ∈ findSS m := (mem_findSS m s).2 ⟨hss, e, he, hx⟩
            rw [dynName_steady hss, hval, if_pos ((hnames _).2 ⟨s, hmem, rfl⟩), hw s hmem]
            rfl
    exact this _ (fun e he => he)
  have hf := forall2_means heq
  refine ⟨⟨_, env', ha, hf.1⟩, ?_⟩
  rintro vals ⟨env'', ha'', hv⟩
  rw [huniq _ ha''] at hv
  exact hf.2 vals hv

end GE.Dyn

namespace GE
open Dyn

/-- **C103** (analytic steady states): when every steady state value the equations mention has a closed form in terms of
the parameters, Dynare reads the exported model block, in one way, and the residual it computes for each equation, in
order, is the residual gEconpy has for that equation, with the steady state values equal to their closed forms. -/
theorem C103_analytic (F : Funs) (V : TSym → ℝ) (P : Str → ℝ) (env : Str → Int → ℝ) (m : ModelView)
    (h : BlockHyp F V P env m) (hall : ∀ s ∈ findSS m, ∃ e, (s, e) ∈ m.ssRel)
    (hrel : ∀ s e, (s, e) ∈ m.ssRel → s ∈ findSS m → e.Canon ∧ e.RealPowers F V P ∧ e.val F V P = V s ∧
      ∀ x ∈ e.syms, isSteady x = false ∧ env (dynName x).1 (dynName x).2 = Sum.elim V P x ∧
        ∀ s' ∈ findSS m, (dynName x).1 ≠ ssName s') :
    (∃ vals, BlockVals F env (modelBlock m) vals) ∧
    ∀ vals, BlockVals F env (modelBlock m) vals → vals = m.equations.map (DE.val F V P) := by
  have hcond : ((findSS m).all fun s => (m.ssRel.map Prod.fst).contains s) = true := by
    simp only [List.all_eq_true, List.contains_iff_mem]
    intro s hs
    obtain ⟨e, he⟩ := hall s hs
    exact List.mem_map.2 ⟨_, he, rfl⟩
  have hd : hashDefs m = (m.ssRel.filter fun p => (findSS m).contains p.1).map fun p => (ssName p.1, toks p.2) := by
    unfold hashDefs; simp only [hcond, if_true]
  refine block_ok h ?_ ?_
  · intro n
    rw [hd]
    simp only [List.map_map, List.mem_map, List.mem_filter, List.contains_iff_mem, Function.comp_apply]
    constructor
    · rintro ⟨p, ⟨_, h2⟩, rfl⟩; exact ⟨p.1, h2, rfl⟩
    · rintro ⟨s, hs, rfl⟩
      obtain ⟨e, he⟩ := hall s hs
      exact ⟨(s, e), ⟨he, hs⟩, rfl⟩
  · intro l hl s hs hn env' ho
    rw [hd] at hl
    obtain ⟨p, hp, rfl⟩ := List.mem_map.1 hl
    simp only [List.mem_filter, List.contains_iff_mem] at hp
    obtain ⟨hp1, hp2⟩ := hp
    have e : s = p.1 := h.one _ hs _ hp2 (ssName_inj hn)
    obtain ⟨c1, c2, c3, c4⟩ := hrel p.1 p.2 hp1 hp2
    have := means_expr (env := env') c1 c2 (by
      intro x hx
      obtain ⟨d1, d2, d3⟩ := c4 x hx
      rw [ho, d2]
      rintro ⟨s', hs', hn'⟩
      exact d3 s' hs' hn'.symm)
    rw [c3] at this
    rw [e]; exact this

/-- **C103** (numerical steady states): when some steady state value the equations mention has no closed form, the
numbers gEconpy computed are written instead, and the residuals Dynare computes are those of the equations at these
steady state values. -/
theorem C103_numeric (F : Funs) (V : TSym → ℝ) (P : Str → ℝ) (env : Str → Int → ℝ) (m : ModelView)
    (h : BlockHyp F V P env m) (hsome : ∃ s ∈ findSS m, ∀ e, (s, e) ∉ m.ssRel)
    (hst : ∀ s ∈ findSS m, ∃ v, (.inl s, v) ∈ m.steady)
    (hval : ∀ s v, (.inl s, v) ∈ m.steady → s ∈ findSS m → V s = v) :
    (∃ vals, BlockVals F env (modelBlock m) vals) ∧
    ∀ vals, BlockVals F env (modelBlock m) vals → vals = m.equations.map (DE.val F V P) := by
  have hcond : ¬ ((findSS m).all fun s => (m.ssRel.map Prod.fst).contains s) = true := by
    simp only [List.all_eq_true, List.contains_iff_mem]
    intro hc
    obtain ⟨s, hs, hno⟩ := hsome
    obtain ⟨⟨s', e⟩, he, rfl⟩ := List.mem_map.1 (hc s hs)
    exact hno e he
  have hmem : ∀ l, l ∈ hashDefs m ↔ ∃ s v, (.inl s, v) ∈ m.steady ∧ s ∈ findSS m ∧ l = (ssName s, numText v) := by
    intro l
    unfold hashDefs
    simp only [hcond, if_false, Bool.false_eq_true, List.mem_filterMap]
    constructor
    · rintro ⟨⟨k, v⟩, hp, hl⟩
      cases k with
      | inl s =>
        simp only [List.contains_iff_mem] at hl
        split at hl
        · rename_i hc; exact ⟨s, v, hp, hc, by simpa using hl.symm⟩
        · simp at hl
      | inr p => simp at hl
    · rintro ⟨s, v, h1, h2, rfl⟩
      exact ⟨(.inl s, v), h1, by simp [h2]⟩
  refine block_ok h ?_ ?_
  · intro n
    simp only [List.mem_map]
    constructor
    · rintro ⟨l, hl, rfl⟩
      obtain ⟨s, v, _, h2, rfl⟩ := (hmem l).1 hl
      exact ⟨s, h2, rfl⟩
    · rintro ⟨s, hs, rfl⟩
      obtain ⟨v, hv⟩ := hst s hs
      exact ⟨_, (hmem _).2 ⟨s, v, hv, hs, rfl⟩, rfl⟩
  · intro l hl s hs hn env' _
    obtain ⟨s', v, h1, h2, rfl⟩ := (hmem l).1 hl
    have e : s = s' := h.one _ hs _ h2 (ssName_inj hn)
    rw [e, hval s' v h1 h2]
    exact means_num v

/-- the names a mod file declares -/
def declaredNames (m : ModelView) : List Str := m.vars.map TSym.base ++ m.shocks.map TSym.base ++ m.params

/-- **C103** (closed): if the equations mention only the model's variables and shocks and its free parameters, and the
steady state values are given by closed forms in the free parameters or by numbers, then every name in the model block is
declared or was defined by a `#` line, and the `#` lines themselves mention only declared names. -/
theorem C103_closed_partial (m : ModelView)
    (hdate : ∀ e ∈ m.equations, ∀ s, Sum.inl s ∈ e.syms → s.idx ≠ .ss →
      s.base ∈ m.vars.map TSym.base ++ m.shocks.map TSym.base)
    (hpar : ∀ e ∈ m.equations, ∀ p, Sum.inr p ∈ e.syms → p ∈ m.params)
    (hrel : ∀ s e, (s, e) ∈ m.ssRel → s ∈ findSS m → ∀ x ∈ e.syms, ∃ p ∈ m.params, x = .inr p)
    (hst : ∀ s ∈ findSS m, ∃ v, (.inl s, v) ∈ m.steady) :
    (∀ l ∈ (modelBlock m).1, ∀ n, DTok.name n ∈ l.2 → n ∈ declaredNames m) ∧
    (∀ t ∈ (modelBlock m).2, ∀ n, DTok.name n ∈ t → n ∈ declaredNames m ∨ n ∈ (modelBlock m).1.map Prod.fst) := by
  constructor
  · intro l hl n hn
    simp only [modelBlock, hashDefs] at hl
    split at hl
    · obtain ⟨p, hp, rfl⟩ := List.mem_map.1 hl
      simp only [List.mem_filter, List.contains_iff_mem] at hp
      obtain ⟨x, hx, hxn⟩ := (C101_names p.2 n).1 hn
      obtain ⟨q, hq, rfl⟩ := hrel p.1 p.2 hp.1 hp.2 x hx
      simp only [dynName] at hxn
      subst hxn
      simp [declaredNames, hq]
    · obtain ⟨⟨k, v⟩, _, hl⟩ := List.mem_filterMap.1 hl
      cases k with
      | inl s =>
        simp only at hl
        split at hl
        · simp only [Option.some.injEq] at hl
          subst hl
          simp [numText, m_flt] at hn
        · simp at hl
      | inr p => simp at hl
  · intro t ht n hn
    obtain ⟨e, he, rfl⟩ := List.mem_map.1 ht
    obtain ⟨x, hx, rfl⟩ := (C101_names e n).1 hn
    cases x with
    | inr p => left; simp [declaredNames, dynName, hpar e he p hx]
    | inl s =>
      by_cases hs : s.idx = .ss
      · right
        rw [dynName_steady hs]
        have hm : s ∈ findSS m := (mem_findSS m s).2 ⟨hs, e, he, hx⟩
        simp only [modelBlock, hashDefs]
        split
        · rename_i hc
          simp only [List.all_eq_true, List.contains_iff_mem] at hc
          obtain ⟨p, hp, hps⟩ := List.mem_map.1 (hc s hm)
          refine List.mem_map.2 ⟨(ssName p.1, toks p.2), List.mem_map.2 ⟨p, ?_, rfl⟩, by rw [hps]⟩
          simp only [List.mem_filter, List.contains_iff_mem]
          exact ⟨hp, hps ▸ hm⟩
        · obtain ⟨v, hv⟩ := hst s hm
          exact List.mem_map.2 ⟨(ssName s, numText v), List.mem_filterMap.2 ⟨_, hv, by simp [hm]⟩, rfl⟩
      · left
        have := hdate e he s hx hs
        have hb : (dynName (.inl s)).1 = s.base := by
          obtain ⟨b, ix, as⟩ := s
          cases ix with
          | ss => simp at hs
          | t k => rfl
        rw [hb]
        simp only [declaredNames, List.mem_append] at this ⊢
        exact .inl this

/-- **C103** does not hold as stated for every model: a parameter used in an equation that is not a free one (a
deterministic or a calibrated parameter) is mentioned in the block and neither declared nor defined. -/
theorem C103_undeclared_violated (m : ModelView) (e : DE) (p : Str) (he : e ∈ m.equations) (hp : Sum.inr p ∈ e.syms)
    (h1 : p ∉ m.params) (h2 : ∀ s ∈ m.vars, s.base ≠ p) (h3 : ∀ s ∈ m.shocks, s.base ≠ p)
    (h4 : ∀ s ∈ findSS m, ssName s ≠ p) :
    ∃ t ∈ (modelBlock m).2, DTok.name p ∈ t ∧ p ∉ declaredNames m ∧ p ∉ (modelBlock m).1.map Prod.fst := by
  refine ⟨toks e, List.mem_map.2 ⟨e, he, rfl⟩, (C101_names e p).2 ⟨_, hp, rfl⟩, ?_, ?_⟩
  · simp only [declaredNames, List.mem_append, List.mem_map, not_or, not_exists, not_and]
    exact ⟨⟨h2, h3⟩, h1⟩
  · intro hc
    obtain ⟨l, hl, rfl⟩ := List.mem_map.1 hc
    simp only [modelBlock, hashDefs] at hl
    split at hl
    · obtain ⟨q, hq, rfl⟩ := List.mem_map.1 hl
      simp only [List.mem_filter, List.contains_iff_mem] at hq
      exact h4 q.1 hq.2 rfl
    · obtain ⟨⟨k, v⟩, _, hl⟩ := List.mem_filterMap.1 hl
      cases k with
      | inl s =>
        simp only at hl
        split at hl
        · rename_i hc'
          simp only [Option.some.injEq] at hl
          subst hl
          exact h4 s (List.contains_iff_mem.1 hc') rfl
        · simp at hl
      | inr p => simp at hl

/-- a model whose equation mentions `Y[ss]` and whose user gave `Y[ss] = K[ss]` -/
def danglingModel : ModelView where
  vars := [⟨"Y".toList, .t 0, []⟩, ⟨"K".toList, .t 0, []⟩]
  shocks := []
  params := []
  values := []
  equations := [.add [.tv ⟨"Y".toList, .t 0, []⟩, .mul [.num (-1), .tv ⟨"Y".toList, .ss, []⟩]]]
  ssRel := [(⟨"Y".toList, .ss, []⟩, .tv ⟨"K".toList, .ss, []⟩)]
  steady := []

/-- **C103** does not hold as stated for every model: the closed form of a steady state value may refer to another steady
state value; unless the equations mention that one too, nothing defines it. Here `Y[ss]` is used in an equation, the user
gave `Y[ss] = K[ss]` and the block writes `#Y_ss = K_ss;` with no `K_ss`. -/
theorem C103_dangling_violated : ∃ m : ModelView, (modelBlock m).1 = [("Y_ss".toList, [.name "K_ss".toList])] ∧
    (modelBlock m).2 = [[.name "Y".toList, .op .sub, .name "Y_ss".toList]] ∧ "K_ss".toList ∉ declaredNames m :=
  ⟨danglingModel, by decide +kernel, by decide +kernel, by decide⟩

end GE
