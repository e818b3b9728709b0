import Verif.Props.StateSpace
import Verif.Props.ObsEq
/-! # C94, C95: what `configure` accepts, stores, and how measurement errors enter -/

namespace GE

/-- the conditions on the arguments of `configure`, in the words of its docstring -/
structure Acceptable (o : SSObj) (a : CfgArgs) : Prop where
  observed : ∀ v ∈ a.observed, v ∈ o.stateNames ∨ v ∈ dkeys a.obsEqs
  errors : ∀ v ∈ a.measurementError, v ∈ a.observed
  aggregated : ∀ v ∈ dkeys a.agg, v ∈ a.observed
  methods : ∀ p ∈ a.agg, p.2 ∈ ["sum".toList, "mean".toList, "first".toList, "last".toList]
  period : (∃ p ∈ a.agg, p.2 = "sum".toList ∨ p.2 = "mean".toList) → 2 ≤ a.period
  intercept : ∀ v ∈ a.ssObs, v ∈ a.observed ∧ v ∈ o.vars ∧ v ∉ dkeys a.obsEqs
  equations : ∀ v ∈ dkeys a.obsEqs, v ∈ a.observed
  constants : ∀ l, a.constantParams = .names l → ∀ x ∈ l, x ∈ o.inputParams
  solver : a.solver ∈ ["gensys".toList, "cycle_reduction".toList, "scan_cycle_reduction".toList, "backward_direct".toList]
  nonsingular : a.observed.length ≤ a.measurementError.length + o.shocks.length
  parsed : ∀ p ∈ a.obsEqs, p.2 ≠ none

namespace Cfg

theorem bind_ok {ε α β : Type} (x : Except ε α) (f : α → Except ε β) (r : β) : (x >>= f) = .ok r ↔ ∃ y, x = .ok y ∧ f y = .ok r := by
  cases x with
  | error e => simp [bind, Except.bind]
  | ok y => simp [bind, Except.bind]

theorem refuse_ok (bad : List Str) (e : List Str → CfgErr) (u : Unit) : refuse bad e = .ok u ↔ bad = [] := by
  unfold refuse
  split <;> simp [*]

theorem refuseIf_ok (b : Bool) (e : CfgErr) (u : Unit) : refuseIf b e = .ok u ↔ b = false := by
  unfold refuseIf
  cases b <;> simp

theorem mapM_isSome {κ β : Type} (l : List κ) (f : κ → Option β) : (∃ r, l.mapM f = some r) ↔ ∀ k ∈ l, f k ≠ none := by
  induction l with
  | nil => simp
  | cons a l ih =>
    simp only [List.mapM_cons, bind, Option.bind, List.mem_cons, forall_eq_or_imp]
    rw [← ih]
    cases f a with
    | none => simp
    | some b =>
      cases l.mapM f with
      | none => simp
      | some r => simp

theorem aggOfStr_none (s : Str) : aggOfStr s = none ↔ s ∉ ["sum".toList, "mean".toList, "first".toList, "last".toList] := by
  unfold aggOfStr
  simp only [List.mem_cons, List.not_mem_nil, or_false]
  split
  · simp [*]
  split
  · simp [*]
  split
  · simp [*]
  split
  · simp [*]
  · simp only [true_iff]
    tauto

theorem aggOfStr_cum (s : Str) : (∃ m, aggOfStr s = some m ∧ m.cumulates = true) ↔ s = "sum".toList ∨ s = "mean".toList := by
  have d1 : "mean".toList ≠ "sum".toList := by decide
  have d2 : "first".toList ≠ "sum".toList := by decide
  have d3 : "first".toList ≠ "mean".toList := by decide
  have d4 : "last".toList ≠ "sum".toList := by decide
  have d5 : "last".toList ≠ "mean".toList := by decide
  constructor
  · rintro ⟨m, h, hm⟩
    unfold aggOfStr at h
    split at h
    · exact .inl ‹_›
    split at h
    · exact .inr ‹_›
    split at h
    · cases h; simp [Agg.cumulates] at hm
    split at h
    · cases h; simp [Agg.cumulates] at hm
    · simp at h
  · rintro (rfl | rfl)
    · exact ⟨.sum, by simp [aggOfStr], rfl⟩
    · exact ⟨.mean, by unfold aggOfStr; rw [if_neg d1, if_pos rfl], rfl⟩

theorem constants_ok (o : SSObj) (c : ConstArg) : (∃ l, constantsOf o c = .ok l) ↔ ∀ l, c = .names l → ∀ x ∈ l, x ∈ o.inputParams := by
  cases c with
  | none => simp [constantsOf]
  | auto => simp [constantsOf]
  | names l =>
    simp only [constantsOf, bind_ok, refuse_ok, pure, Except.pure, Except.ok.injEq]
    simp [List.filter_eq_nil_iff]

/-- the methods by name -/
def aggs (a : CfgArgs) : List (Str × Agg) := a.agg.filterMap fun p => (aggOfStr p.2).map fun m => (p.1, m)

theorem aggs_any (a : CfgArgs) : (aggs a).any (fun p => p.2.cumulates) = true ↔ ∃ p ∈ a.agg, p.2 = "sum".toList ∨ p.2 = "mean".toList := by
  rw [List.any_eq_true]
  constructor
  · rintro ⟨q, hq, hc⟩
    obtain ⟨p, hp, h⟩ := List.mem_filterMap.1 hq
    cases hm : aggOfStr p.2 with
    | none => rw [hm] at h; simp at h
    | some m =>
      rw [hm] at h
      simp only [Option.map_some, Option.some.injEq] at h
      subst h
      exact ⟨p, hp, (aggOfStr_cum _).1 ⟨m, hm, hc⟩⟩
  · rintro ⟨p, hp, h⟩
    obtain ⟨m, hm, hc⟩ := (aggOfStr_cum _).2 h
    exact ⟨(p.1, m), List.mem_filterMap.2 ⟨p, hp, by rw [hm]; rfl⟩, hc⟩

/-- inversion of `configure` -/
theorem configure_inv (o : SSObj) (a : CfgArgs) (r : Configured) : configure o a = .ok r ↔
    Acceptable o a ∧ ∃ cs eqs, constantsOf o a.constantParams = .ok cs ∧
      a.obsEqs.mapM (fun p => p.2.map fun e => (p.1, e)) = some eqs ∧
      r = ⟨⟨o.vars, a.observed, aggs a, a.period.toNat, eqs, a.ssObs, o.loglin⟩, a.measurementError, cs⟩ := by
  have hmap := mapM_isSome a.obsEqs (fun p => p.2.map fun e => (p.1, e))
  have hco := constants_ok o a.constantParams
  unfold configure
  simp only [bind_ok, refuse_ok, refuseIf_ok]
  rw [show (a.agg.filterMap fun p => (aggOfStr p.2).map fun m => (p.1, m)) = aggs a from rfl]
  constructor
  · rintro ⟨_, h1, _, h2, _, h3, _, h4, _, h5, _, h6, _, h7, _, h8, _, h9, cs, hcs, _, h10, _, h11, h12⟩
    cases hm : a.obsEqs.mapM (fun p => p.2.map fun e => (p.1, e)) with
    | none => rw [hm] at h12; simp at h12
    | some eqs =>
      rw [hm] at h12
      simp only [Except.ok.injEq] at h12
      simp only [List.filter_eq_nil_iff, Bool.and_eq_true, decide_eq_true_eq, not_and, not_not, List.map_eq_nil_iff] at h1 h2 h3 h4 h6 h7 h8 h9
      refine ⟨⟨?_, h2, h3, ?_, ?_, ?_, h8, hco.1 ⟨cs, hcs⟩, ?_, ?_, ?_⟩, cs, eqs, hcs, rfl, h12.symm⟩
      · intro v hv
        by_cases h : v ∈ o.stateNames
        · exact .inl h
        · exact .inr (h1 v hv h)
      · intro p hp
        by_contra hn
        exact h4 p hp (by rw [(aggOfStr_none _).2 hn]; rfl)
      · intro hex
        have := (aggs_any a).2 hex
        simp only [Bool.and_eq_false_iff, this, decide_eq_false_iff_not] at h5
        rcases h5 with h5 | h5
        · simp at h5
        · omega
      · intro v hv
        exact ⟨h6 v hv, h7 v hv, fun hk => h9 v hk hv⟩
      · have : a.solver ∈ validSolvers := by simpa using h10
        exact this
      · have : ¬ a.measurementError.length + o.shocks.length < a.observed.length := by simpa using h11
        omega
      · intro p hp h
        exact hmap.1 ⟨eqs, hm⟩ p hp (by rw [h]; rfl)
  · rintro ⟨h, cs, eqs, hcs, hm, rfl⟩
    refine ⟨(), ?_, (), ?_, (), ?_, (), ?_, (), ?_, (), ?_, (), ?_, (), ?_, (), ?_, cs, hcs, (), ?_, (), ?_, ?_⟩
    · simp only [List.filter_eq_nil_iff, Bool.and_eq_true, decide_eq_true_eq, not_and, not_not]
      intro v hv hn
      exact (h.observed v hv).resolve_left hn
    · simpa [List.filter_eq_nil_iff] using h.errors
    · simpa only [List.filter_eq_nil_iff, decide_eq_true_eq, not_not] using h.aggregated
    · simp only [List.map_eq_nil_iff, List.filter_eq_nil_iff]
      intro p hp hn
      rw [Option.isNone_iff_eq_none, aggOfStr_none] at hn
      exact hn (h.methods p hp)
    · rw [Bool.and_eq_false_iff]
      by_cases hc : (aggs a).any (fun p => p.2.cumulates) = true
      · right
        have := h.period ((aggs_any a).1 hc)
        exact decide_eq_false (by omega)
      · left; simpa using hc
    · simp only [List.filter_eq_nil_iff, decide_eq_true_eq, not_not]
      exact fun v hv => (h.intercept v hv).1
    · simp only [List.filter_eq_nil_iff, decide_eq_true_eq, not_not]
      exact fun v hv => (h.intercept v hv).2.1
    · simpa only [List.filter_eq_nil_iff, decide_eq_true_eq, not_not] using h.equations
    · simp only [List.filter_eq_nil_iff, decide_eq_true_eq]
      exact fun v hv hs => (h.intercept v hs).2.2 hv
    · have : a.solver ∈ validSolvers := h.solver
      simpa using this
    · have := h.nonsingular
      simpa using this
    · rw [hm]

end Cfg

/-- **C95** `configure` succeeds exactly on acceptable arguments -/
theorem C95_accepts (o : SSObj) (a : CfgArgs) : (∃ r, configure o a = .ok r) ↔ Acceptable o a := by
  constructor
  · rintro ⟨r, h⟩
    exact ((Cfg.configure_inv o a r).1 h).1
  · intro h
    obtain ⟨cs, hcs⟩ := (Cfg.constants_ok o a.constantParams).2 h.constants
    obtain ⟨eqs, heqs⟩ := (Cfg.mapM_isSome a.obsEqs (fun p => p.2.map fun e => (p.1, e))).2 (by
      intro p hp
      have := h.parsed p hp
      cases hp2 : p.2 with
      | none => exact absurd hp2 this
      | some e => simp)
    exact ⟨_, (Cfg.configure_inv o a _).2 ⟨h, cs, eqs, hcs, heqs, rfl⟩⟩


namespace Cfg

theorem aggs_keys_sub (l : List (Str × Str)) :
    ((l.filterMap fun p => (aggOfStr p.2).map fun m => (p.1, m)).map Prod.fst).Sublist (l.map Prod.fst) := by
  induction l with
  | nil => simp
  | cons p l ih =>
    cases h : aggOfStr p.2 with
    | none => simp only [List.filterMap_cons, h, Option.map_none, List.map_cons]; exact ih.cons _
    | some m => simp only [List.filterMap_cons, h, Option.map_some, List.map_cons]; exact ih.cons₂ _

theorem aggs_get (l : List (Str × Str)) (hn : (dkeys l).Nodup) (v : Str) :
    dget (l.filterMap fun p => (aggOfStr p.2).map fun m => (p.1, m)) v = (dget l v).bind aggOfStr := by
  induction l with
  | nil => rfl
  | cons p l ih =>
    obtain ⟨w, s⟩ := p
    simp only [dkeys, List.map_cons, List.nodup_cons] at hn
    cases h : aggOfStr s with
    | none =>
      simp only [List.filterMap_cons, h, Option.map_none, dget]
      rw [ih hn.2]
      split
      · rename_i e; subst e
        have : dget l w = none := (dget_eq_none _ _).2 hn.1
        simp [this, h]
      · rfl
    | some m =>
      simp only [List.filterMap_cons, h, Option.map_some, dget]
      split
      · simp [h]
      · exact ih hn.2

theorem eqs_of (l : List (Str × Option ObsEq)) (eqs : List (Str × ObsEq)) (h : l.mapM (fun p => p.2.map fun e => (p.1, e)) = some eqs) :
    l = eqs.map fun p => (p.1, some p.2) := by
  induction l generalizing eqs with
  | nil => simp at h; subst h; rfl
  | cons p l ih =>
    obtain ⟨w, o⟩ := p
    simp only [List.mapM_cons, bind, Option.bind] at h
    cases o with
    | none => simp at h
    | some e =>
      cases h2 : l.mapM (fun p => p.2.map fun e => (p.1, e)) with
      | none => rw [h2] at h; simp at h
      | some r =>
        rw [h2] at h
        simp only [Option.map_some, pure, Option.some.injEq] at h
        subst h
        rw [ih r h2]; rfl

end Cfg

/-- **C95** a successful call stores what was passed: the observed series, the aggregation of each, the period, the equations, the series with
a steady-state intercept, the measurement errors, and the requested constants (or, for `"auto"`, exactly the parameters without a prior) -/
theorem C95_stores (o : SSObj) (a : CfgArgs) (hn : (dkeys a.agg).Nodup) (r : Configured) (h : configure o a = .ok r) :
    r.cfg.vars = o.vars ∧ r.cfg.observed = a.observed ∧ (∀ v, dget r.cfg.agg v = (dget a.agg v).bind aggOfStr) ∧
    (r.cfg.period : Int) = max a.period 0 ∧ a.obsEqs = r.cfg.obsEqs.map (fun p => (p.1, some p.2)) ∧ r.cfg.ssObs = a.ssObs ∧
    r.errorStates = a.measurementError ∧
    (∀ l, a.constantParams = .names l → r.constants = l) ∧ (a.constantParams = .none → r.constants = []) ∧
    (a.constantParams = .auto → ∀ x, x ∈ r.constants ↔ x ∈ o.inputParams ∧ x ∉ o.priorNames) := by
  obtain ⟨ha, cs, eqs, hcs, hm, rfl⟩ := (Cfg.configure_inv o a r).1 h
  refine ⟨rfl, rfl, fun v => Cfg.aggs_get _ hn v, ?_, Cfg.eqs_of _ _ hm, rfl, rfl, ?_, ?_, ?_⟩
  · simp only; omega
  · intro l hl
    rw [hl] at hcs
    simp only [constantsOf, Cfg.bind_ok, Cfg.refuse_ok, pure, Except.pure, Except.ok.injEq] at hcs
    obtain ⟨_, _, e⟩ := hcs
    exact e.symm
  · intro hl
    rw [hl] at hcs
    simp only [constantsOf, Except.ok.injEq] at hcs
    exact hcs.symm
  · intro hl x
    rw [hl] at hcs
    simp only [constantsOf, Except.ok.injEq] at hcs
    rw [← hcs]
    simp

/-- **C95** on an object that has not been configured before, a successful call yields a configuration for which the design matrix, the
aggregation and the observation equations mean what they should (`C92_aggregated`, `C93_equation` apply) -/
theorem C95_well_formed (o : SSObj) (a : CfgArgs) (hv : o.vars.Nodup) (hfresh : o.stateNames = o.vars) (hn : (dkeys a.agg).Nodup)
    (hn' : (dkeys a.obsEqs).Nodup) (hco : ∀ p ∈ a.obsEqs, ∀ eq, p.2 = some eq → ∀ kc ∈ eq.coeffs, kc.1.1 ∈ o.vars ∧ kc.1.2 ≤ 0)
    (r : Configured) (h : configure o a = .ok r) : r.cfg.Ok := by
  obtain ⟨ha, cs, eqs, hcs, hm, rfl⟩ := (Cfg.configure_inv o a r).1 h
  have he := Cfg.eqs_of _ _ hm
  have hk : dkeys a.obsEqs = dkeys eqs := by
    rw [he]; simp [dkeys, Function.comp_def]
  constructor
  · exact hv
  · exact (Cfg.aggs_keys_sub a.agg).nodup hn
  · rw [hk] at hn'; exact hn'
  · intro v hv
    exact ha.aggregated v ((Cfg.aggs_keys_sub a.agg).subset hv)
  · intro v hv
    have := ha.observed v hv
    rw [hfresh, hk] at this
    exact this
  · rintro ⟨p, hp, hc⟩
    have := ha.period ((Cfg.aggs_any a).1 (List.any_eq_true.2 ⟨p, hp, hc⟩))
    simp only; omega
  · intro p hp kc hkc
    have : (p.1, some p.2) ∈ a.obsEqs := by
      rw [he]
      exact List.mem_map_of_mem (f := fun p : Str × ObsEq => (p.1, some p.2)) hp
    exact hco _ this p.2 rfl kc hkc

/-- **C95** configuring again: whatever was configured before, a call that observes variables of the model (or series with an equation) gives
exactly what it gives on a fresh object -/
theorem C95_reconfigure (o : SSObj) (hfresh : o.stateNames = o.vars) (a a' : CfgArgs) (r : Configured) (h : configure o a = .ok r)
    (hobs : ∀ v ∈ a'.observed, v ∈ o.vars ∨ v ∈ dkeys a'.obsEqs) : configure (r.obj o) a' = configure o a' := by
  obtain ⟨ha, cs, eqs, hcs, hm, rfl⟩ := (Cfg.configure_inv o a r).1 h
  have e1 : (a'.observed.filter fun x => decide (x ∉ o.stateNames) && decide (x ∉ dkeys a'.obsEqs)) = [] := by
    rw [List.filter_eq_nil_iff]
    intro v hv
    simp only [Bool.and_eq_true, decide_eq_true_eq, not_and, not_not]
    intro hn
    rw [hfresh] at hn
    exact (hobs v hv).resolve_left hn
  have e2 : (a'.observed.filter fun x => decide (x ∉ (Configured.obj o
      ⟨⟨o.vars, a.observed, Cfg.aggs a, a.period.toNat, eqs, a.ssObs, o.loglin⟩, a.measurementError, cs⟩).stateNames) && decide (x ∉ dkeys a'.obsEqs)) = [] := by
    rw [List.filter_eq_nil_iff]
    intro v hv
    simp only [Bool.and_eq_true, decide_eq_true_eq, not_and, not_not]
    intro hn
    refine (hobs v hv).resolve_left fun hvv => hn ?_
    simp [Configured.obj, SSCfg.stateNames, hvv]
  unfold configure
  rw [e1, e2]
  rfl

namespace Cfg

/-- a model with one variable and one shock -/
def exObj : SSObj := { vars := [['Y']], shocks := [['e']], inputParams := [['a']], priorNames := [], stateNames := [['Y']] }

/-- quarterly observations of a monthly flow -/
def exAgg : CfgArgs := { observed := [['Y']], agg := [(['Y'], "sum".toList)], period := 3 }

/-- observing a hidden state of the first configuration -/
def exAgain : CfgArgs := { observed := ["Y_cumulator_lag1".toList] }

end Cfg

/-- **C95, violated on reconfiguration**: after a configuration with aggregation, `configure` accepts the name of one of its auxiliary states as
an observed series, which a fresh object refuses; the resulting configuration observes a name that is not a variable -/
theorem C95_history_violated : ∃ (o : SSObj) (a a' : CfgArgs) (r r' : Configured), o.stateNames = o.vars ∧ configure o a = .ok r ∧
    configure (r.obj o) a' = .ok r' ∧ ¬ (∃ r'', configure o a' = .ok r'') ∧ ∃ v ∈ r'.cfg.observed, v ∉ o.vars ∧ v ∉ dkeys r'.cfg.obsEqs := by
  refine ⟨Cfg.exObj, Cfg.exAgg, Cfg.exAgain, ⟨⟨[['Y']], [['Y']], [(['Y'], .sum)], 3, [], [], []⟩, [], []⟩,
    ⟨⟨[['Y']], ["Y_cumulator_lag1".toList], [], 4, [], [], []⟩, [], []⟩, rfl, ?_, ?_, ?_, ?_⟩
  · rfl
  · rfl
  · rw [C95_accepts]
    intro h
    have := h.observed "Y_cumulator_lag1".toList (by simp [Cfg.exAgain])
    revert this
    decide
  · exact ⟨"Y_cumulator_lag1".toList, by simp, by decide, by decide⟩

/-- non-vacuity of C95 -/
example : ∃ r, configure Cfg.exObj Cfg.exAgg = .ok r ∧ r.cfg.Ok :=
  ⟨_, rfl, C95_well_formed Cfg.exObj Cfg.exAgg (by decide) rfl (by decide) (by decide) (by simp [Cfg.exAgg]) _ rfl⟩

/-! ## measurement error -/

/-- what a measurement-error covariance should be: the variance of a series' own error on the diagonal, for the series that have one -/
def ownErrors (observed errorStates : List Str) (sigma : Str → ℝ) : NMat := fun i j =>
  if i = j then ((observed[i]?).map fun s => if s ∈ errorStates then sigma s ^ 2 else 0).getD 0 else 0

/-- **C94** the measurement-error covariance is the intended one for all standard deviations exactly when the series with a measurement error are the
first observed ones, in the same order. In particular it is when every series has one and they are listed in the order of `observed_states`. -/
theorem C94_prefix_iff_partial (observed errorStates : List Str) (hn : observed.Nodup) (he : errorStates.Nodup) (hsub : ∀ v ∈ errorStates, v ∈ observed) :
    (∀ sigma, obsCov errorStates sigma = ownErrors observed errorStates sigma) ↔ errorStates <+: observed := by
  have hlen : errorStates.length ≤ observed.length := (List.subperm_of_subset he hsub).length_le
  constructor
  · intro h
    rw [List.prefix_iff_eq_take]
    refine List.ext_getElem (by simp [hlen]) fun i h1 h2 => ?_
    have hio : i < observed.length := by omega
    by_contra hne
    rw [List.getElem_take] at hne
    have := congrFun (congrFun (h fun s => if s = errorStates[i] then 1 else 0) i) i
    simp only [obsCov, ownErrors, if_true] at this
    rw [List.getElem?_eq_getElem h1, List.getElem?_eq_getElem hio] at this
    simp only [Option.map_some, Option.getD_some, if_true] at this
    have hne' : ¬ observed[i] = errorStates[i] := fun e => hne e.symm
    simp [hne'] at this
  · rintro ⟨tl, rfl⟩ sigma
    funext i j
    unfold obsCov ownErrors
    split
    · rename_i hij
      by_cases hi : i < errorStates.length
      · rw [List.getElem?_append_left hi, List.getElem?_eq_getElem hi]
        simp
      · rw [List.getElem?_eq_none (by omega)]
        simp only [Option.map_none, Option.getD_none]
        rw [List.getElem?_append_right (by omega)]
        cases hx : tl[i - errorStates.length]? with
        | none => rfl
        | some v =>
          have : v ∉ errorStates := fun hv => (List.nodup_append.1 hn).2.2 v hv v (List.mem_of_getElem? hx) rfl
          simp [this]
    · rfl

/-- **C94, violated**: with `observed_states=["Y", "C"]` and `measurement_error=["C"]` the variance of the error of `C` is put on `Y` -/
theorem C94_violated : ∃ (o : SSObj) (a : CfgArgs) (r : Configured), configure o a = .ok r ∧ ∀ sigma : Str → ℝ,
    obsCov r.errorStates sigma 0 0 = sigma ['C'] ^ 2 ∧ obsCov r.errorStates sigma 1 1 = 0 ∧ r.cfg.observed = [['Y'], ['C']] ∧ r.errorStates = [['C']] :=
  ⟨{ vars := [['Y'], ['C']], shocks := [['e']], inputParams := [], priorNames := [], stateNames := [['Y'], ['C']] },
    { observed := [['Y'], ['C']], measurementError := [['C']] }, _, rfl, fun sigma => ⟨by simp [obsCov], by simp [obsCov], rfl, rfl⟩⟩

/-- **C94** the covariance never correlates the errors of different series, and its size of non-zero diagonal is that of the error list -/
theorem C94_diagonal (errorStates : List Str) (sigma : Str → ℝ) (i j : ℕ) (h : i ≠ j ∨ errorStates.length ≤ i) : obsCov errorStates sigma i j = 0 := by
  unfold obsCov
  split
  · rename_i e
    rw [List.getElem?_eq_none (by rcases h with h | h <;> first | exact absurd e h | exact h)]
    rfl
  · rfl

end GE
