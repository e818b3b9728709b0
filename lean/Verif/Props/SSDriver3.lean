import Verif.Props.SSDriver2
/-!
# C83-C85: what the success flag means, checking of fixed values, packing
-/

namespace GE

/-- specification: the value of a symbol under a result and the parameters of the call -/
def valueAt (values pd : List (Str × Num)) (s : Sym) : Option Num := (dget values (symName s)).or (dget pd (symName s))

/-- specification: compiled graphs, whenever they give a number at numbers, give the value of the expression -/
def NumEval.Exact (nv : NumEval) : Prop :=
  ∀ (e : SExpr) (env : Sym → Num) (ρ : Sym → ℝ) (x : ℝ), (∀ s ∈ e.syms, env s = some (ρ s)) → nv e env = some x → x = e.eval ρ

/-- specification: the value of a compiled graph depends on its own inputs only -/
def NumEval.Local (nv : NumEval) : Prop :=
  ∀ (e : SExpr) (env env' : Sym → Num), (∀ s ∈ e.syms, env s = env' s) → nv e env = nv e env'

/-- specification: a number of absolute value at most `1e-8` -/
def Num.Small (x : Num) : Prop := ∃ v : ℝ, x = some v ∧ |v| ≤ 1 / 100000000

/-- specification: an equation of the steady-state system: a model equation at the steady state, or a calibrating equation -/
def SSModel.IsEquation (m : SSModel) (e : SExpr) : Prop := e ∈ m.ssEqs ∨ ∃ k, (k, e) ∈ m.calib

namespace Drv

variable {m : SSModel} {nv : NumEval} {close : Str → List Str → List Str} {root minimize : SSSolver} {tol : ℝ} {how : How}

theorem mem_equations (e : SExpr) : e ∈ m.equations ↔ m.IsEquation e := by
  unfold SSModel.equations ssResidual SSModel.IsEquation
  simp

theorem dget_app {ν : Type} (a b : List (Str × ν)) (n : Str) : dget (a ++ b) n = (dget a n).or (dget b n) := by
  induction a with
  | nil => simp [dget]
  | cons p a ih =>
    simp only [List.cons_append, dget]
    split
    · rfl
    · exact ih

theorem kw_ok {a b env : List (Str × Num)} (h : kwMerge a b = .ok env) : env = a ++ b ∧ ∀ k ∈ dkeys a, k ∉ dkeys b := by
  unfold kwMerge at h
  split at h
  · cases h
  · next hn =>
    simp only [Except.ok.injEq] at h
    refine ⟨h.symm, fun k hk hb => hn ?_⟩
    rw [List.any_eq_true]
    exact ⟨k, hk, by simpa using hb⟩

theorem eval_ok {eqs : List SExpr} {env : List (Str × Num)} {res : List Num} (h : evalResid nv eqs env = .ok res) :
    eqs ≠ [] ∧ (∀ e ∈ eqs, ∀ s ∈ e.syms, symName s ∈ dkeys env) ∧ res = eqs.map fun e => nv e fun s => (dget env (symName s)).getD none := by
  unfold evalResid at h
  split at h
  · cases h
  · next hne =>
    split at h
    · next ha =>
      simp only [Except.ok.injEq] at h
      refine ⟨fun h0 => hne (by rw [h0]; rfl), ?_, h.symm⟩
      intro e he s hs
      have := List.all_eq_true.mp (List.all_eq_true.mp ha e he) s hs
      simpa using this
    · cases h

theorem allClose_iff (l : List Num) : allClose l = true ↔ ∀ x ∈ l, Num.Small x := by
  unfold allClose
  rw [List.all_eq_true]
  refine forall₂_congr fun x _ => ?_
  cases x with
  | none => simp [Num.Small]
  | some v => simp [Num.Small]

theorem names_agree (hw : m.WF) {d out : List (Sym × Num)} (hn : (dkeys d).Nodup) (hs : ∀ k ∈ dkeys d, k ∈ m.ssVars)
    (hc : collect d m.ssVars = .ok out) (n : Str) : dget (toNames d) n = dget (toNames out) n := by
  have hinj := List.inj_on_of_nodup_map hw.results
  have hd : (d.map fun p => symName p.1).Nodup := by
    have : d.map (fun p => symName p.1) = (dkeys d).map symName := by simp [dkeys, Function.comp_def]
    rw [this]
    exact List.Nodup.map_on (fun a ha b hb hab => hinj (hs a ha) (hs b hb) hab) hn
  by_cases h : n ∈ m.ssVars.map symName
  · obtain ⟨s, hsv, rfl⟩ := List.mem_map.mp h
    rw [lookup_out hw hc hsv]
    obtain ⟨v, hv⟩ := Option.isSome_iff_exists.mp ((collect_ok hc).2 s hsv)
    rw [hv, dget_toNames hd (mem_of_dget _ _ _ hv)]
    rfl
  · have h1 : dget (toNames out) n = none := by rw [dget_eq_none, keys_out hw hc]; exact h
    rw [h1, dget_eq_none, toNames_fresh hd]
    intro hc'
    apply h
    obtain ⟨p, hp, rfl⟩ := List.mem_map.mp hc'
    obtain ⟨q, hq, rfl⟩ := List.mem_map.mp hp
    exact List.mem_map.mpr ⟨q.1, hs _ (List.mem_map.mpr ⟨q, hq, rfl⟩), rfl⟩

theorem provided_keys (hw : m.WF) {pd : List (Str × Num)} {known : Option (List (Sym × Num))} (hk : m.known nv pd = .ok known)
    {fs : List (Sym × Rat)} (hfs : ∀ k ∈ dkeys fs, ∃ v ∈ m.vars, k = .tv (toSS v)) :
    ∀ k ∈ dkeys (providedValues known fs), k ∈ m.ssVars := by
  intro k hk'
  unfold providedValues at hk'
  rw [mem_dkeys_dupdate] at hk'
  rcases hk' with h | h
  · have h1 := (dget_isSome _ _).mpr h
    rw [(known_values hw hk).2 k, Option.isSome_map] at h1
    obtain ⟨v, hv, rfl⟩ := hw.ofVars k ((dget_isSome _ _).mp h1)
    exact var_mem hv
  · have : k ∈ dkeys fs := by simpa [dkeys, Function.comp_def] using h
    obtain ⟨v, hv, rfl⟩ := hfs k this
    exact var_mem hv

/-- the solver used for a method -/
def solverFor (root minimize : SSSolver) : How → SSSolver
  | .root => root
  | _ => minimize

/-- how the flag of a result that was not analytic came about -/
theorem outcome (hw : m.WF) {pd : List (Str × Num)} {known : Option (List (Sym × Num))} {fs : List (Sym × Rat)} {r : SSRes}
    (hk : m.known nv pd = .ok known) (hfs : ∀ k ∈ dkeys fs, ∃ v ∈ m.vars, k = .tv (toSS v))
    (h : m.solveNumerically nv root minimize tol how pd known fs = .ok r) :
    ∃ eqs env res, evalResid nv eqs env = .ok res ∧ (∀ s, dget env (symName s) = valueAt r.values pd s) ∧
      (∀ k ∈ dkeys r.values, k ∉ dkeys pd) ∧
      ((eqs = m.equations ∧ (m.system fs).2 = [] ∧ r.success = allClose res) ∨
       (eqs = (m.system fs).1 ∧ (m.system fs).2 ≠ [] ∧ ∃ g, r.success =
          (((solverFor root minimize how).solve (m.system fs).1 (m.system fs).2 pd).2 || numericSuccess tol res g))) := by
  rcases numerically_ok h with ⟨hz, h⟩ | ⟨hz, s, hs, h⟩
  · obtain ⟨env, res, out, hkw, hev, hc, hr⟩ := resolved_ok h
    obtain ⟨rfl, hdis⟩ := kw_ok hkw
    have hag := names_agree hw (provided_nodup (known_values hw hk).1 fs) (provided_keys hw hk hfs) hc
    subst hr
    refine ⟨m.equations, _, res, hev, fun s => ?_, fun k hk' => ?_, .inl ⟨rfl, hz, rfl⟩⟩
    · rw [dget_app, hag]; rfl
    · refine hdis k ?_
      rw [← dget_isSome] at hk' ⊢
      rw [hag]; exact hk'
  · obtain ⟨out, env, res, hc, hkw, hev, hr⟩ := postprocess_ok h
    obtain ⟨rfl, hdis⟩ := kw_ok hkw
    have : s = solverFor root minimize how := by
      rcases hs with ⟨rfl, rfl, _⟩ | ⟨rfl, rfl | rfl⟩ <;> rfl
    subst this hr
    refine ⟨(m.system fs).1, _, res, hev, fun s => ?_, hdis, .inr ⟨rfl, hz, _, rfl⟩⟩
    rw [dget_app]; rfl

theorem small_of_close {eqs : List SExpr} {env : List (Str × Num)} {res : List Num} {values pd : List (Str × Num)}
    (hev : evalResid nv eqs env = .ok res) (hd : ∀ s, dget env (symName s) = valueAt values pd s) :
    allClose res = true ↔ ∀ e ∈ eqs, Num.Small (nv e fun s => (valueAt values pd s).getD none) := by
  obtain ⟨_, _, rfl⟩ := eval_ok hev
  rw [allClose_iff, List.forall_mem_map]
  simp only [hd]

theorem mem_fixedSyms (hd : m.DistinctNames) {f : List (Str × Rat)} {fs : List (Sym × Rat)} (h : m.fixedSyms close f = .ok fs)
    (hv : ∀ n ∈ dkeys f, ∃ v ∈ m.vars, removeSuffixSS n = v.base) {v : TSym} (hvm : v ∈ m.vars) {n : Str} (hn : n ∈ dkeys f)
    (hb : removeSuffixSS n = v.base) : Sym.tv (toSS v) ∈ dkeys fs := by
  obtain ⟨_, h2, h3⟩ := fixed_syms hd h hv
  have : v.base ∈ (dkeys fs).map baseOf := by
    rw [h2, ← hb]
    exact List.mem_map.mpr ⟨n, hn, rfl⟩
  obtain ⟨k, hk, hkb⟩ := List.mem_map.mp this
  obtain ⟨v', hv', rfl⟩ := h3 k hk
  have e1 := dget_names m hd (.tv v) (.inl ⟨v, hvm, rfl⟩)
  have e2 := dget_names m hd (.tv v') (.inl ⟨v', hv', rfl⟩)
  have hbb : baseOf (.tv v') = baseOf (.tv v) := hkb
  rw [hbb, e1] at e2
  simp only [Option.some.injEq, Sym.tv.injEq] at e2
  rw [e2]
  exact hk

end Drv

variable (m : SSModel) (nv : NumEval) (close : Str → List Str → List Str) (root minimize : SSSolver) (tol : ℝ) (how : How)

open Drv in
/-- **C82** a model declared linear has the zero steady state, with success, whatever the equations and the fixed values are. -/
theorem C82_linear (hw : m.WF) (hl : m.linear = true) (fixed : Option (List (Str × Rat))) (updates : List (Str × Num)) (r : SSRes)
    (h : m.steadyState nv close root minimize tol how fixed updates = .ok r) :
    r.success = true ∧ r.values = m.vars.map fun v => (v.base ++ ['_', 's', 's'], some 0) := by
  obtain ⟨pd, known, _, _, hc⟩ := steady_ok h
  rcases hc with ⟨_, rfl⟩ | ⟨hf, _⟩ | ⟨hf, _⟩ | ⟨hf, _⟩
  · refine ⟨rfl, ?_⟩
    have hvn : ((m.vars.map fun v => Sym.tv (toSS v)).map symName).Nodup := by
      have := hw.results
      unfold SSModel.ssVars at this
      rw [List.map_append] at this
      exact (List.nodup_append.mp this).1
    unfold SSModel.linearResult
    dsimp only
    rw [toNames_fresh (by simpa [Function.comp_def] using hvn), List.map_map]
    rfl
  · rw [hl] at hf; cases hf
  · rw [hl] at hf; cases hf
  · rw [hl] at hf; cases hf

open Drv in
/-- **C82** (fixed values of a linear model are not even looked at): with any fixed values, known or unknown names, the outcome is the same. -/
theorem C82_linear_fixed_violated (hl : m.linear = true) (f : List (Str × Rat)) (updates : List (Str × Num)) :
    m.steadyState nv close root minimize tol how (some f) updates = m.steadyState nv close root minimize tol how none updates := by
  unfold SSModel.steadyState
  cases m.parameters updates with
  | error e => rfl
  | ok pd =>
    simp only [bind, Except.bind]
    cases m.known nv pd with
    | error e => rfl
    | ok known => simp [hl]

open Drv in
/-- **C82** calibrated parameters: whenever the steady state of a model not declared linear is found numerically (some variable has neither a
known nor a fixed value), or fixed values are given, the result has a value for every calibrated parameter. -/
theorem C82_calibrated_partial (hw : m.WF) (hl : m.linear = false) (fixed : Option (List (Str × Rat))) (updates : List (Str × Num)) (r : SSRes)
    (h : m.steadyState nv close root minimize tol how fixed updates = .ok r)
    (hnum : fixed ≠ none ∨ ∃ v ∈ m.vars, Sym.tv (toSS v) ∉ dkeys m.ssSol) (n : Str) (hn : Sym.par n ∈ dkeys m.calib) :
    n ∈ dkeys r.values := by
  have hmem : n ∈ m.ssVars.map symName :=
    List.mem_map.mpr ⟨.par n, List.mem_append_right _ hn, rfl⟩
  obtain ⟨pd, known, _, hk, hc⟩ := steady_ok h
  rcases hc with ⟨hc, _⟩ | ⟨_, hf, ha⟩ | ⟨_, hf, ha, hs⟩ | ⟨_, f', fs, hf, hv, hfs, _, hs⟩
  · rw [hl] at hc; cases hc
  · exfalso
    rcases hnum with hnum | ⟨v, hv, hnv⟩
    · exact hnum hf
    · obtain ⟨ss, env, res, rfl, hlen, _, _, hr⟩ := analytic_ok ha
      have hkn := known_values hw hk
      simp only [Option.getD_some] at hkn
      have hsub : ∀ k ∈ dkeys ss, k ∈ ((m.vars.map fun v => Sym.tv (toSS v)).filter fun k => k ≠ Sym.tv (toSS v)) := by
        intro k hk'
        have h1 := (dget_isSome _ _).mpr hk'
        rw [hkn.2 k, Option.isSome_map] at h1
        have hkm := (dget_isSome _ _).mp h1
        obtain ⟨w, hw', rfl⟩ := hw.ofVars k hkm
        rw [List.mem_filter]
        refine ⟨List.mem_map.mpr ⟨w, hw', rfl⟩, ?_⟩
        simp only [ne_eq, decide_not, Bool.not_eq_eq_eq_not, Bool.not_true, decide_eq_false_iff_not]
        intro he
        exact hnv (he ▸ hkm)
      have hle := (List.subperm_of_subset hkn.1 hsub).length_le
      have hlt : ((m.vars.map fun v => Sym.tv (toSS v)).filter fun k => k ≠ Sym.tv (toSS v)).length < (m.vars.map fun v => Sym.tv (toSS v)).length := by
        refine lt_of_le_of_ne (List.length_filter_le _ _) fun he => ?_
        have := List.length_filter_eq_length_iff.mp he (Sym.tv (toSS v)) (List.mem_map.mpr ⟨v, hv, rfl⟩)
        simp at this
      rw [List.length_map] at hlt
      have : (dkeys ss).length = ss.length := by simp [dkeys]
      omega
  · rw [(value_of hw hk (by simp [dkeys]) hs).1]; exact hmem
  · obtain ⟨hnd, hbase⟩ := base_of_valid hv
    obtain ⟨h1, h2, h3⟩ := fixed_syms hw.distinct hfs hbase
    rw [(value_of hw hk (fs_nodup h2 hnd) hs).1]; exact hmem

namespace Drv

/-- `x` is known to be 1 in the steady state, `alpha` is calibrated so that `x = alpha` -/
def calModel : SSModel where
  vars := [⟨['x'], .t 0, []⟩]
  params := { free := [], det := [] }
  calib := [(.par ['a'], .sub (.sym (.tv ⟨['x'], .ss, []⟩)) (.sym (.par ['a'])))]
  ssEqs := [.sub (.sym (.tv ⟨['x'], .ss, []⟩)) (.num 1)]
  ssSol := [(.tv ⟨['x'], .ss, []⟩, .num 1)]

end Drv

open Drv in
/-- **C82 violated** (calibrated parameters with a fully known steady state): the known values are of variables only, so that checking
them against a calibrating equation lacks the calibrated parameter, and `steady_state()` raises. With `fixed_values={}` the same
call succeeds. -/
theorem C82_calibrated_violated :
    calModel.steadyState nv close root minimize tol how none [] = .error .missingInput ∧
    ∀ v b, minimize.solve = (fun _ _ _ => (fun _ => some v, b)) →
      ∃ r, calModel.steadyState nv close root minimize tol .minimize (some []) [] = .ok r ∧ dget r.values ['a'] = some (some v) := by
  constructor
  · rfl
  · intro v b hs
    refine ⟨_, rfl, ?_⟩
    rw [hs]
    rfl

namespace Drv

theorem cal_wf : calModel.WF := by
  refine ⟨?_, ?_, ?_, ?_, ?_⟩
  · show List.Nodup _
    decide +kernel
  · intro k hk
    simp only [calModel, dkeys, List.map_cons, List.map_nil, List.mem_singleton] at hk
    exact ⟨_, hk⟩
  · decide +kernel
  · decide +kernel
  · intro k hk
    simp only [calModel, dkeys, List.map_cons, List.map_nil, List.mem_singleton] at hk
    exact ⟨_, List.mem_cons_self .., hk⟩

theorem system_vars {m : SSModel} (hw : m.WF) {fs : List (Sym × Rat)} (hfs : ∀ k ∈ dkeys fs, ∃ v ∈ m.vars, k = .tv (toSS v)) :
    (m.system fs).2 = m.ssVars.filter fun s => s ∉ dkeys m.ssSol ∧ s ∉ dkeys fs := by
  unfold SSModel.system
  dsimp only
  refine List.filter_congr fun s hs => ?_
  have hinj := List.inj_on_of_nodup_map hw.results
  rw [decide_eq_decide, ← not_or, not_iff_not]
  rw [List.mem_map]
  constructor
  · rintro ⟨k, hk, hks⟩
    rw [mem_dkeys_dupdate] at hk
    have hd : dkeys (fs.map fun p => (p.1, SExpr.num p.2)) = dkeys fs := by simp [dkeys, Function.comp_def]
    rw [hd] at hk
    rcases hk with hk | hk
    · obtain ⟨v, hv, rfl⟩ := hw.ofVars k hk
      have := hinj (var_mem hv) hs hks
      exact .inl (this ▸ hk)
    · obtain ⟨v, hv, rfl⟩ := hfs k hk
      have := hinj (var_mem hv) hs hks
      exact .inr (this ▸ hk)
  · intro h
    refine ⟨s, ?_, ?_⟩
    · rw [mem_dkeys_dupdate]
      exact h.imp id fun h => by simpa [dkeys, Function.comp_def] using h
    · rcases h with h | h
      · obtain ⟨v, _, rfl⟩ := hw.ofVars s h; rfl
      · obtain ⟨v, _, rfl⟩ := hfs s h; rfl

theorem dget_optimum {s : SSSolver} {eqs : List SExpr} {l : List Sym} {pd : List (Str × Num)} (hn : l.Nodup) {i : Nat} {x : Sym}
    (hi : l[i]? = some x) : dget (dupdate [] (optimumOf s eqs l pd)) x = some ((s.solve eqs l pd).1 i) := by
  have hk : dkeys (optimumOf s eqs l pd) = l := by
    unfold optimumOf dkeys
    rw [List.map_map]
    exact List.zipIdx_map_fst ..
  rw [dupdate_fresh [] _ (by simpa [hk] using hn)]
  simp only [List.nil_append]
  refine dget_of_mem _ (by rw [hk]; exact hn) _ _ ?_
  unfold optimumOf
  refine List.mem_map.mpr ⟨(x, i), ?_, rfl⟩
  exact List.mem_zipIdx_iff_getElem?.mpr hi

end Drv

/-- specification: the variables and calibrated parameters left to the solver: those with neither a known nor a fixed value -/
def SSModel.Unknown (m : SSModel) (fs : List (Sym × Rat)) (s : Sym) : Prop := s ∈ m.ssVars ∧ s ∉ dkeys m.ssSol ∧ s ∉ dkeys fs

open Drv in
/-- the cases of a result of a model not declared linear, without the analytic one -/
theorem Drv.numeric_case {m : SSModel} {nv : NumEval} {close : Str → List Str → List Str} {root minimize : SSSolver} {tol : ℝ} {how : How}
    (hw : m.WF) (hl : m.linear = false) {fixed : Option (List (Str × Rat))} {updates : List (Str × Num)} {r : SSRes}
    (h : m.steadyState nv close root minimize tol how fixed updates = .ok r) :
    ∃ pd known, m.parameters updates = .ok pd ∧ m.known nv pd = .ok known ∧
      ((fixed = none ∧ m.tryAnalytic nv pd known = .ok (some r) ∧ ∀ v ∈ m.vars, Sym.tv (toSS v) ∈ dkeys m.ssSol) ∨
       ∃ fs, m.fixedSyms close (fixed.getD []) = .ok fs ∧ (dkeys fs).Nodup ∧ (∀ k ∈ dkeys fs, ∃ v ∈ m.vars, k = .tv (toSS v)) ∧
        (∀ n ∈ dkeys (fixed.getD []), ∃ v ∈ m.vars, removeSuffixSS n = v.base) ∧
        (fixed ≠ none → m.validateEquations nv fs pd = .ok ()) ∧ (fixed = none → m.tryAnalytic nv pd known = .ok none) ∧
        m.solveNumerically nv root minimize tol how pd known fs = .ok r) := by
  obtain ⟨pd, known, hp, hk, hc⟩ := steady_ok h
  refine ⟨pd, known, hp, hk, ?_⟩
  rcases hc with ⟨hc, _⟩ | ⟨_, hf, ha⟩ | ⟨_, hf, ha, hs⟩ | ⟨_, f', fs, hf, hv, hfs, hve, hs⟩
  · rw [hl] at hc; cases hc
  · refine .inl ⟨hf, ha, fun v hv => ?_⟩
    by_contra hnv
    obtain ⟨ss, env, res, rfl, hlen, _, _, hr⟩ := analytic_ok ha
    have hkn := known_values hw hk
    simp only [Option.getD_some] at hkn
    have hsub : ∀ k ∈ dkeys ss, k ∈ ((m.vars.map fun v => Sym.tv (toSS v)).filter fun k => k ≠ Sym.tv (toSS v)) := by
      intro k hk'
      have h1 := (dget_isSome _ _).mpr hk'
      rw [hkn.2 k, Option.isSome_map] at h1
      have hkm := (dget_isSome _ _).mp h1
      obtain ⟨w, hw', rfl⟩ := hw.ofVars k hkm
      rw [List.mem_filter]
      refine ⟨List.mem_map.mpr ⟨w, hw', rfl⟩, ?_⟩
      simp only [ne_eq, decide_not, Bool.not_eq_eq_eq_not, Bool.not_true, decide_eq_false_iff_not]
      intro he
      exact hnv (he ▸ hkm)
    have hle := (List.subperm_of_subset hkn.1 hsub).length_le
    have hlt : ((m.vars.map fun v => Sym.tv (toSS v)).filter fun k => k ≠ Sym.tv (toSS v)).length < (m.vars.map fun v => Sym.tv (toSS v)).length := by
      refine lt_of_le_of_ne (List.length_filter_le _ _) fun he => ?_
      have := List.length_filter_eq_length_iff.mp he (Sym.tv (toSS v)) (List.mem_map.mpr ⟨v, hv, rfl⟩)
      simp at this
    rw [List.length_map] at hlt
    have : (dkeys ss).length = ss.length := by simp [dkeys]
    omega
  · subst hf
    exact .inr ⟨[], rfl, by simp [dkeys], by simp [dkeys], by simp [dkeys], by simp, fun _ => ha, hs⟩
  · subst hf
    obtain ⟨hnd, hbase⟩ := base_of_valid hv
    obtain ⟨h1, h2, h3⟩ := fixed_syms hw.distinct hfs hbase
    exact .inr ⟨fs, hfs, fs_nodup h2 hnd, h3, hbase, fun _ => hve, by simp, hs⟩

open Drv in
/-- **C82** the other variables (and the calibrated parameters) get the value the solver found for them: the unknowns are handed to the solver
in some order, without repetition, together with the reduced system (C72), and unknown number `i` is reported with entry `i` of the
solution. `how="root"` is refused unless the reduced system is square. -/
theorem C82_solved (hw : m.WF) (hl : m.linear = false) (fixed : Option (List (Str × Rat))) (updates : List (Str × Num)) (r : SSRes)
    (h : m.steadyState nv close root minimize tol how fixed updates = .ok r)
    (hnum : fixed ≠ none ∨ ∃ v ∈ m.vars, Sym.tv (toSS v) ∉ dkeys m.ssSol) :
    ∃ pd fs unknowns, m.parameters updates = .ok pd ∧ m.fixedSyms close (fixed.getD []) = .ok fs ∧ unknowns.Nodup ∧
      (∀ s, s ∈ unknowns ↔ m.Unknown fs s) ∧ (unknowns ≠ [] → how ≠ .other ∧ (how = .root → (m.system fs).1.length = unknowns.length)) ∧
      ∀ (i : Nat) (s : Sym), unknowns[i]? = some s →
        dget r.values (symName s) = some (((solverFor root minimize how).solve (m.system fs).1 unknowns pd).1 i) := by
  obtain ⟨pd, known, hp, hk, hc⟩ := numeric_case hw hl h
  rcases hc with ⟨hf, ha, hall⟩ | ⟨fs, hfs, hfn, hfv, _, _, _, hs⟩
  · exfalso
    rcases hnum with hnum | ⟨v, hv, hnv⟩
    · exact hnum hf
    · exact hnv (hall v hv)
  · have hsv := system_vars hw hfv
    have hnd : ((m.system fs).2).Nodup := by rw [hsv]; exact (ssVars_nodup hw).filter _
    refine ⟨pd, fs, (m.system fs).2, hp, hfs, hnd, ?_, ?_, ?_⟩
    · intro s
      rw [hsv, List.mem_filter]
      simp [SSModel.Unknown]
    · intro hne
      rcases numerically_ok hs with ⟨hz, _⟩ | ⟨_, s, hs', _⟩
      · exact absurd hz hne
      · rcases hs' with ⟨_, rfl, hlen⟩ | ⟨_, rfl | rfl⟩
        · exact ⟨by simp, fun _ => hlen⟩
        · exact ⟨by simp, by simp⟩
        · exact ⟨by simp, by simp⟩
    · intro i s hi
      have hmem : s ∈ (m.system fs).2 := List.mem_of_getElem? hi
      rcases numerically_ok hs with ⟨hz, _⟩ | ⟨_, sv, hs', hpp⟩
      · rw [hz] at hmem; cases hmem
      · have hsol : sv = solverFor root minimize how := by
          rcases hs' with ⟨rfl, rfl, _⟩ | ⟨rfl, rfl | rfl⟩ <;> rfl
        subst hsol
        obtain ⟨out, env, res, hc, _, _, rfl⟩ := postprocess_ok hpp
        have hm2 : s ∈ m.ssVars ∧ s ∉ dkeys m.ssSol ∧ s ∉ dkeys fs := by
          rw [hsv, List.mem_filter] at hmem
          simpa using hmem
        dsimp only
        rw [lookup_out hw hc hm2.1, prov_of_dupdate (provided_nodup (known_values hw hk).1 fs), dget_fixed hfn,
          (dget_eq_none _ _).mpr hm2.2.2, (known_values hw hk).2 s, (dget_eq_none _ _).mpr hm2.2.1, dget_optimum hnd hi]
        rfl

/-! ## C83: the success flag -/

namespace Drv

theorem toNames_ss (hw : m.WF) {d : List (Sym × Num)} (hn : (dkeys d).Nodup) (hs : ∀ k ∈ dkeys d, k ∈ m.ssVars) :
    (d.map fun p => symName p.1).Nodup := by
  have hinj := List.inj_on_of_nodup_map hw.results
  have : d.map (fun p => symName p.1) = (dkeys d).map symName := by simp [dkeys, Function.comp_def]
  rw [this]
  exact List.Nodup.map_on (fun a ha b hb hab => hinj (hs a ha) (hs b hb) hab) hn

/-- the flag of an analytic result, and the values it was computed with -/
theorem analytic_outcome {m : SSModel} {nv : NumEval} {pd : List (Str × Num)} {known : Option (List (Sym × Num))} {r : SSRes}
    (ha : m.tryAnalytic nv pd known = .ok (some r)) :
    ∃ env res, evalResid nv m.equations env = .ok res ∧ (∀ s, dget env (symName s) = valueAt r.values pd s) ∧
      (∀ k ∈ dkeys r.values, k ∉ dkeys pd) ∧ r.success = allClose res := by
  obtain ⟨ss, env, res, _, _, hkw, hev, rfl⟩ := analytic_ok ha
  obtain ⟨rfl, hdis⟩ := kw_ok hkw
  exact ⟨_, res, hev, fun s => by rw [dget_app]; rfl, hdis, rfl⟩

theorem known_ok' {m : SSModel} {nv : NumEval} {pd : List (Str × Num)} {ss : List (Sym × Num)} (h : m.known nv pd = .ok (some ss)) :
    ∃ out, knownSS m.ssSol (m.vars.map Sym.tv) = some out ∧ ss = out.map (fun p => (p.1, nv p.2 fun s => (dget pd (symName s)).getD none)) ∧
      ∀ p ∈ out, ∀ s ∈ p.2.syms, ∃ n, s = .par n ∧ n ∈ dkeys pd := by
  unfold SSModel.known at h
  cases hk : knownSS m.ssSol (m.vars.map Sym.tv) with
  | none => rw [hk] at h; simp at h
  | some out =>
    rw [hk] at h
    dsimp only at h
    split at h
    · next ha =>
      simp only [Except.ok.injEq, Option.some.injEq] at h
      refine ⟨out, rfl, h.symm, fun p hp s hs => ?_⟩
      have := List.all_eq_true.mp (List.all_eq_true.mp ha p hp) s hs
      cases s with
      | tv v => simp at this
      | par n => exact ⟨n, rfl, by simpa using this⟩
    · cases h

theorem numeric_small {tol : ℝ} {res g : List Num} (h : numericSuccess tol res g = true) : ∀ x ∈ res, ∃ v, x = some v ∧ |v| < tol := by
  unfold numericSuccess at h
  cases hr : res.mapM id with
  | none => rw [hr] at h; simp at h
  | some r =>
    cases hg : g.mapM id with
    | none => rw [hr, hg] at h; simp at h
    | some gg =>
      rw [hr, hg] at h
      simp only [Bool.and_eq_true, decide_eq_true_eq] at h
      have hmax := h.1.1.2
      clear h hg
      have hfor : List.Forall₂ (fun x v => x = some v) res r := by
        clear hmax
        induction res generalizing r with
        | nil =>
          simp only [List.mapM_nil, Option.pure_def, Option.some.injEq] at hr
          subst hr
          exact .nil
        | cons a res ih =>
          rw [List.mapM_cons] at hr
          cases a with
          | none => simp at hr
          | some v =>
            simp only [id_eq, Option.bind_eq_bind, Option.bind_some] at hr
            cases hm : res.mapM id with
            | none => rw [hm] at hr; simp at hr
            | some r' =>
              rw [hm] at hr
              simp only [Option.bind_some, Option.pure_def, Option.some.injEq] at hr
              subst hr
              exact .cons rfl (ih r' hm)
      have hmem : ∀ v ∈ r, |v| < tol := by
        clear hfor hr
        induction r with
        | nil => simp
        | cons a r ih =>
          simp only [List.map_cons, List.foldr_cons, max_lt_iff] at hmax
          intro v hv
          rcases List.mem_cons.mp hv with rfl | hv
          · exact hmax.1
          · exact ih hmax.2 v hv
      clear hr hmax
      induction hfor with
      | nil => simp
      | cons hab _ ih =>
        intro x hx
        rcases List.mem_cons.mp hx with rfl | hx
        · exact ⟨_, hab, hmem _ (by simp)⟩
        · exact ih (fun v hv => hmem v (by simp [hv])) x hx

theorem eval_subs1 (ρ : Sym → ℝ) (k : Sym) (v : SExpr) (h : v.eval ρ = ρ k) (e : SExpr) : (e.subs1 k v).eval ρ = e.eval ρ := by
  unfold SExpr.subs1
  refine eval_replace _ _ _ (fun s => ?_) e
  split
  · next hs => rw [hs, h]
  · rfl

theorem eval_graphReplace (ρ : Sym → ℝ) (d : List (Sym × SExpr)) (h : ∀ p ∈ d, p.2.eval ρ = ρ p.1) (e : SExpr) :
    (e.graphReplace d).eval ρ = e.eval ρ := by
  refine eval_replace _ _ _ (fun s => ?_) e
  cases hd : dget d s with
  | none => rfl
  | some v => exact h (s, v) (mem_of_dget _ _ _ hd)

end Drv

open Drv in
/-- **C83** when every variable has a known or a fixed value, the flag says exactly that every equation, the calibrating ones included, has a
residual of at most `1e-8` at the reported values (and is not NaN). -/
theorem C83_known (hw : m.WF) (hl : m.linear = false) (fixed : Option (List (Str × Rat))) (updates : List (Str × Num)) (r : SSRes)
    (h : m.steadyState nv close root minimize tol how fixed updates = .ok r) (hc : m.calib = [] ∨ fixed = none ∧ m.vars ≠ [])
    (hall : ∀ v ∈ m.vars, Sym.tv (toSS v) ∈ dkeys m.ssSol ∨ ∃ f, fixed = some f ∧ ∃ n ∈ dkeys f, removeSuffixSS n = v.base) :
    ∃ pd, m.parameters updates = .ok pd ∧
      (r.success = true ↔ ∀ e, m.IsEquation e → Num.Small (nv e fun s => (valueAt r.values pd s).getD none)) := by
  obtain ⟨pd, known, hp, hk, hcase⟩ := numeric_case hw hl h
  refine ⟨pd, hp, ?_⟩
  have fin : ∀ env res, evalResid nv m.equations env = .ok res → (∀ s, dget env (symName s) = valueAt r.values pd s) →
      r.success = allClose res →
      (r.success = true ↔ ∀ e, m.IsEquation e → Num.Small (nv e fun s => (valueAt r.values pd s).getD none)) := by
    intro env res hev hd hs
    rw [hs, small_of_close hev hd]
    exact forall_congr' fun e => by rw [mem_equations]
  rcases hcase with ⟨hf, ha, _⟩ | ⟨fs, hfs, hfn, hfv, hbase, _, hna, hs⟩
  · obtain ⟨env, res, hev, hd, _, hsu⟩ := analytic_outcome ha
    exact fin env res hev hd hsu
  · by_cases hcal : m.calib = []
    · have hz : (m.system fs).2 = [] := by
        rw [system_vars hw hfv, List.filter_eq_nil_iff]
        intro s hs
        unfold SSModel.ssVars at hs
        rw [hcal] at hs
        simp only [dkeys, List.map_nil, List.append_nil, List.mem_map] at hs
        obtain ⟨v, hv, rfl⟩ := hs
        simp only [decide_eq_true_eq, not_and, not_not]
        intro hns
        rcases hall v hv with h1 | ⟨f, rfl, n, hn, hb⟩
        · exact absurd h1 hns
        · exact mem_fixedSyms hw.distinct hfs hbase hv hn hb
      obtain ⟨eqs, env, res, hev, hd, _, ho⟩ := outcome hw hk hfv hs
      rcases ho with ⟨rfl, _, hsu⟩ | ⟨_, hne, _⟩
      · exact fin env res hev hd hsu
      · exact absurd hz hne
    · exfalso
      have hf : fixed = none ∧ m.vars ≠ [] := by
        rcases hc with hc | hc
        · exact absurd hc hcal
        · exact hc
      have ha := hna hf.1
      have hall' : ∀ v ∈ m.vars, Sym.tv (toSS v) ∈ dkeys m.ssSol := by
        intro v hv
        rcases hall v hv with h1 | ⟨f, h2, _⟩
        · exact h1
        · rw [hf.1] at h2; cases h2
      have hne : m.ssSol ≠ [] := by
        intro h0
        obtain ⟨v, hv⟩ := List.exists_mem_of_ne_nil _ hf.2
        have := hall' v hv
        rw [h0] at this
        simp [dkeys] at this
      obtain ⟨out, ho, hkeys, _⟩ := C73_known m.ssSol (m.vars.map Sym.tv) hne (vars_ss_nodup hw)
      have hlen : out.length = m.vars.length := by
        have : (dkeys out).length = m.vars.length := by
          rw [hkeys, List.length_filter_eq_length_iff.mpr ?_]
          · simp
          · intro k hk'
            simp only [List.map_map, List.mem_map, Function.comp] at hk'
            obtain ⟨v, hv, rfl⟩ := hk'
            exact decide_eq_true (hall' v hv)
        simpa [dkeys] using this
      cases known with
      | none =>
        unfold SSModel.known at hk
        rw [ho] at hk
        dsimp only at hk
        split at hk <;> simp at hk
      | some ss =>
        obtain ⟨out', ho', hss⟩ := known_ok hk
        rw [ho, Option.some.injEq] at ho'
        subst ho'
        have hl2 : ss.length = m.vars.length := by rw [hss, List.length_map, hlen]
        unfold SSModel.tryAnalytic at ha
        simp only [hl2, ne_eq, not_true_eq_false, if_false, bind, Except.bind] at ha
        cases h1 : kwMerge (toNames ss) pd with
        | error e => rw [h1] at ha; cases ha
        | ok env =>
          rw [h1] at ha
          dsimp only at ha
          cases h2 : evalResid nv m.equations env with
          | error e => rw [h2] at ha; cases ha
          | ok res => rw [h2] at ha; simp [pure, Except.pure] at ha

open Drv in
/-- **C83** what a reported success means, for a model not declared linear whose reported values and parameters are numbers (`ρ`), in exact
arithmetic: either every equation holds up to `1e-8`; or the optimizer said so; or every equation which, with the known and fixed
values put in, still has an unknown holds up to the tolerance. Missing (see the violations): equations without unknowns are not checked,
and the optimizer's own verdict is not checked at all. -/
theorem C83_success_partial (hw : m.WF) (hl : m.linear = false) (hx : nv.Exact) (fixed : Option (List (Str × Rat)))
    (updates : List (Str × Num)) (r : SSRes) (h : m.steadyState nv close root minimize tol how fixed updates = .ok r) :
    ∃ pd fs, m.parameters updates = .ok pd ∧ m.fixedSyms close (fixed.getD []) = .ok fs ∧
      ∀ ρ : Sym → ℝ, (∀ s x, valueAt r.values pd s = some x → x = some (ρ s)) → r.success = true →
        (∀ e, m.IsEquation e → |e.eval ρ| ≤ 1 / 100000000) ∨
        ((solverFor root minimize how).solve (m.system fs).1 (m.system fs).2 pd).2 = true ∨
        ∀ e, m.IsEquation e →
          StillUnknown (knownOf (dupdate m.ssSol (fs.map fun p => (p.1, SExpr.num p.2))) m.ssVars) m.ssVars e → |e.eval ρ| < tol := by
  obtain ⟨pd, known, hp, hk, hcase⟩ := numeric_case hw hl h
  have close_case : ∀ env res, evalResid nv m.equations env = .ok res → (∀ s, dget env (symName s) = valueAt r.values pd s) →
      r.success = allClose res → ∀ ρ : Sym → ℝ, (∀ s x, valueAt r.values pd s = some x → x = some (ρ s)) → r.success = true →
      ∀ e, m.IsEquation e → |e.eval ρ| ≤ 1 / 100000000 := by
    intro env res hev hd hsu ρ hρ hsuc e he
    rw [hsu, small_of_close hev hd] at hsuc
    obtain ⟨v, hv, hle⟩ := hsuc e ((mem_equations e).mpr he)
    obtain ⟨_, hin, _⟩ := eval_ok hev
    have := hx e _ ρ v (fun s hs => ?_) hv
    · rw [← this]; exact hle
    · have h1 := hin e ((mem_equations e).mpr he) s hs
      rw [← dget_isSome, hd] at h1
      obtain ⟨x, hx'⟩ := Option.isSome_iff_exists.mp h1
      rw [hx', hρ s x hx']; rfl
  rcases hcase with ⟨hf, ha, _⟩ | ⟨fs, hfs, hfn, hfv, hbase, _, hna, hs⟩
  · obtain ⟨env, res, hev, hd, _, hsu⟩ := analytic_outcome ha
    refine ⟨pd, [], hp, by subst hf; rfl, fun ρ hρ hsuc => .inl (close_case env res hev hd hsu ρ hρ hsuc)⟩
  · refine ⟨pd, fs, hp, hfs, fun ρ hρ hsuc => ?_⟩
    obtain ⟨eqs, env, res, hev, hd, hdis, ho⟩ := outcome hw hk hfv hs
    rcases ho with ⟨rfl, _, hsu⟩ | ⟨rfl, hne, g, hsu⟩
    · exact .inl (close_case env res hev hd hsu ρ hρ hsuc)
    · rw [hsu, Bool.or_eq_true] at hsuc
      rcases hsuc with hsuc | hsuc
      · exact .inr (.inl hsuc)
      · refine .inr (.inr fun e he hu => ?_)
        have hsm := numeric_small hsuc
        obtain ⟨_, hin, hres⟩ := eval_ok hev
        set merged := dupdate m.ssSol (fs.map fun p => (p.1, SExpr.num p.2)) with hmerged
        have hsysV : (ssVariables m.vars).map Sym.tv ++ (dkeys m.calib).map safeToSS = m.ssVars := by
          unfold SSModel.ssVars ssVariables
          rw [List.map_map]
          congr 1
          have : ∀ l : List Sym, (∀ k ∈ l, ∃ n, k = .par n) → l.map safeToSS = l := by
            intro l hl
            refine List.map_congr_left (g := id) (fun k hk => ?_) |>.trans (List.map_id _)
            obtain ⟨n, rfl⟩ := hl k hk; rfl
          exact this _ hw.calibrated
        have heqs : m.equations = m.ssEqs ++ m.calib.map Prod.snd := by simp [SSModel.equations, ssResidual]
        have hmk : ∀ k ∈ dkeys merged, ∃ v ∈ m.vars, k = .tv (toSS v) := by
          intro k hk'
          rw [hmerged, mem_dkeys_dupdate] at hk'
          rcases hk' with hk' | hk'
          · exact hw.ofVars k hk'
          · exact hfv k (by simpa [dkeys, Function.comp_def] using hk')
        have hmn : (dkeys merged).Nodup := dupdate_nodup _ _ hw.known
        have hko : knownOf merged m.ssVars = merged := by
          rw [C72_known merged m.ssVars hmn (fun k hk' => by obtain ⟨v, _, rfl⟩ := hmk k hk'; rfl), List.filter_eq_self]
          intro p hp'
          obtain ⟨v, hv, hpk⟩ := hmk p.1 (List.mem_map.mpr ⟨p, hp', rfl⟩)
          rw [hpk]
          simpa using var_mem hv
        -- the reduced equation
        have hmem : (e.graphReplace (knownOf merged m.ssVars)) ∈ (m.system fs).1 := by
          show _ ∈ ssResidual m.ssEqs merged m.vars m.calib
          unfold ssResidual
          rw [← heqs, hsysV]
          split
          · next hemp =>
            have : merged = [] := List.isEmpty_iff.mp hemp
            rw [this]
            have h0 : e.graphReplace (knownOf [] m.ssVars) = e := replace_id e
            rw [h0]; exact (mem_equations e).mpr he
          · next hemp =>
            have hne' : knownOf merged m.ssVars ≠ [] := by
              rw [hko]; intro h0; exact hemp (by rw [h0]; rfl)
            exact (SSt.filter_mem m.equations merged m.ssVars hne' _).mpr ⟨e, (mem_equations e).mpr he, hu, rfl⟩
        obtain ⟨v, hv, hlt⟩ := hsm _ (by rw [hres]; exact List.mem_map.mpr ⟨_, hmem, rfl⟩)
        have hval := hx _ _ ρ v (fun s hs' => by
          have h1 := hin _ hmem s hs'
          rw [← dget_isSome, hd] at h1
          obtain ⟨x, hx'⟩ := Option.isSome_iff_exists.mp h1
          rw [hd, hx', hρ s x hx']; rfl) hv
        have hmeets : ∀ p ∈ merged, p.2.eval ρ = ρ p.1 := by
          intro p hp'
          obtain ⟨w, hwv, hpk⟩ := hmk p.1 (List.mem_map.mpr ⟨p, hp', rfl⟩)
          have hg : dget merged p.1 = some p.2 := dget_of_mem _ hmn _ _ hp'
          have hmem' : p.1 ∈ m.ssVars := by rw [hpk]; exact var_mem hwv
          have hval2 := (value_of hw hk hfn hs).2 p.1 hmem'
          rw [hmerged, dget_dupdate, Cont2.dget_perm _ (by simpa [dkeys, Function.comp_def] using hfn)] at hg
          cases hfq : dget fs p.1 with
          | some q =>
            have h2 : dget (fs.map fun p => (p.1, SExpr.num p.2)) p.1 = some (.num q) :=
              dget_of_mem _ (by simpa [dkeys, Function.comp_def] using hfn) _ _ (List.mem_map.mpr ⟨_, mem_of_dget _ _ _ hfq, rfl⟩)
            rw [h2] at hg
            simp only [Option.some_or, Option.some.injEq] at hg
            rw [← hg]
            have h3 := hval2.1 q hfq
            have h4 := hρ p.1 (some (q : ℝ)) (by unfold valueAt; rw [h3]; rfl)
            simpa [SExpr.eval] using h4
          | none =>
            have hnf : p.1 ∉ dkeys fs := (dget_eq_none _ _).mp hfq
            have h2 : dget (fs.map fun p => (p.1, SExpr.num p.2)) p.1 = none := by
              rw [dget_eq_none]; simpa [dkeys, Function.comp_def] using hnf
            rw [h2, Option.none_or] at hg
            have h3 := hval2.2 p.2 hnf hg
            have h4 := hρ p.1 _ (by unfold valueAt; rw [h3]; rfl)
            refine (hx p.2 _ ρ (ρ p.1) (fun s hs' => ?_) h4).symm
            -- the formulas mention parameters only
            cases hkn : known with
            | none =>
              exfalso
              have := (known_values hw hk).2 p.1
              rw [hkn, hg] at this
              simp [dget] at this
            | some ss =>
              rw [hkn] at hk
              obtain ⟨out, ho, _, hpar⟩ := known_ok' hk
              have hout : (p.1, p.2) ∈ out := by
                have hne0 : m.ssSol ≠ [] := by intro h0; rw [h0] at hg; simp [dget] at hg
                obtain ⟨out', ho', hkeys', hv'⟩ := C73_known m.ssSol (m.vars.map Sym.tv) hne0 (vars_ss_nodup hw)
                rw [ho, Option.some.injEq] at ho'
                subst ho'
                have hkin : p.1 ∈ dkeys out := by
                  rw [hkeys', List.mem_filter]
                  refine ⟨?_, by simpa [← dget_isSome] using (show (dget m.ssSol p.1).isSome by rw [hg]; rfl)⟩
                  rw [hpk]
                  exact List.mem_map.mpr ⟨.tv w, List.mem_map.mpr ⟨w, hwv, rfl⟩, rfl⟩
                obtain ⟨q, hq, hqk⟩ := List.mem_map.mp hkin
                have := hv' q hq
                rw [hqk, hg, Option.some.injEq] at this
                rw [← hqk, this]
                exact hq
              obtain ⟨n, rfl, hn⟩ := hpar _ hout s hs'
              obtain ⟨x, hx'⟩ := Option.isSome_iff_exists.mp ((dget_isSome pd n).mpr hn)
              have hnr : dget r.values n = none := by
                rw [dget_eq_none]; exact fun hc => hdis n hc hn
              have := hρ (.par n) x (by unfold valueAt; rw [show symName (.par n) = n from rfl, hnr, hx']; rfl)
              rw [show symName (.par n) = n from rfl, hx', this]; rfl
        rw [← eval_graphReplace ρ (knownOf merged m.ssVars) (fun p hp' => hmeets p (by rwa [hko] at hp')) e, ← hval]
        exact hlt

namespace Drv

/-- `x = 2`, nothing known -/
def oneEq : SSModel where
  vars := [⟨['x'], .t 0, []⟩]
  params := { free := [], det := [] }
  ssEqs := [.sub (.sym (.tv ⟨['x'], .ss, []⟩)) (.num 2)]

/-- `x = 2` and `y = x`, with `x = 1` said to be known -/
def badKnown : SSModel where
  vars := [⟨['x'], .t 0, []⟩, ⟨['y'], .t 0, []⟩]
  params := { free := [], det := [] }
  ssEqs := [.sub (.sym (.tv ⟨['x'], .ss, []⟩)) (.num 2), .sub (.sym (.tv ⟨['y'], .ss, []⟩)) (.sym (.tv ⟨['x'], .ss, []⟩))]
  ssSol := [(.tv ⟨['x'], .ss, []⟩, .num 1)]

/-- a solver which always returns `v`, and says that it succeeded -/
def constSolver (v : ℝ) : SSSolver := ⟨fun _ _ _ => (fun _ => some v, true), fun _ _ _ => []⟩

end Drv

open Drv in
/-- **C83 violated** (1): the optimizer's verdict is enough. With an optimizer that stops at `x = 0` and reports success, the steady state of
`x = 2` is reported as `x = 0` with success. -/
theorem C83_optimizer_violated :
    ∃ r, oneEq.steadyState nv close (constSolver 0) (constSolver 0) tol .minimize none [] = .ok r ∧ r.success = true ∧
      dget r.values ['x', '_', 's', 's'] = some (some 0) := ⟨_, rfl, rfl, rfl⟩

open Drv in
/-- **C83 violated** (2): an equation without unknowns is not checked, even with a correct solver: with `x = 1` given in the model file, the
system `x = 2, y = x` is reduced to `y - 1 = 0`, and the solution is reported with success. -/
theorem C83_dropped_violated (hk : ∀ env, nv (.num 1) env = some 1) :
    ∃ r, badKnown.steadyState nv close (constSolver 1) (constSolver 1) tol .minimize none [] = .ok r ∧ r.success = true ∧
      dget r.values ['x', '_', 's', 's'] = some (some 1) ∧ dget r.values ['y', '_', 's', 's'] = some (some 1) ∧
      (badKnown.system []).1 = [.sub (.sym (.tv ⟨['y'], .ss, []⟩)) (.num 1)] := by
  refine ⟨_, rfl, rfl, ?_, rfl, by decide +kernel⟩
  show some (nv (.num 1) _) = _
  rw [hk]

/-! ## C84: checking fixed values -/

namespace Drv

theorem validate_ok {m : SSModel} {nv : NumEval} {fs : List (Sym × Rat)} {pd : List (Str × Num)}
    (h : m.validateEquations nv fs pd = .ok ()) (e : SExpr) (he : m.IsEquation e)
    (hd : ∀ s ∈ e.syms, s ∈ m.ssVars → symName s ∈ dkeys (toNames (fs.map fun p => (p.1, (some (p.2 : ℝ) : Num))))) :
    (∀ s ∈ e.syms, symName s ∈ dkeys (dupdate (toNames (fs.map fun p => (p.1, (some (p.2 : ℝ) : Num)))) pd)) ∧
    isBad (nv e fun s => (dget (dupdate (toNames (fs.map fun p => (p.1, (some (p.2 : ℝ) : Num)))) pd) (symName s)).getD none) = false := by
  unfold SSModel.validateEquations at h
  dsimp only at h
  generalize toNames (fs.map fun p => (p.1, (some (p.2 : ℝ) : Num))) = kw at h hd ⊢
  obtain ⟨i, hi⟩ := List.mem_iff_getElem?.mp ((mem_equations e).mpr he)
  have hdet : (e, i) ∈ (m.equations.zipIdx).filter (fun p => p.1.syms.all fun s => s ∉ m.ssVars.filter fun s => symName s ∉ dkeys kw) := by
    rw [List.mem_filter]
    refine ⟨List.mem_zipIdx_iff_getElem?.mpr hi, ?_⟩
    rw [List.all_eq_true]
    intro s hs
    rw [decide_eq_true_eq, List.mem_filter]
    rintro ⟨h1, h2⟩
    exact (of_decide_eq_true h2) (hd s hs h1)
  generalize (m.equations.zipIdx).filter (fun p => p.1.syms.all fun s => s ∉ m.ssVars.filter fun s => symName s ∉ dkeys kw) = det at h hdet
  split at h
  · next hemp => rw [List.isEmpty_iff.mp hemp] at hdet; cases hdet
  · simp only [bind, Except.bind] at h
    cases hev : evalResid nv (det.map Prod.fst) (dupdate kw pd) with
    | error er => rw [hev] at h; cases h
    | ok res =>
      rw [hev] at h
      dsimp only at h
      obtain ⟨_, hin, hres⟩ := eval_ok hev
      have hmem : e ∈ det.map Prod.fst := List.mem_map.mpr ⟨_, hdet, rfl⟩
      refine ⟨hin e hmem, ?_⟩
      split at h
      · next hb =>
        by_contra hbad
        rw [Bool.not_eq_false] at hbad
        have hb' := List.filter_eq_nil_iff.mp (List.isEmpty_iff.mp hb)
        obtain ⟨j, hj⟩ := List.mem_iff_getElem?.mp hdet
        have : (i, nv e fun s => (dget (dupdate kw pd) (symName s)).getD none) ∈ (det.map Prod.snd).zip res := by
          rw [List.mem_iff_getElem?]
          refine ⟨j, ?_⟩
          rw [List.getElem?_zip_eq_some]
          constructor
          · simp [hj]
          · simp [hres, hj]
        exact hb' _ this hbad
      · cases h

theorem params_nodup {m : SSModel} (hd : m.DistinctNames) {updates pd : List (Str × Num)} (h : m.parameters updates = .ok pd) :
    (dkeys pd).Nodup := by
  have hfd : (dkeys m.params.free ++ dkeys m.params.det).Nodup := by
    unfold SSModel.DistinctNames at hd
    have hsub : ((dkeys m.params.free).map Sym.par ++ (dkeys m.params.det).map Sym.par).Sublist
        (m.vars.map Sym.tv ++ (dkeys m.params.free).map Sym.par ++ dkeys m.calib ++ (dkeys m.params.det).map Sym.par ++ m.shocks.map Sym.tv) := by
      refine List.Sublist.trans (List.Sublist.append ?_ (List.Sublist.refl _)) (List.sublist_append_left _ _)
      exact (List.sublist_append_right _ _).trans (List.sublist_append_left _ _)
    have := (hsub.map baseOf).nodup hd
    simpa [List.map_append, List.map_map, Function.comp_def, baseOf] using this
  unfold SSModel.parameters ParamModel.parameters at h
  dsimp only at h
  split at h
  · next p hp =>
    split at hp
    · next hu =>
      simp only [Except.ok.injEq] at h hp
      subst h hp
      have hk : ∀ k ∈ dkeys (updates.filter fun p => p.1 ∉ dkeys m.params.det), k ∈ dkeys m.params.free := by
        intro k hk
        by_contra hc
        have : k ∈ (dkeys (updates.filter fun p => p.1 ∉ dkeys m.params.det)).filter fun k => k ∉ dkeys m.params.free :=
          List.mem_filter.mpr ⟨hk, by simpa using hc⟩
        rw [List.isEmpty_iff.mp hu] at this
        cases this
      have hdet : dkeys (m.params.det.map fun d => (d.1, d.2 (dupdate m.params.free (updates.filter fun p => p.1 ∉ dkeys m.params.det)))) =
          dkeys m.params.det := by simp [dkeys, Function.comp_def]
      have happ : ∀ a b : List (Str × Num), dkeys (a ++ b) = dkeys a ++ dkeys b := by intro a b; simp [dkeys]
      rw [happ, hdet]
      rw [List.nodup_append] at hfd ⊢
      refine ⟨dupdate_nodup _ _ hfd.1, hfd.2.1, fun a ha b hb => ?_⟩
      rw [mem_dkeys_dupdate] at ha
      exact hfd.2.2 a (ha.elim id (hk a)) b hb
    · cases hp
  · cases h

theorem isBad_false {x : Num} (h : isBad x = false) (v : ℝ) (hv : x = some v) : |v| ≤ 1 / 100000000 := by
  subst hv
  unfold isBad at h
  simpa using h

end Drv

open Drv in
/-- **C84** accepted fixed values satisfy the equations they determine: when a result is returned, every equation whose only variables are
fixed ones (the rest being parameters of the model) has, at the reported values, a residual of at most `1e-8` -- if it has a value at all. -/
theorem C84_checked (hw : m.WF) (hl : m.linear = false) (hloc : nv.Local) (f : List (Str × Rat)) (updates : List (Str × Num)) (r : SSRes)
    (h : m.steadyState nv close root minimize tol how (some f) updates = .ok r) :
    ∃ pd, m.parameters updates = .ok pd ∧ ∀ e, m.IsEquation e →
      (∀ s ∈ e.syms, (∃ v ∈ m.vars, s = .tv (toSS v) ∧ ∃ n ∈ dkeys f, removeSuffixSS n = v.base) ∨ ∃ n ∈ dkeys pd, s = .par n) →
      ∀ x : ℝ, nv e (fun s => (valueAt r.values pd s).getD none) = some x → |x| ≤ 1 / 100000000 := by
  obtain ⟨pd, known, hp, hk, hcase⟩ := numeric_case hw hl h
  refine ⟨pd, hp, fun e he hs x hx => ?_⟩
  rcases hcase with ⟨hf, _⟩ | ⟨fs, hfs, hfn, hfv, hbase, hve, hna, hsn⟩
  · cases hf
  · simp only [Option.getD_some] at hfs hbase
    have hkd : (dkeys (fs.map fun p => (p.1, (some (p.2 : ℝ) : Num)))) = dkeys fs := by simp [dkeys, Function.comp_def]
    have hnn : ((fs.map fun p => (p.1, (some (p.2 : ℝ) : Num))).map fun p => symName p.1).Nodup :=
      toNames_ss m hw (by rw [hkd]; exact hfn) (fun k hk' => by
        rw [hkd] at hk'
        obtain ⟨v, hv, rfl⟩ := hfv k hk'
        exact var_mem hv)
    obtain ⟨hvk, hvv⟩ := value_of hw hk hfn hsn
    have hkey : ∀ k q, dget fs k = some q → dget (toNames (fs.map fun p => (p.1, (some (p.2 : ℝ) : Num)))) (symName k) = some (some (q : ℝ)) :=
      fun k q hq => dget_toNames hnn (List.mem_map.mpr ⟨(k, q), mem_of_dget _ _ _ hq, rfl⟩)
    have hfixed : ∀ v ∈ m.vars, (∃ n ∈ dkeys f, removeSuffixSS n = v.base) → ∃ q, dget fs (.tv (toSS v)) = some q := by
      rintro v hv ⟨n, hn, hb⟩
      exact Option.isSome_iff_exists.mp ((dget_isSome _ _).mpr (mem_fixedSyms hw.distinct hfs hbase hv hn hb))
    obtain ⟨_, env, res, hev, hd, hdis, _⟩ := outcome hw hk hfv hsn
    have hout : ∀ n ∈ dkeys pd, n ∉ m.ssVars.map symName := fun n hn hc => hdis n (by rw [hvk]; exact hc) hn
    have hbad := validate_ok (hve (by simp)) e he (fun s hs' hsv => by
      rcases hs s hs' with ⟨v, hv, rfl, hn⟩ | ⟨n, hn', rfl⟩
      · obtain ⟨q, hq⟩ := hfixed v hv hn
        rw [← dget_isSome, hkey _ q hq]; rfl
      · exact absurd (List.mem_map.mpr ⟨_, hsv, rfl⟩) (hout n hn'))
    refine isBad_false hbad.2 x ?_
    rw [← hx]
    refine hloc e _ _ fun s hs' => ?_
    rw [dget_dupdate]
    rcases hs s hs' with ⟨v, hv, rfl, hn⟩ | ⟨n, hn, rfl⟩
    · obtain ⟨q, hq⟩ := hfixed v hv hn
      have hr := (hvv _ (var_mem hv)).1 q hq
      have hnp : symName (.tv (toSS v)) ∉ dkeys pd := hdis _ (by rw [← dget_isSome, hr]; rfl)
      have : dget pd.reverse (symName (.tv (toSS v))) = none := by
        rw [dget_eq_none]
        simpa [dkeys] using hnp
      rw [this, hkey _ q hq]
      unfold valueAt
      rw [hr]
      rfl
    · have hnr : dget r.values n = none := by rw [dget_eq_none, hvk]; exact hout n hn
      have hpn : (dkeys pd).Nodup := params_nodup hw.distinct hp
      rw [show symName (.par n) = n from rfl, Cont2.dget_perm _ hpn]
      obtain ⟨y, hy⟩ := Option.isSome_iff_exists.mp ((dget_isSome pd n).mpr hn)
      unfold valueAt
      rw [show symName (.par n) = n from rfl, hnr, hy]
      rfl

open Drv in
/-- **C84** the equations named by the error are exactly the offending ones: when fixed values are rejected because of equations, the
positions reported are those of the equations without a variable (or calibrated parameter) that is not fixed and whose residual is a
number above `1e-8` in absolute value. -/
theorem C84_reported (fs : List (Sym × Rat)) (pd : List (Str × Num)) (bad : List Nat)
    (h : m.validateEquations nv fs pd = .error (.invalidFixed bad)) :
    bad ≠ [] ∧ ∀ i, i ∈ bad ↔ ∃ e, m.equations[i]? = some e ∧
      (∀ s ∈ e.syms, s ∈ m.ssVars → symName s ∈ fs.map fun p => symName p.1) ∧
      ∃ x : ℝ, nv e (fun s => (dget (dupdate (toNames (fs.map fun p => (p.1, (some (p.2 : ℝ) : Num)))) pd) (symName s)).getD none) = some x ∧
        1 / 100000000 < |x| := by
  unfold SSModel.validateEquations at h
  dsimp only at h
  have hkw : ∀ n, n ∈ dkeys (toNames (fs.map fun p => (p.1, (some (p.2 : ℝ) : Num)))) ↔ n ∈ fs.map fun p => symName p.1 := by
    intro n
    unfold toNames
    rw [mem_dkeys_dupdate]
    simp [dkeys, Function.comp_def]
  generalize toNames (fs.map fun p => (p.1, (some (p.2 : ℝ) : Num))) = kw at h hkw ⊢
  have hdet : ∀ e i, (e, i) ∈ (m.equations.zipIdx).filter (fun p => p.1.syms.all fun s => s ∉ m.ssVars.filter fun s => symName s ∉ dkeys kw) ↔
      m.equations[i]? = some e ∧ ∀ s ∈ e.syms, s ∈ m.ssVars → symName s ∈ fs.map fun p => symName p.1 := by
    intro e i
    rw [List.mem_filter, List.mem_zipIdx_iff_getElem?, List.all_eq_true]
    refine and_congr Iff.rfl (forall₂_congr fun s _ => ?_)
    rw [decide_eq_true_eq, List.mem_filter, decide_eq_true_eq, ← hkw]
    tauto
  generalize (m.equations.zipIdx).filter (fun p => p.1.syms.all fun s => s ∉ m.ssVars.filter fun s => symName s ∉ dkeys kw) = det at h hdet
  split at h
  · cases h
  · simp only [bind, Except.bind] at h
    cases hev : evalResid nv (det.map Prod.fst) (dupdate kw pd) with
    | error er =>
      rw [hev] at h
      simp only [Except.error.injEq] at h
      subst h
      unfold evalResid at hev
      split at hev
      · cases hev
      · split at hev <;> cases hev
    | ok res =>
      rw [hev] at h
      dsimp only at h
      obtain ⟨_, _, hres⟩ := eval_ok hev
      split at h
      · cases h
      · next hne =>
        simp only [Except.error.injEq, SSErr.invalidFixed.injEq] at h
        subst h
        refine ⟨fun h0 => hne (by rw [List.isEmpty_iff]; exact List.map_eq_nil_iff.mp h0), fun i => ?_⟩
        have hzip : (det.map Prod.snd).zip res = det.map fun p => (p.2, nv p.1 fun s => (dget (dupdate kw pd) (symName s)).getD none) := by
          rw [hres, List.map_map, List.zip_map']
          rfl
        rw [hzip]
        simp only [List.mem_map, List.mem_filter, Prod.exists]
        constructor
        · rintro ⟨j, x, ⟨⟨e, j', hm, heq⟩, hb⟩, rfl⟩
          simp only [Prod.mk.injEq] at heq
          obtain ⟨rfl, rfl⟩ := heq
          obtain ⟨h1, h2⟩ := (hdet e _).mp hm
          refine ⟨e, h1, by simpa using h2, ?_⟩
          unfold isBad at hb
          cases hx : nv e fun s => (dget (dupdate kw pd) (symName s)).getD none with
          | none => rw [hx] at hb; simp at hb
          | some x => rw [hx] at hb; exact ⟨x, rfl, by simpa using hb⟩
        · rintro ⟨e, h1, h2, x, hx, hlt⟩
          refine ⟨i, some x, ⟨⟨e, i, (hdet e i).mpr ⟨h1, by simpa using h2⟩, by rw [hx]⟩, ?_⟩, rfl⟩
          unfold isBad
          simpa using hlt

namespace Drv

/-- `y = 2 x` and `z = x + y`, with the values `x = 1` and `y = 2` in the model file -/
def staleModel : SSModel where
  vars := [⟨['x'], .t 0, []⟩, ⟨['y'], .t 0, []⟩, ⟨['z'], .t 0, []⟩]
  params := { free := [], det := [] }
  ssEqs := [.sub (.sym (.tv ⟨['y'], .ss, []⟩)) (.mul (.num 2) (.sym (.tv ⟨['x'], .ss, []⟩))),
    .sub (.sym (.tv ⟨['z'], .ss, []⟩)) (.add (.sym (.tv ⟨['x'], .ss, []⟩)) (.sym (.tv ⟨['y'], .ss, []⟩)))]
  ssSol := [(.tv ⟨['x'], .ss, []⟩, .num 1), (.tv ⟨['y'], .ss, []⟩, .num 2)]

end Drv

open Drv in
/-- **C84 violated**: a fixed value that overrides one known from the model file is not checked against the other known values. With
`x = 3` fixed, the stale `y = 2` is kept, the equation `y = 2 x` has no unknown left and is dropped, and the solver's `z = 5` (exact for the
remaining equation) is reported as a success: at the reported values `y - 2 x = -4`. -/
theorem C84_override_violated (hk : ∀ q env, nv (.num q) env = some (q : ℝ)) :
    ∃ r, staleModel.steadyState nv close (constSolver 5) (constSolver 5) tol .minimize (some [(['x'], 3)]) [] = .ok r ∧ r.success = true ∧
      dget r.values ['x', '_', 's', 's'] = some (some 3) ∧ dget r.values ['y', '_', 's', 's'] = some (some 2) ∧
      dget r.values ['z', '_', 's', 's'] = some (some 5) ∧
      (staleModel.system [(.tv ⟨['x'], .ss, []⟩, 3)]).1 = [.sub (.sym (.tv ⟨['z'], .ss, []⟩)) (.add (.num 3) (.num 2))] := by
  refine ⟨_, rfl, rfl, ?_, ?_, rfl, by decide +kernel⟩
  · show some (some (((3 : Rat)) : ℝ)) = _
    norm_num
  · show some (nv (.num 2) _) = _
    rw [hk]
    norm_num

/-! ## C85: packing variables into a vector -/

/-- specification: the environment in which the compiled function of the flat vector `x` evaluates its outputs -/
def packEnv (ssNodes : List Sym) (params : List (Str × Num)) (x : Nat → Num) (s : Sym) : Num :=
  if s ∈ ssNodes then x (ssNodes.idxOf s) else (dget params (symName s)).getD none

namespace Drv

theorem dget_active {V : Type} (ssNodes : List Sym) (P : Sym → Bool) (hn : ssNodes.Nodup) (x : Nat → V) (s : Sym) :
    ∀ k, dget ((ssNodes.filter P).zip (((ssNodes.zipIdx k).filterMap fun p => if P p.1 then some p.2 else none).map x)) s =
      if s ∈ ssNodes ∧ P s then some (x (ssNodes.idxOf s + k)) else none := by
  induction ssNodes with
  | nil => intro k; simp [dget]
  | cons a l ih =>
    intro k
    rw [List.nodup_cons] at hn
    by_cases ha : P a
    · simp only [List.filter_cons, ha, if_true, List.zipIdx_cons, List.filterMap_cons, List.map_cons, List.zip_cons_cons, dget]
      by_cases hs : a = s
      · subst hs
        simp [ha]
      · rw [if_neg hs, ih hn.2]
        have : (a :: l).idxOf s = l.idxOf s + 1 := by rw [List.idxOf_cons_ne _ hs]
        rw [this]
        have : s ≠ a := fun h => hs h.symm
        simp only [List.mem_cons, this, false_or]
        rw [show l.idxOf s + 1 + k = l.idxOf s + (k + 1) by omega]
    · simp only [List.filter_cons, ha, if_false, List.zipIdx_cons, List.filterMap_cons, Bool.false_eq_true]
      rw [ih hn.2]
      by_cases hs : a = s
      · subst hs
        simp [ha]
      · have h1 : (a :: l).idxOf s = l.idxOf s + 1 := by rw [List.idxOf_cons_ne _ hs]
        rw [h1]
        have : s ≠ a := fun h => hs h.symm
        simp only [List.mem_cons, this, false_or]
        rw [show l.idxOf s + 1 + k = l.idxOf s + (k + 1) by omega]

/-- the values a packed function gives to its inputs -/
def packValues {V : Type} (missing : V) (ssNodes : List Sym) (params : List (Str × V)) (x : Nat → V) (s : Sym) : V :=
  if s ∈ ssNodes then x (ssNodes.idxOf s) else (dget params (symName s)).getD missing

/-- what `pack_and_compile` computes, for any kind of graph -/
theorem packed {G V W : Type} (syms : G → List Sym) (nv : G → (Sym → V) → W) (missing : V)
    (hloc : ∀ (e : G) (env env' : Sym → V), (∀ s ∈ syms e, env s = env' s) → nv e env = nv e env')
    (outputs : List G) (ssNodes : List Sym) (hn : ssNodes.Nodup) (params : List (Str × V)) (x : Nat → V) :
    ((∀ e ∈ outputs, ∀ s ∈ syms e, s ∈ ssNodes ∨ symName s ∈ dkeys params) →
      packGraph syms nv missing outputs ssNodes params x = some (outputs.map fun e => nv e (packValues missing ssNodes params x))) ∧
    ((∃ e ∈ outputs, ∃ s ∈ syms e, s ∉ ssNodes ∧ symName s ∉ dkeys params) → packGraph syms nv missing outputs ssNodes params x = none) := by
  have hall : ((outputs.flatMap syms).filter fun s => s ∉ ssNodes.filter fun n => n ∈ outputs.flatMap syms).all
        (fun s => decide (symName s ∈ dkeys params)) = true ↔ ∀ e ∈ outputs, ∀ s ∈ syms e, s ∈ ssNodes ∨ symName s ∈ dkeys params := by
    rw [List.all_eq_true]
    constructor
    · intro h e he s hs
      by_cases hss : s ∈ ssNodes
      · exact .inl hss
      · refine .inr (of_decide_eq_true (h s (List.mem_filter.mpr ⟨List.mem_flatMap.mpr ⟨e, he, hs⟩, ?_⟩)))
        exact decide_eq_true fun hc => hss (List.mem_filter.mp hc).1
    · intro h s hs
      obtain ⟨h1, h2⟩ := List.mem_filter.mp hs
      obtain ⟨e, he, hse⟩ := List.mem_flatMap.mp h1
      refine decide_eq_true ((h e he s hse).resolve_left fun hc => (of_decide_eq_true h2) (List.mem_filter.mpr ⟨hc, decide_eq_true h1⟩))
  constructor
  · intro h
    unfold packGraph
    dsimp only
    rw [if_pos (hall.mpr h)]
    congr 1
    refine List.map_congr_left fun e he => hloc e _ _ fun s hs => ?_
    have hin : s ∈ outputs.flatMap syms := List.mem_flatMap.mpr ⟨e, he, hs⟩
    have hd : dget ((ssNodes.filter fun n => n ∈ outputs.flatMap syms).zip
        (if ((ssNodes.filter fun n => n ∈ outputs.flatMap syms).length ≠ ssNodes.length : Bool) then
          ((ssNodes.zipIdx).filterMap fun p => if p.1 ∈ outputs.flatMap syms then some p.2 else none).map x
          else (List.range ssNodes.length).map x)) s = if s ∈ ssNodes then some (x (ssNodes.idxOf s)) else none := by
      have key := dget_active ssNodes (fun n => decide (n ∈ outputs.flatMap syms)) hn x s 0
      simp only [decide_eq_true_eq] at key
      by_cases hl : (ssNodes.filter fun n => n ∈ outputs.flatMap syms).length ≠ ssNodes.length
      · rw [if_pos (by simpa using hl), key]
        simp [hin]
      · rw [if_neg (by simpa using hl)]
        rw [not_not] at hl
        have hfall : ∀ a ∈ ssNodes, a ∈ outputs.flatMap syms := by
          intro a ha
          exact of_decide_eq_true (List.length_filter_eq_length_iff.mp hl a ha)
        have : ((ssNodes.zipIdx).filterMap fun p => if p.1 ∈ outputs.flatMap syms then some p.2 else none) = List.range ssNodes.length := by
          rw [List.filterMap_congr (g := fun p => some p.2) (fun p hp => by
            rw [if_pos (hfall p.1 (List.fst_mem_of_mem_zipIdx hp))])]
          rw [List.filterMap_eq_map', List.zipIdx_map_snd, List.range_eq_range']
        rw [this] at key
        rw [key]
        simp [hin]
    rw [hd]
    unfold packValues
    split
    · next v hv =>
      split at hv
      · next hm => simp only [Option.some.injEq] at hv; rw [if_pos hm, hv]
      · cases hv
    · next hv =>
      split at hv
      · cases hv
      · next hm => rw [if_neg hm]
  · rintro ⟨e, he, s, hs, h1, h2⟩
    unfold packGraph
    dsimp only
    rw [if_neg]
    intro hc
    rcases hall.mp hc e he s hs with h | h
    · exact h1 h
    · exact h2 h

end Drv

open Drv in
/-- **C85** the compiled function of the flat vector evaluates each output with entry `i` of the vector for variable `i` and the parameters
by their names -- whether or not some variables do not occur in the outputs (and are sliced away before evaluation). A KeyError is
raised exactly when a parameter is missing. -/
theorem C85_packed (hloc : nv.Local) (outputs : List SExpr) (ssNodes : List Sym) (hn : ssNodes.Nodup) (params : List (Str × Num)) (x : Nat → Num) :
    ((∀ e ∈ outputs, ∀ s ∈ e.syms, s ∈ ssNodes ∨ symName s ∈ dkeys params) →
      packEval nv outputs ssNodes params x = some (outputs.map fun e => nv e (packEnv ssNodes params x))) ∧
    ((∃ e ∈ outputs, ∃ s ∈ e.syms, s ∉ ssNodes ∧ symName s ∉ dkeys params) → packEval nv outputs ssNodes params x = none) := by
  exact packed SExpr.syms nv none hloc outputs ssNodes hn params x

end GE
