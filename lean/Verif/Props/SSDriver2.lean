import Verif.Props.SSDriver
/-!
# C82-C85: results of the steady-state driver, fixed values, packing
-/

namespace GE

/-- specification of a model as `compile_gcn` builds it (C78): names are distinct, variables are dated, calibrated parameters are parameters,
and the known steady-state values are those of variables, once each -/
structure SSModel.WF (m : SSModel) : Prop where
  distinct : m.DistinctNames
  calibrated : ∀ k ∈ dkeys m.calib, ∃ n, k = .par n
  results : (m.ssVars.map symName).Nodup
  known : (dkeys m.ssSol).Nodup
  ofVars : ∀ k ∈ dkeys m.ssSol, ∃ v ∈ m.vars, k = .tv (toSS v)

namespace Drv

variable {m : SSModel} {nv : NumEval} {close : Str → List Str → List Str} {root minimize : SSSolver} {tol : ℝ} {how : How}

theorem ssVars_nodup (hw : m.WF) : m.ssVars.Nodup := List.Nodup.of_map _ hw.results

theorem var_mem {v : TSym} (hv : v ∈ m.vars) : Sym.tv (toSS v) ∈ m.ssVars := by
  unfold SSModel.ssVars
  exact List.mem_append_left _ (List.mem_map.mpr ⟨v, hv, rfl⟩)

theorem vars_ss_nodup (hw : m.WF) : ((m.vars.map Sym.tv).map safeToSS).Nodup := by
  have := ssVars_nodup hw
  unfold SSModel.ssVars at this
  have h2 := (List.nodup_append.mp this).1
  simpa [List.map_map, Function.comp_def, safeToSS] using h2

/-- the known values at the parameters: exactly the entries of the dictionary -/
theorem known_values (hw : m.WF) {pd : List (Str × Num)} {known : Option (List (Sym × Num))} (hk : m.known nv pd = .ok known) :
    (dkeys (known.getD [])).Nodup ∧
    ∀ k, dget (known.getD []) k = (dget m.ssSol k).map fun e => nv e fun s => (dget pd (symName s)).getD none := by
  by_cases hne : m.ssSol = []
  · have : known = none := by
      unfold SSModel.known knownSS at hk
      rw [hne] at hk
      simpa using hk.symm
    subst this
    rw [hne]
    exact ⟨by simp [dkeys], fun k => by simp [dget]⟩
  · obtain ⟨out, ho, hkeys, hval⟩ := C73_known m.ssSol (m.vars.map Sym.tv) hne (vars_ss_nodup hw)
    cases known with
    | none =>
      unfold SSModel.known at hk
      rw [ho] at hk
      dsimp only at hk
      split at hk <;> simp at hk
    | some ss =>
      obtain ⟨out', ho', rfl⟩ := known_ok hk
      rw [ho, Option.some.injEq] at ho'
      subst ho'
      have hd : dkeys (out.map fun p => (p.1, nv p.2 fun s => (dget pd (symName s)).getD none)) = dkeys out := by
        simp [dkeys, Function.comp_def]
      have hnd : (dkeys out).Nodup := by
        rw [hkeys]; exact (vars_ss_nodup hw).filter _
      refine ⟨by simpa [hd] using hnd, fun k => ?_⟩
      simp only [Option.getD_some]
      cases hs : dget m.ssSol k with
      | none =>
        rw [Option.map_none, dget_eq_none, hd, hkeys]
        intro hc
        have := (List.mem_filter.mp hc).2
        exact (dget_eq_none _ _).mp hs (by simpa using this)
      | some e =>
        have hkm : k ∈ dkeys m.ssSol := by rw [← dget_isSome, hs]; rfl
        obtain ⟨v, hv, rfl⟩ := hw.ofVars k hkm
        have hin : Sym.tv (toSS v) ∈ dkeys out := by
          rw [hkeys, List.mem_filter]
          exact ⟨List.mem_map.mpr ⟨.tv v, List.mem_map.mpr ⟨v, hv, rfl⟩, rfl⟩, by simpa using hkm⟩
        obtain ⟨w, hw'⟩ := Option.isSome_iff_exists.mp ((dget_isSome out _).mpr hin)
        have hmem := mem_of_dget _ _ _ hw'
        have := hval _ hmem
        rw [hs, Option.some.injEq] at this
        subst this
        rw [Option.map_some]
        exact dget_of_mem _ (by rw [hd]; exact hnd) _ _ (List.mem_map.mpr ⟨_, hmem, rfl⟩)

theorem fixed_syms (hd : m.DistinctNames) : ∀ {f : List (Str × Rat)} {fs : List (Sym × Rat)}, m.fixedSyms close f = .ok fs →
    (∀ n ∈ dkeys f, ∃ v ∈ m.vars, removeSuffixSS n = v.base) →
    fs.map Prod.snd = f.map Prod.snd ∧ (dkeys fs).map baseOf = (dkeys f).map removeSuffixSS ∧
      ∀ k ∈ dkeys fs, ∃ v ∈ m.vars, k = .tv (toSS v)
  | [], fs, h, _ => by
    simp only [SSModel.fixedSyms, Except.ok.injEq] at h
    subst h
    simp [dkeys]
  | (n, q) :: f, fs, h, hv => by
    unfold SSModel.fixedSyms at h
    obtain ⟨v, hvm, hb⟩ := hv n (by simp [dkeys])
    have hobj : m.Object (.tv v) := .inl ⟨v, hvm, rfl⟩
    have hg : m.get close n = .ok (if ssSuffix.isSuffixOf n then .tv (toSS v) else .tv v) := by
      unfold SSModel.get
      dsimp only
      rw [hb, show dget m.names v.base = some (.tv v) from dget_names m hd (.tv v) hobj]
      dsimp only
      split <;> rfl
    rw [hg] at h
    simp only [bind, Except.bind] at h
    cases hr : m.fixedSyms close f with
    | error e => rw [hr] at h; cases h
    | ok r =>
      rw [hr] at h
      simp only [pure, Except.pure, Except.ok.injEq] at h
      subst h
      obtain ⟨h1, h2, h3⟩ := fixed_syms hd hr (fun n hn => hv n (by simp only [dkeys, List.map_cons, List.mem_cons]; exact .inr hn))
      have hs : safeToSS (if ssSuffix.isSuffixOf n then Sym.tv (toSS v) else Sym.tv v) = .tv (toSS v) := by split <;> rfl
      refine ⟨by simp [h1], ?_, ?_⟩
      · simp only [dkeys, List.map_cons] at h2 ⊢
        rw [hs, h2, hb]
        rfl
      · intro k hk
        simp only [dkeys, List.map_cons, List.mem_cons] at hk
        rcases hk with rfl | hk
        · exact ⟨v, hvm, hs⟩
        · exact h3 k hk

theorem base_of_valid {given : List Str} (h : m.validateFixed given = .ok ()) : (given.map removeSuffixSS).Nodup ∧
    ∀ n ∈ given, ∃ v ∈ m.vars, removeSuffixSS n = v.base := by
  obtain ⟨h1, h2⟩ := (C81_accepted_iff m given).mp h
  refine ⟨h1, fun n hn => ?_⟩
  obtain ⟨v, hv, h⟩ := h2 n hn
  refine ⟨v, hv, ?_⟩
  rcases h with rfl | ⟨hs, rfl⟩
  · exact (C58_names v.base).1
  · exact (C58_names v.base).2 hs

/-- everything the two ways of assembling a result have in common: the value of each steady-state variable -/
theorem lookup_out {d : List (Sym × Num)} {out : List (Sym × Num)} (hw : m.WF) (h : collect d m.ssVars = .ok out) {s : Sym} (hs : s ∈ m.ssVars) :
    dget (toNames out) (symName s) = some ((dget d s).getD none) := by
  obtain ⟨h1, _⟩ := collect_ok h
  subst h1
  refine dget_toNames ?_ (List.mem_map.mpr ⟨s, hs, rfl⟩)
  simpa [Function.comp_def] using hw.results

theorem keys_out {d : List (Sym × Num)} {out : List (Sym × Num)} (hw : m.WF) (h : collect d m.ssVars = .ok out) :
    dkeys (toNames out) = m.ssVars.map symName := by
  obtain ⟨h1, _⟩ := collect_ok h
  subst h1
  rw [toNames_fresh (by simpa [Function.comp_def] using hw.results)]
  simp [dkeys, Function.comp_def]

theorem dget_fixed {fs : List (Sym × Rat)} (hn : (dkeys fs).Nodup) (known : Option (List (Sym × Num))) (s : Sym) :
    dget (providedValues known fs) s = ((dget fs s).map fun q => some ((q : ℝ))).or (dget (known.getD []) s) := by
  unfold providedValues
  have hk : (dkeys (fs.map fun p => (p.1, (some (p.2 : ℝ) : Num)))).Nodup := by simpa [dkeys, Function.comp_def] using hn
  rw [dget_dupdate, Cont2.dget_perm _ hk]
  congr 1
  clear hn hk
  induction fs with
  | nil => simp [dget]
  | cons p fs ih =>
    simp only [List.map_cons, dget]
    split
    · simp
    · exact ih

theorem prov_of_dupdate {opt : List (Sym × Num)} {prov : List (Sym × Num)} (hn : (dkeys prov).Nodup) (s : Sym) :
    dget (dupdate (dupdate [] opt) prov) s = (dget prov s).or (dget (dupdate [] opt) s) := by
  rw [dget_dupdate, Cont2.dget_perm _ hn]

theorem provided_nodup {known : Option (List (Sym × Num))} (hk : (dkeys (known.getD [])).Nodup) (fs : List (Sym × Rat)) :
    (dkeys (providedValues known fs)).Nodup := dupdate_nodup _ _ hk

/-- in every numerical or resolved case: the value of a steady-state variable is its fixed one, else the known one, else the optimizer's -/
theorem value_of (hw : m.WF) {pd : List (Str × Num)} {known : Option (List (Sym × Num))} {fs : List (Sym × Rat)} {r : SSRes}
    (hk : m.known nv pd = .ok known) (hfn : (dkeys fs).Nodup)
    (h : m.solveNumerically nv root minimize tol how pd known fs = .ok r) :
    dkeys r.values = m.ssVars.map symName ∧ ∀ s ∈ m.ssVars,
      (∀ q, dget fs s = some q → dget r.values (symName s) = some (some (q : ℝ))) ∧
      (∀ e, s ∉ dkeys fs → dget m.ssSol s = some e → dget r.values (symName s) = some (nv e fun s => (dget pd (symName s)).getD none)) := by
  obtain ⟨hkn, hkv⟩ := known_values hw hk
  have hpn := provided_nodup hkn fs
  have key : ∀ (d : List (Sym × Num)) (out : List (Sym × Num)) (b : Bool), collect d m.ssVars = .ok out →
      r = { values := toNames out, success := b } → (∀ s v, dget (providedValues known fs) s = some v → dget d s = some v) →
      dkeys r.values = m.ssVars.map symName ∧ ∀ s ∈ m.ssVars,
      (∀ q, dget fs s = some q → dget r.values (symName s) = some (some (q : ℝ))) ∧
      (∀ e, s ∉ dkeys fs → dget m.ssSol s = some e → dget r.values (symName s) = some (nv e fun s => (dget pd (symName s)).getD none)) := by
    intro d out b hc hr hd
    subst hr
    refine ⟨keys_out hw hc, fun s hs => ⟨fun q hq => ?_, fun e hnf he => ?_⟩⟩
    · have := hd s (some (q : ℝ)) (by rw [dget_fixed hfn, hq]; rfl)
      rw [lookup_out hw hc hs, this]; rfl
    · have := hd s _ (by rw [dget_fixed hfn, (dget_eq_none _ _).mpr hnf, hkv, he]; rfl)
      rw [lookup_out hw hc hs, this]; rfl
  rcases numerically_ok h with ⟨_, h⟩ | ⟨_, s, _, h⟩
  · obtain ⟨env, res, out, _, _, hc, hr⟩ := resolved_ok h
    exact key _ out _ hc hr (fun s v hv => hv)
  · obtain ⟨out, env, res, hc, _, _, hr⟩ := postprocess_ok h
    refine key _ out _ hc hr (fun s v hv => ?_)
    rw [prov_of_dupdate hpn, hv]; rfl

theorem dget_fs {f : List (Str × Rat)} {fs : List (Sym × Rat)} (hb : (dkeys fs).map baseOf = (dkeys f).map removeSuffixSS)
    (hv : fs.map Prod.snd = f.map Prod.snd) (hn : (dkeys fs).Nodup) {n : Str} {q : Rat} (h : (n, q) ∈ f) :
    ∃ k ∈ dkeys fs, baseOf k = removeSuffixSS n ∧ dget fs k = some q := by
  obtain ⟨i, hi⟩ := List.mem_iff_getElem?.mp h
  have h1 : (fs.map Prod.snd)[i]? = some q := by rw [hv]; simp [hi]
  have h2 : ((dkeys fs).map baseOf)[i]? = some (removeSuffixSS n) := by rw [hb]; simp [dkeys, hi]
  simp only [List.getElem?_map, Option.map_eq_some_iff] at h1
  obtain ⟨p, hp, rfl⟩ := h1
  simp only [dkeys, List.map_map, List.getElem?_map, hp, Option.map_some, Option.some.injEq, Function.comp_def] at h2
  have hmem := List.mem_of_getElem? hp
  exact ⟨p.1, List.mem_map.mpr ⟨p, hmem, rfl⟩, h2, dget_of_mem _ hn _ _ hmem⟩

theorem fs_nodup {f : List (Str × Rat)} {fs : List (Sym × Rat)} (hb : (dkeys fs).map baseOf = (dkeys f).map removeSuffixSS)
    (hn : ((dkeys f).map removeSuffixSS).Nodup) : (dkeys fs).Nodup := by
  rw [← hb] at hn
  exact List.Nodup.of_map _ hn

end Drv

variable (m : SSModel) (nv : NumEval) (close : Str → List Str → List Str) (root minimize : SSSolver) (tol : ℝ) (how : How)

open Drv in
/-- **C82** fixed values are kept: whatever the method and the optimizer, a value the user fixed (as `x` or as `x_ss`) is the value of `x_ss`
in the result (of a model not declared linear). -/
theorem C82_fixed_kept (hw : m.WF) (hl : m.linear = false) (f : List (Str × Rat)) (updates : List (Str × Num)) (r : SSRes)
    (h : m.steadyState nv close root minimize tol how (some f) updates = .ok r) (n : Str) (q : Rat) (hn : (n, q) ∈ f) :
    dget r.values (removeSuffixSS n ++ ['_', 's', 's']) = some (some (q : ℝ)) := by
  obtain ⟨pd, known, hpd, hk, hc⟩ := steady_ok h
  rcases hc with ⟨hc, _⟩ | ⟨_, hc, _⟩ | ⟨_, hc, _⟩ | ⟨_, f', fs, hf, hv, hfs, _, hs⟩
  · rw [hl] at hc; cases hc
  · cases hc
  · cases hc
  · rw [Option.some.injEq] at hf
    subst hf
    obtain ⟨hnd, hbase⟩ := base_of_valid hv
    obtain ⟨h1, h2, h3⟩ := fixed_syms hw.distinct hfs hbase
    have hfn := fs_nodup h2 hnd
    obtain ⟨k, hkm, hkb, hkv⟩ := dget_fs h2 h1 hfn hn
    obtain ⟨v, hvm, rfl⟩ := h3 k hkm
    have := ((value_of hw hk hfn hs).2 _ (var_mem hvm)).1 q hkv
    rw [← hkb]
    exact this

open Drv in
/-- **C82** analytic values are kept: a variable with a known steady state that the user did not fix has, in the result, the value of its
formula at the parameters of the call. -/
theorem C82_analytic_kept (hw : m.WF) (hl : m.linear = false) (fixed : Option (List (Str × Rat))) (updates : List (Str × Num)) (r : SSRes)
    (h : m.steadyState nv close root minimize tol how fixed updates = .ok r) (v : TSym) (e : SExpr)
    (he : dget m.ssSol (.tv (toSS v)) = some e) (hnf : ∀ f, fixed = some f → ∀ n ∈ dkeys f, removeSuffixSS n ≠ v.base) :
    ∃ pd, m.parameters updates = .ok pd ∧
      dget r.values (v.base ++ ['_', 's', 's']) = some (nv e fun s => (dget pd (symName s)).getD none) := by
  obtain ⟨pd, known, hpd, hk, hc⟩ := steady_ok h
  refine ⟨pd, hpd, ?_⟩
  obtain ⟨hkn, hkv⟩ := known_values hw hk
  have hkm : Sym.tv (toSS v) ∈ dkeys m.ssSol := by rw [← dget_isSome, he]; rfl
  obtain ⟨v', hv', hvv⟩ := hw.ofVars _ hkm
  have hmem : Sym.tv (toSS v) ∈ m.ssVars := by rw [hvv]; exact var_mem hv'
  have hname : v.base ++ ['_', 's', 's'] = symName (.tv (toSS v)) := rfl
  rw [hname]
  rcases hc with ⟨hc, _⟩ | ⟨_, hf, ha⟩ | ⟨_, hf, ha, hs⟩ | ⟨_, f', fs, hf, hv, hfs, _, hs⟩
  · rw [hl] at hc; cases hc
  · obtain ⟨ss, env, res, hks, hlen, _, _, hr⟩ := analytic_ok ha
    subst hks hr
    have := hkv (.tv (toSS v))
    rw [he, Option.map_some] at this
    refine dget_toNames ?_ (mem_of_dget _ _ _ this)
    have hsub : ∀ k ∈ dkeys ss, k ∈ m.ssVars := by
      intro k hk
      have h1 : (dget ss k).isSome := (dget_isSome _ _).mpr hk
      have h2 := hkv k
      simp only [Option.getD_some] at h2
      rw [h2, Option.isSome_map] at h1
      obtain ⟨w, hw', rfl⟩ := hw.ofVars k ((dget_isSome _ _).mp h1)
      exact var_mem hw'
    have hinj := List.inj_on_of_nodup_map hw.results
    have : ss.map (fun p => symName p.1) = (dkeys ss).map symName := by simp [dkeys, Function.comp_def]
    rw [this]
    exact List.Nodup.map_on (fun a ha b hb hab => hinj (hsub a ha) (hsub b hb) hab) hkn
  · exact ((value_of hw hk (by simp [dkeys]) hs).2 _ hmem).2 e (by simp [dkeys]) he
  · obtain ⟨hnd, hbase⟩ := base_of_valid hv
    obtain ⟨h1, h2, h3⟩ := fixed_syms hw.distinct hfs hbase
    refine ((value_of hw hk (fs_nodup h2 hnd) hs).2 _ hmem).2 e ?_ he
    intro hc
    have : v.base ∈ (dkeys f').map removeSuffixSS := by
      rw [← h2]
      exact List.mem_map.mpr ⟨_, hc, rfl⟩
    obtain ⟨n, hn, hb⟩ := List.mem_map.mp this
    exact hnf f' hf n hn hb

open Drv in
/-- **C82** a result has one value for every variable, and nothing but variables and calibrated parameters. -/
theorem C82_every_variable (hw : m.WF) (fixed : Option (List (Str × Rat))) (updates : List (Str × Num)) (r : SSRes)
    (h : m.steadyState nv close root minimize tol how fixed updates = .ok r) :
    (dkeys r.values).Nodup ∧ (∀ v ∈ m.vars, v.base ++ ['_', 's', 's'] ∈ dkeys r.values) ∧
    ∀ k ∈ dkeys r.values, (∃ v ∈ m.vars, k = v.base ++ ['_', 's', 's']) ∨ Sym.par k ∈ dkeys m.calib := by
  have hall : ∀ k ∈ m.ssVars.map symName, (∃ v ∈ m.vars, k = v.base ++ ['_', 's', 's']) ∨ Sym.par k ∈ dkeys m.calib := by
    intro k hk
    obtain ⟨s, hs, rfl⟩ := List.mem_map.mp hk
    rcases List.mem_append.mp hs with hs | hs
    · obtain ⟨v, hv, rfl⟩ := List.mem_map.mp hs
      exact .inl ⟨v, hv, rfl⟩
    · obtain ⟨n, rfl⟩ := hw.calibrated s hs
      exact .inr hs
  have hvars : ∀ v ∈ m.vars, v.base ++ ['_', 's', 's'] ∈ m.ssVars.map symName := fun v hv => List.mem_map.mpr ⟨_, var_mem hv, rfl⟩
  have hvn : ((m.vars.map fun v => Sym.tv (toSS v)).map symName).Nodup := by
    have := hw.results
    unfold SSModel.ssVars at this
    rw [List.map_append] at this
    exact (List.nodup_append.mp this).1
  obtain ⟨pd, known, hpd, hk, hc⟩ := steady_ok h
  rcases hc with ⟨_, rfl⟩ | ⟨_, hf, ha⟩ | ⟨_, hf, ha, hs⟩ | ⟨_, f', fs, hf, hv, hfs, _, hs⟩
  · have : dkeys m.linearResult.values = (m.vars.map fun v => Sym.tv (toSS v)).map symName := by
      unfold SSModel.linearResult
      dsimp only
      rw [toNames_fresh (by simpa [Function.comp_def] using hvn)]
      simp [dkeys, Function.comp_def]
    rw [this]
    refine ⟨hvn, fun v hv => ?_, fun k hk => ?_⟩
    · exact List.mem_map.mpr ⟨_, List.mem_map.mpr ⟨v, hv, rfl⟩, rfl⟩
    · obtain ⟨s, hs, rfl⟩ := List.mem_map.mp hk
      obtain ⟨v, hv, rfl⟩ := List.mem_map.mp hs
      exact .inl ⟨v, hv, rfl⟩
  · obtain ⟨ss, env, res, hks, hlen, _, _, hr⟩ := analytic_ok ha
    subst hks hr
    obtain ⟨out, hout, hss⟩ := known_ok hk
    have hne : m.ssSol ≠ [] := by
      intro h0
      rw [h0] at hout
      simp [knownSS] at hout
    obtain ⟨out', ho', hkeys, _⟩ := C73_known m.ssSol (m.vars.map Sym.tv) hne (vars_ss_nodup hw)
    rw [hout, Option.some.injEq] at ho'
    subst ho'
    have hk2 : dkeys ss = (m.vars.map Sym.tv).map safeToSS := by
      have h1 : dkeys ss = dkeys out := by rw [hss]; simp [dkeys, Function.comp_def]
      have h2 : (dkeys ss).length = m.vars.length := by simp [dkeys, hlen]
      rw [h1, hkeys] at h2 ⊢
      exact List.Sublist.eq_of_length List.filter_sublist (by simpa using h2)
    have hk3 : (m.vars.map Sym.tv).map safeToSS = m.vars.map fun v => Sym.tv (toSS v) := by simp [safeToSS]
    have hk4 : (ss.map fun p => symName p.1) = (m.vars.map fun v => Sym.tv (toSS v)).map symName := by
      rw [← hk3, ← hk2]
      simp [dkeys, Function.comp_def]
    have hk5 : dkeys (toNames ss) = (m.vars.map fun v => Sym.tv (toSS v)).map symName := by
      rw [toNames_fresh (by rw [hk4]; exact hvn), ← hk4]
      simp [dkeys, Function.comp_def]
    dsimp only
    rw [hk5]
    refine ⟨hvn, fun v hv => ?_, fun k hk => ?_⟩
    · exact List.mem_map.mpr ⟨_, List.mem_map.mpr ⟨v, hv, rfl⟩, rfl⟩
    · obtain ⟨s, hs, rfl⟩ := List.mem_map.mp hk
      obtain ⟨v, hv, rfl⟩ := List.mem_map.mp hs
      exact .inl ⟨v, hv, rfl⟩
  · have := (value_of hw hk (by simp [dkeys]) hs).1
    rw [this]
    exact ⟨hw.results, hvars, hall⟩
  · obtain ⟨hnd, hbase⟩ := base_of_valid hv
    obtain ⟨h1, h2, h3⟩ := fixed_syms hw.distinct hfs hbase
    have := (value_of hw hk (fs_nodup h2 hnd) hs).1
    rw [this]
    exact ⟨hw.results, hvars, hall⟩

end GE
