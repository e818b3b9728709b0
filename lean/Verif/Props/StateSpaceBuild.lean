import Verif.Model.StateSpaceBuild
import Verif.Props.Perturbation
import Verif.Props.SteadyState
import Verif.Props.Closure2
import Verif.Props.ClosedForm
/-! # C117: the state-space system as a function of the free parameters (`statespace_from_gcn`) -/

namespace GE

/-! ## specification -/

/-- what `_compile_gcn` delivers: distinct variables, equations in the variables, the shocks and the declared parameters, deterministic
parameters in terms of the free ones, and steady-state values in terms of parameters -/
structure ClosedModel (vars : List TSym) (eqs : List SExpr) (shocks : List TSym) (free : List Str) (determ : List (Str × SExpr))
    (ssSol : List (Sym × SExpr)) : Prop where
  distinct : (vars.map TSym.base).Nodup
  known : ∀ e ∈ eqs, ∀ s ∈ e.tsyms, toSS s ∈ vars.map toSS ∨ toSS s ∈ shocks.map toSS
  pars : ∀ e ∈ eqs, ∀ n, Sym.par n ∈ e.syms → n ∈ free ∨ n ∈ dkeys determ
  resolved : ∀ p ∈ determ, ∀ s ∈ p.2.syms, ∃ n ∈ free, s = .par n
  analytic : ∀ v ∈ vars, ∀ w, dget ssSol (.tv (toSS v)) = some w → ∀ s ∈ w.syms, ∃ n, s = .par n ∧ (n ∈ free ∨ n ∈ dkeys determ)

/-- the parameter values satisfy the deterministic definitions, and `ssv` is the declared steady state at these values -/
structure AtSteady (vars : List TSym) (determ : List (Str × SExpr)) (ssSol : List (Sym × SExpr)) (par : Str → ℝ) (ssv : TSym → ℝ) : Prop where
  determ : ∀ p ∈ determ, par p.1 = evalAt par (fun _ => 0) p.2
  steady : ∀ v ∈ vars, ∀ w, dget ssSol (.tv (toSS v)) = some w → ssv v = evalAt par (fun _ => 0) w
  byName : ∀ v w : TSym, v.base = w.base → ssv v = ssv w

/-- value of a column scale -/
noncomputable def GScale.val (P : RealPath) : GScale → ℝ
  | .one => 1
  | .ss e => e.val P 0
  | .guarded e => if 0 < e.val P 0 then e.val P 0 else 1

/-- symbols of a column scale -/
def GScale.syms : GScale → List Sym
  | .one => []
  | .ss e => e.syms
  | .guarded e => e.syms

namespace SSB

theorem tv_nodup {vars : List TSym} (h : (vars.map TSym.base).Nodup) : ((vars.map Sym.tv).map safeToSS).Nodup := by
  have h2 : (vars.map toSS).Nodup := by
    have : vars.map TSym.base = (vars.map toSS).map TSym.base := by simp [toSS, Function.comp_def]
    rw [this] at h
    exact h.of_map _
  rw [List.map_map]
  have : (safeToSS ∘ Sym.tv) = Sym.tv ∘ toSS := by funext v; rfl
  rw [this, ← List.map_map]
  exact h2.map (fun a b hab => by injection hab)

theorem length_le_of_keys {κ ν} [DecidableEq κ] (d e : List (κ × ν)) : (dupdate d e).length ≤ d.length + e.length := by
  unfold dupdate
  induction e generalizing d with
  | nil => simp
  | cons p e ih =>
    simp only [List.foldl_cons, List.length_cons]
    have := ih (dset d p.1 p.2)
    have hl : (dset d p.1 p.2).length ≤ d.length + 1 := by
      clear ih this
      induction d with
      | nil => simp [dset]
      | cons q d ih => simp only [dset]; split <;> simp_all
    omega

/-- the mapping has an entry per variable exactly when every variable has a value -/
theorem known_length (vars : List TSym) (ss : List (Sym × SExpr)) (hn : (vars.map TSym.base).Nodup) (out)
    (h : knownSSSymbolic ss (vars.map Sym.tv) = some out) (hl : out.length = vars.length) :
    ss ≠ [] ∧ ∀ v ∈ vars, Sym.tv (toSS v) ∈ dkeys ss := by
  have hne : ss ≠ [] := by
    rintro rfl
    simp [knownSSSymbolic, knownSS] at h
  refine ⟨hne, ?_⟩
  obtain ⟨o, h1, h2, _⟩ := C73_known ss (vars.map Sym.tv) hne (tv_nodup hn)
  simp only [knownSSSymbolic, h1, Option.map_some, Option.some.injEq] at h
  have hle := length_le_of_keys ([] : List (Sym × SExpr)) (((vars.map Sym.tv).map safeToSS).zip (o.map Prod.snd))
  rw [h] at hle
  have ho : o.length = (((vars.map Sym.tv).map safeToSS).filter (fun k => k ∈ dkeys ss)).length := by rw [← h2, dkeys, List.length_map]
  simp only [List.length_nil, Nat.zero_add, List.length_zip, List.length_map] at hle
  have hge : vars.length ≤ (((vars.map Sym.tv).map safeToSS).filter (fun k => k ∈ dkeys ss)).length := by omega
  have heq := (List.filter_sublist (p := fun k => decide (k ∈ dkeys ss)) (l := (vars.map Sym.tv).map safeToSS)).eq_of_length_le (by simpa using hge)
  intro v hv
  have : Sym.tv (toSS v) ∈ (vars.map Sym.tv).map safeToSS := by
    rw [List.map_map]; exact List.mem_map.mpr ⟨v, hv, rfl⟩
  rw [← heq] at this
  simpa using (List.mem_filter.mp this).2

theorem known_ok (vars : List TSym) (ss : List (Sym × SExpr)) (hn : (vars.map TSym.base).Nodup) (hne : ss ≠ [])
    (hall : ∀ v ∈ vars, Sym.tv (toSS v) ∈ dkeys ss) :
    ∃ out, knownSSSymbolic ss (vars.map Sym.tv) = some out ∧ out.length = vars.length ∧ dkeys out = vars.map (fun v => Sym.tv (toSS v)) ∧
      ∀ p ∈ out, dget ss p.1 = some p.2 := by
  obtain ⟨out, h1, h2, h3⟩ := C73_symbolic_partial ss (vars.map Sym.tv) hne (tv_nodup hn) (by
    intro s hs
    obtain ⟨v, hv, rfl⟩ := List.mem_map.mp hs
    exact hall v hv)
  refine ⟨out, h1, ?_, ?_, h3⟩
  · have := congrArg List.length h2
    simpa [dkeys] using this
  · rw [h2, List.map_map]; rfl

theorem mem_paramMapping {free : List Str} {determ : List (Str × SExpr)} {p} (h : p ∈ paramMapping free determ) :
    (∃ n ∈ free, p = (.par n, .sym (.par n))) ∨ ∃ q ∈ determ, p = (.par q.1, q.2) := by
  rcases Lag.mem_dupdate _ _ _ h with h | h
  · simp at h
  · rw [List.zip_append (by simp)] at h
    rcases List.mem_append.mp h with h | h
    · left
      rw [List.zip_map'] at h
      obtain ⟨n, hn, rfl⟩ := List.mem_map.mp h
      exact ⟨n, hn, rfl⟩
    · right
      rw [List.zip_map'] at h
      obtain ⟨n, hn, rfl⟩ := List.mem_map.mp h
      exact ⟨n, hn, rfl⟩

theorem paramMapping_keys {free : List Str} {determ : List (Str × SExpr)} {n : Str} (h : n ∈ free ∨ n ∈ dkeys determ) :
    Sym.par n ∈ dkeys (paramMapping free determ) := by
  unfold paramMapping
  rw [Cls.dupdate_has]
  right
  have : dkeys ((free.map Sym.par ++ determ.map fun p => Sym.par p.1).zip (free.map (fun n => SExpr.sym (.par n)) ++ determ.map Prod.snd)) =
      free.map Sym.par ++ determ.map fun p => Sym.par p.1 := by
    rw [dkeys]
    exact List.map_fst_zip (by simp)
  rw [this]
  rcases h with h | h
  · exact List.mem_append_left _ (List.mem_map.mpr ⟨n, h, rfl⟩)
  · obtain ⟨p, hp, rfl⟩ := List.mem_map.mp h
    exact List.mem_append_right _ (List.mem_map.mpr ⟨p, hp, rfl⟩)

/-- an expression in parameters with the same value on both sides has the same value -/
theorem val_congr (e : SExpr) (P Q : RealPath) (h : ∀ s ∈ e.syms, P.val.symAt 0 s = Q.val.symAt 0 s) : e.val P 0 = e.val Q 0 := by
  have := replace_at P.val Q.val 0 0 e .sym ⟨rfl, rfl, rfl, rfl, rfl, rfl⟩ (fun s hs => h s hs)
  rw [replace_id] at this
  exact this

/-- what the replacement dictionary holds for a symbol -/
structure Good (free : List Str) (P Q : RealPath) (d : List (Sym × SExpr)) (s : Sym) : Prop where
  ex : ∃ w, dget d s = some w ∧ (∀ q ∈ w.syms, ∃ n ∈ free, q = .par n) ∧ w.val P 0 = Q.val.symAt 0 s

theorem good_replace {free : List Str} {P Q : RealPath} {d : List (Sym × SExpr)} (e : SExpr) (h : ∀ s ∈ e.syms, Good free P Q d s) :
    (∀ q ∈ (e.graphReplace d).syms, ∃ n ∈ free, q = .par n) ∧ (e.graphReplace d).val P 0 = e.val Q 0 := by
  constructor
  · intro q hq
    rw [SExpr.graphReplace, syms_replace] at hq
    obtain ⟨s, hs, hq⟩ := hq
    obtain ⟨w, hw, hf, _⟩ := (h s hs).ex
    rw [hw] at hq
    exact hf q hq
  · refine replace_at P.val Q.val 0 0 e _ ⟨rfl, rfl, rfl, rfl, rfl, rfl⟩ fun s hs => ?_
    obtain ⟨w, hw, _, hv⟩ := (h s hs).ex
    rw [hw]
    exact hv

/-- the valuation at the steady state -/
def atSS (par : Str → ℝ) (ssv : TSym → ℝ) : RealPath where
  par := par
  path := fun _ _ _ => 0
  ss := fun b a => ssv ⟨b, .ss, a⟩

theorem params_good {free : List Str} {determ : List (Str × SExpr)} {par : Str → ℝ} {P Q : RealPath} (hQ : Q.par = par)
    (hP : ∀ n ∈ free, P.par n = par n) (hres : ∀ p ∈ determ, ∀ s ∈ p.2.syms, ∃ n ∈ free, s = .par n)
    (hdet : ∀ p ∈ determ, par p.1 = evalAt par (fun _ => 0) p.2) {n : Str} (hn : n ∈ free ∨ n ∈ dkeys determ) :
    Good free P Q (paramMapping free determ) (.par n) := by
  obtain ⟨w, hw⟩ := Option.isSome_iff_exists.mp ((dget_isSome _ _).mpr (paramMapping_keys hn))
  refine ⟨w, hw, ?_⟩
  rcases mem_paramMapping (mem_of_dget _ _ _ hw) with ⟨m, hm, h⟩ | ⟨q, hq, h⟩
  · simp only [Prod.mk.injEq, Sym.par.injEq] at h
    obtain ⟨rfl, rfl⟩ := h
    refine ⟨fun s hs => ⟨n, hm, by simpa [SExpr.syms] using hs⟩, ?_⟩
    show P.par n = Q.par n
    rw [hP n hm, hQ]
  · simp only [Prod.mk.injEq, Sym.par.injEq] at h
    obtain ⟨rfl, rfl⟩ := h
    refine ⟨hres q hq, ?_⟩
    show _ = Q.par q.1
    rw [hQ, hdet q hq]
    refine val_congr _ _ _ fun s hs => ?_
    obtain ⟨m, hm, rfl⟩ := hres q hq s hs
    exact hP m hm

theorem ssMap_good {vars : List TSym} {eqs : List SExpr} {shocks : List TSym} {free : List Str} {determ : List (Str × SExpr)}
    {ssSol : List (Sym × SExpr)} (hm : ClosedModel vars eqs shocks free determ ssSol) {par : Str → ℝ} {ssv : TSym → ℝ}
    (hs : AtSteady vars determ ssSol par ssv) {P : RealPath} (hP : ∀ n ∈ free, P.par n = par n) {out : List (Sym × SExpr)}
    (hk : dkeys out = vars.map (fun v => Sym.tv (toSS v))) (hv : ∀ p ∈ out, dget ssSol p.1 = some p.2) (s : Sym)
    (hsym : (∃ n, s = .par n ∧ (n ∈ free ∨ n ∈ dkeys determ)) ∨ ∃ v ∈ vars, s = .tv (toSS v)) :
    Good free P (atSS par ssv) (dupdate (paramMapping free determ) (out.map fun p => (p.1, p.2.graphReplace (paramMapping free determ)))) s := by
  have hpg : ∀ n, (n ∈ free ∨ n ∈ dkeys determ) → Good free P (atSS par ssv) (paramMapping free determ) (.par n) := fun n hn =>
    params_good rfl hP hm.resolved hs.determ hn
  have hkey : s ∈ dkeys (dupdate (paramMapping free determ) (out.map fun p => (p.1, p.2.graphReplace (paramMapping free determ)))) := by
    rw [Cls.dupdate_has]
    rcases hsym with ⟨n, rfl, hn⟩ | ⟨v, hv, rfl⟩
    · exact .inl (paramMapping_keys hn)
    · right
      have : dkeys (out.map fun p => (p.1, p.2.graphReplace (paramMapping free determ))) = dkeys out := by
        simp [dkeys, Function.comp_def]
      rw [this, hk]
      exact List.mem_map.mpr ⟨v, hv, rfl⟩
  obtain ⟨w, hw⟩ := Option.isSome_iff_exists.mp ((dget_isSome _ _).mpr hkey)
  refine ⟨w, hw, ?_⟩
  rcases Lag.mem_dupdate _ _ _ (mem_of_dget _ _ _ hw) with h | h
  · -- a parameter
    rcases mem_paramMapping h with ⟨m, hm', h'⟩ | ⟨q, hq, h'⟩
    · simp only [Prod.mk.injEq] at h'
      obtain ⟨rfl, rfl⟩ := h'
      exact ⟨fun s hs => ⟨m, hm', by simpa [SExpr.syms] using hs⟩, hP m hm'⟩
    · simp only [Prod.mk.injEq] at h'
      obtain ⟨rfl, rfl⟩ := h'
      refine ⟨hm.resolved q hq, ?_⟩
      show _ = par q.1
      rw [hs.determ q hq]
      refine val_congr _ _ _ fun s hs' => ?_
      obtain ⟨m, hm', rfl⟩ := hm.resolved q hq s hs'
      exact hP m hm'
  · obtain ⟨p, hp, h'⟩ := List.mem_map.mp h
    simp only [Prod.mk.injEq] at h'
    obtain ⟨rfl, rfl⟩ := h'
    have hp1 : p.1 ∈ vars.map (fun v => Sym.tv (toSS v)) := hk ▸ List.mem_map.mpr ⟨p, hp, rfl⟩
    obtain ⟨v, hvv, hpv⟩ := List.mem_map.mp hp1
    have hget := hv p hp
    have han := hm.analytic v hvv p.2 (by rw [hpv]; exact hget)
    have := good_replace (free := free) (P := P) (Q := atSS par (fun _ => 0)) (d := paramMapping free determ) p.2 (fun s hs' => by
      obtain ⟨n, rfl, hn⟩ := han s hs'
      exact params_good rfl hP hm.resolved hs.determ hn)
    refine ⟨this.1, this.2.trans ?_⟩
    rw [← hpv]
    show _ = ssv (toSS v)
    rw [hs.byName (toSS v) v rfl, hs.steady v hvv p.2 (by rw [hpv]; exact hget)]
    rfl

/-- replacing every symbol by something in the free parameters -/
theorem free_replace {free : List Str} {d : List (Sym × SExpr)} (e : SExpr)
    (h : ∀ s ∈ e.syms, ∃ w, dget d s = some w ∧ ∀ q ∈ w.syms, ∃ n ∈ free, q = .par n) :
    ∀ q ∈ (e.graphReplace d).syms, ∃ n ∈ free, q = .par n := by
  intro q hq
  rw [SExpr.graphReplace, syms_replace] at hq
  obtain ⟨s, hs, hq⟩ := hq
  obtain ⟨w, hw, hf⟩ := h s hs
  rw [hw] at hq
  exact hf q hq

theorem params_free {free : List Str} {determ : List (Str × SExpr)} (hres : ∀ p ∈ determ, ∀ s ∈ p.2.syms, ∃ n ∈ free, s = .par n)
    {p : Sym × SExpr} (hp : p ∈ paramMapping free determ) : ∀ q ∈ p.2.syms, ∃ n ∈ free, q = .par n := by
  rcases mem_paramMapping hp with ⟨m, hm, rfl⟩ | ⟨q, hq, rfl⟩
  · exact fun s hs => ⟨m, hm, by simpa [SExpr.syms] using hs⟩
  · exact hres q hq

theorem ssMap_free {vars : List TSym} {eqs : List SExpr} {shocks : List TSym} {free : List Str} {determ : List (Str × SExpr)}
    {ssSol : List (Sym × SExpr)} (hm : ClosedModel vars eqs shocks free determ ssSol) {out : List (Sym × SExpr)}
    (hk : dkeys out = vars.map (fun v => Sym.tv (toSS v))) (hv : ∀ p ∈ out, dget ssSol p.1 = some p.2) (s : Sym)
    (hsym : (∃ n, s = .par n ∧ (n ∈ free ∨ n ∈ dkeys determ)) ∨ ∃ v ∈ vars, s = .tv (toSS v)) :
    ∃ w, dget (dupdate (paramMapping free determ) (out.map fun p => (p.1, p.2.graphReplace (paramMapping free determ)))) s = some w ∧
      ∀ q ∈ w.syms, ∃ n ∈ free, q = .par n := by
  have hkey : s ∈ dkeys (dupdate (paramMapping free determ) (out.map fun p => (p.1, p.2.graphReplace (paramMapping free determ)))) := by
    rw [Cls.dupdate_has]
    rcases hsym with ⟨n, rfl, hn⟩ | ⟨v, hv, rfl⟩
    · exact .inl (paramMapping_keys hn)
    · right
      have : dkeys (out.map fun p => (p.1, p.2.graphReplace (paramMapping free determ))) = dkeys out := by
        simp [dkeys, Function.comp_def]
      rw [this, hk]
      exact List.mem_map.mpr ⟨v, hv, rfl⟩
  obtain ⟨w, hw⟩ := Option.isSome_iff_exists.mp ((dget_isSome _ _).mpr hkey)
  refine ⟨w, hw, ?_⟩
  rcases Lag.mem_dupdate _ _ _ (mem_of_dget _ _ _ hw) with h | h
  · exact params_free hm.resolved h
  · obtain ⟨p, hp, h'⟩ := List.mem_map.mp h
    simp only [Prod.mk.injEq] at h'
    obtain ⟨rfl, rfl⟩ := h'
    have hp1 : p.1 ∈ vars.map (fun v => Sym.tv (toSS v)) := hk ▸ List.mem_map.mpr ⟨p, hp, rfl⟩
    obtain ⟨v, hvv, hpv⟩ := List.mem_map.mp hp1
    have han := hm.analytic v hvv p.2 (by rw [hpv]; exact hv p hp)
    refine free_replace p.2 fun s hs' => ?_
    obtain ⟨n, rfl, hn⟩ := han s hs'
    obtain ⟨w, hw⟩ := Option.isSome_iff_exists.mp ((dget_isSome _ _).mpr (paramMapping_keys hn))
    exact ⟨w, hw, params_free hm.resolved (mem_of_dget _ _ _ hw)⟩

/-- the symbols of a derivative at the steady state -/
theorem jac_syms {vars : List TSym} {eqs : List SExpr} {shocks : List TSym} {free : List Str} {determ : List (Str × SExpr)}
    {ssSol : List (Sym × SExpr)} (hm : ClosedModel vars eqs shocks free determ ssSol) (e : SExpr) (he : e ∈ eqs) (x : TSym) (s : Sym)
    (h : s ∈ (jacEntry shocks e x).syms) : (∃ n, s = .par n ∧ (n ∈ free ∨ n ∈ dkeys determ)) ∨ ∃ v ∈ vars, s = .tv (toSS v) := by
  unfold jacEntry at h
  rw [eqToSSIn_eq _ _ _ (fun s hs => hs), syms_replace] at h
  obtain ⟨q, hq, hs⟩ := h
  have hq' := Clf.syms_diff _ e q hq
  cases q with
  | par n =>
    left
    simp only [SExpr.syms, List.mem_cons, List.not_mem_nil, or_false] at hs
    exact ⟨n, hs, hm.pars e he n hq'⟩
  | tv v =>
    right
    dsimp only at hs
    split at hs
    · simp [SExpr.syms] at hs
    · rename_i hns
      simp only [SExpr.syms, List.mem_cons, List.not_mem_nil, or_false] at hs
      rcases hm.known e he v (mem_tsyms.mpr hq') with h | h
      · obtain ⟨w, hw, hwv⟩ := List.mem_map.mp h
        exact ⟨w, hw, by rw [hs, hwv]⟩
      · exact absurd h hns

end SSB

/-- **C117** the model is accepted exactly when nothing is calibrated, every variable has a declared steady state, and only variables of the
model are excluded from log-linearisation; otherwise the first failure in this order is reported. -/
theorem C117_accepts (vars : List TSym) (eqs : List SExpr) (shocks : List TSym) (free : List Str) (determ calib : List (Str × SExpr))
    (ssSol : List (Sym × SExpr)) (linear logLin : Bool) (exclude : Option (List Str)) (hn : (vars.map TSym.base).Nodup) :
    let r := statespaceFromGcn vars eqs shocks free determ calib ssSol linear logLin exclude
    (r = .error .calibration ↔ calib ≠ []) ∧
    (r = .error .numericSteadyState ↔ calib = [] ∧ (ssSol = [] ∨ ∃ v ∈ vars, Sym.tv (toSS v) ∉ dkeys ssSol)) ∧
    (∀ names, r = .error (.unknown names) ↔ calib = [] ∧ ssSol ≠ [] ∧ (∀ v ∈ vars, Sym.tv (toSS v) ∈ dkeys ssSol) ∧ names ≠ [] ∧
      names = (exclude.getD []).filter fun x => decide (¬ ∃ v ∈ vars, v.base = x)) ∧
    r ≠ .error .indexError := by
  intro r
  have hunk : ((exclude.getD []).filter fun x => !(vars.map TSym.base).contains x) =
      (exclude.getD []).filter fun x => decide (¬ ∃ v ∈ vars, v.base = x) := by
    apply List.filter_congr
    intro x _
    by_cases h : ∃ v ∈ vars, v.base = x
    · have : (vars.map TSym.base).contains x = true := by
        rw [List.contains_eq_mem, decide_eq_true_eq]; exact List.mem_map.mpr h
      simp [this, h]
    · have : (vars.map TSym.base).contains x = false := by
        rw [List.contains_eq_mem, decide_eq_false_iff_not]; exact fun h' => h (List.mem_map.mp h')
      simp only [this, h]; rfl
  by_cases hc : calib = []
  · by_cases ha : ssSol ≠ [] ∧ ∀ v ∈ vars, Sym.tv (toSS v) ∈ dkeys ssSol
    · obtain ⟨out, h1, h2, _, _⟩ := SSB.known_ok vars ssSol hn ha.1 ha.2
      have hna : ¬ (ssSol = [] ∨ ∃ v ∈ vars, Sym.tv (toSS v) ∉ dkeys ssSol) := by
        rintro (h | ⟨v, hv, h⟩)
        · exact ha.1 h
        · exact h (ha.2 v hv)
      have hr : r = if ((exclude.getD []).filter fun x => !(vars.map TSym.base).contains x) ≠ [] then
          .error (.unknown ((exclude.getD []).filter fun x => !(vars.map TSym.base).contains x)) else r := by
        simp only [r, statespaceFromGcn, hc, h1, h2]
        split <;> simp_all
      by_cases hu : ((exclude.getD []).filter fun x => !(vars.map TSym.base).contains x) ≠ []
      · rw [if_pos hu] at hr
        rw [hr]
        refine ⟨by simp [hc], by simp [hna], fun names => ?_, by simp⟩
        simp only [Except.error.injEq, SSGErr.unknown.injEq]
        rw [hunk] at hu ⊢
        constructor
        · rintro rfl; exact ⟨hc, ha.1, ha.2, hu, rfl⟩
        · rintro ⟨_, _, _, _, h⟩; exact h.symm
      · have hok : ∃ o, r = .ok o := by
          simp only [r, statespaceFromGcn, hc, h1, h2]
          obtain ⟨sys, hsys⟩ := Option.isSome_iff_exists.mp ((C39_succeeds vars eqs shocks
            (some (if logLin && !linear then vars.filter fun v => !(exclude.getD []).contains v.base else []))).1 hn)
          simp only [hsys]
          simp only [ne_eq, not_not] at hu
          simp only [hu, List.isEmpty_nil, Bool.not_true, Bool.false_eq_true, if_false, ne_eq, not_true_eq_false]
          exact ⟨_, rfl⟩
        obtain ⟨o, ho⟩ := hok
        rw [ho]
        refine ⟨by simp [hc], by simp [hna], fun names => ?_, by simp⟩
        rw [hunk] at hu
        constructor
        · intro h; cases h
        · rintro ⟨_, _, _, h1, h2⟩; exact absurd (h2 ▸ h1) hu
    · have hr : r = .error .numericSteadyState := by
        simp only [r, statespaceFromGcn, hc]
        cases hk : knownSSSymbolic ssSol (vars.map Sym.tv) with
        | none => simp
        | some out =>
          by_cases hl : out.length = vars.length
          · exact absurd (SSB.known_length vars ssSol hn out hk hl) ha
          · simp [hl]
      rw [hr]
      have hna : ssSol = [] ∨ ∃ v ∈ vars, Sym.tv (toSS v) ∉ dkeys ssSol := by
        by_contra h
        push Not at h
        exact ha h
      refine ⟨by simp [hc], by simp [hc, hna], fun names => ?_, by simp⟩
      constructor
      · intro h; cases h
      · rintro ⟨_, h1, h2, _⟩; exact absurd ⟨h1, h2⟩ ha
  · have hr : r = .error .calibration := by
      simp only [r, statespaceFromGcn]
      rw [if_pos (by simpa using hc)]
    rw [hr]
    refine ⟨by simp [hc], by simp [hc], fun names => by simp [hc], by simp⟩

namespace SSB

/-- the shape of an accepted system -/
theorem accepted {vars : List TSym} {eqs : List SExpr} {shocks : List TSym} {free : List Str} {determ calib : List (Str × SExpr)}
    {ssSol : List (Sym × SExpr)} {linear logLin : Bool} {exclude : Option (List Str)} {out : SSGOut} (hn : (vars.map TSym.base).Nodup)
    (h : statespaceFromGcn vars eqs shocks free determ calib ssSol linear logLin exclude = .ok out) :
    ∃ ssMap sys, dkeys ssMap = vars.map (fun v => Sym.tv (toSS v)) ∧ (∀ p ∈ ssMap, dget ssSol p.1 = some p.2) ∧
      linearize vars eqs shocks (some (if logLin && !linear then vars.filter fun v => !(exclude.getD []).contains v.base else [])) none none = some sys ∧
      out.params = paramMapping free determ ∧
      out.steadyState = ssMap.map (fun p => (p.1, p.2.graphReplace (paramMapping free determ))) ∧
      out.A = replaceRows (dupdate out.params out.steadyState) sys.scale sys.A ∧
      out.B = replaceRows (dupdate out.params out.steadyState) sys.scale sys.B ∧
      out.C = replaceRows (dupdate out.params out.steadyState) sys.scale sys.C ∧
      out.D = sys.D.map (fun row => row.map fun e => e.graphReplace (dupdate out.params out.steadyState)) ∧
      out.varOrder = sys.varOrder ∧
      out.loglin = (if logLin && !linear then vars.filter fun v => !(exclude.getD []).contains v.base else []).map TSym.base := by
  simp only [statespaceFromGcn] at h
  split at h
  · cases h
  · split at h
    · cases h
    · rename_i ssMap hk
      split at h
      · cases h
      · rename_i hl
        split at h
        · cases h
        · split at h
          · cases h
          · rename_i sys hsys
            obtain ⟨hne, hall⟩ := known_length vars ssSol hn ssMap hk (by simpa using hl)
            obtain ⟨o, h1, _, h3, h4⟩ := known_ok vars ssSol hn hne hall
            rw [hk, Option.some.injEq] at h1
            subst h1
            cases h
            exact ⟨ssMap, sys, h3, h4, hsys, rfl, rfl, rfl, rfl, rfl, rfl, rfl, rfl⟩

end SSB

/-- **C117** the matrices handed to the state-space model are functions of the free parameters alone: every entry mentions free parameters
only, and at any values of the free parameters it is the derivative of the model's equation at the declared steady state with respect to the
variable one period back, now and one period ahead (`A`, `B`, `C`) or to the shock (`D`), in levels or in logs. Rows come in some order of
the equations, columns in the order `varOrder` reports. -/
theorem C117_matrices (vars : List TSym) (eqs : List SExpr) (shocks : List TSym) (free : List Str) (determ calib : List (Str × SExpr))
    (ssSol : List (Sym × SExpr)) (linear logLin : Bool) (exclude : Option (List Str)) (out : SSGOut)
    (hm : ClosedModel vars eqs shocks free determ ssSol)
    (h : statespaceFromGcn vars eqs shocks free determ calib ssSol linear logLin exclude = .ok out)
    (hdisj : ∀ v ∈ vars, toSS v ∉ shocks.map toSS) (hsh : ∀ s ∈ shocks, s.idx = .t 0) :
    ∃ eo : List Nat, eo.Perm (List.range eqs.length) ∧ out.varOrder.Perm (List.range vars.length) ∧
      (out.A.length = eqs.length ∧ out.B.length = eqs.length ∧ out.C.length = eqs.length ∧ out.D.length = eqs.length) ∧
      (∀ row ∈ out.A ++ out.B ++ out.C, row.length = vars.length ∧ ∀ x ∈ row, ∀ s ∈ x.1.syms ++ x.2.syms, ∃ n ∈ free, s = .par n) ∧
      (∀ row ∈ out.D, row.length = shocks.length ∧ ∀ x ∈ row, ∀ s ∈ x.syms, ∃ n ∈ free, s = .par n) ∧
      ∀ (par : Str → ℝ) (ssv : TSym → ℝ) (P : RealPath), AtSteady vars determ ssSol par ssv → (∀ n ∈ free, P.par n = par n) →
        (∀ e ∈ eqs, e.Smooth (steadyPath par ssv shocks) 0) →
        let S := steadyPath par ssv shocks
        ∀ (r i : Nat) (e : SExpr), eo[r]? = some i → eqs[i]? = some e →
          (∀ (c j : Nat) (v : TSym), out.varOrder[c]? = some j → vars[j]? = some v →
            ∀ k X, (k, X) ∈ [((-1 : Int), out.A), (0, out.B), (1, out.C)] → ∃ x, entryAt X r c = some x ∧
              ((logLin = false ∨ linear = true ∨ v.base ∈ exclude.getD [] ∨ v.assumed "negative".toList = true ∨
                  (v.assumed "positive".toList = false ∧ ssv v ≤ 0)) →
                HasDerivAt (fun y => e.val (S.bump v.base v.asm k y) 0) (x.1.val P 0 * x.2.val P) (ssv v)) ∧
              (logLin = true → linear = false → v.base ∉ exclude.getD [] → v.assumed "negative".toList = false → 0 < ssv v →
                HasDerivAt (fun l => e.val (S.bump v.base v.asm k (Real.exp l)) 0) (x.1.val P 0 * x.2.val P) (Real.log (ssv v)))) ∧
          (∀ (j : Nat) (s : TSym), shocks[j]? = some s → ∃ x, entryAt out.D r j = some x ∧
            HasDerivAt (fun y => e.val (S.bump s.base s.asm 0 y) 0) (x.val P 0) 0) := by
  obtain ⟨ssMap, sys, hk, hv, hsys, hpar, hss, hA, hB, hC, hD, hvo, _⟩ := SSB.accepted hm.distinct h
  rw [hpar, hss] at hA hB hC hD
  generalize hlog : (if (logLin && !linear) = true then vars.filter fun v => !(exclude.getD []).contains v.base else []) = loglin at hsys
  have hmemlog : ∀ v ∈ vars, (v.base ∈ loglin.map TSym.base ↔ logLin = true ∧ linear = false ∧ v.base ∉ exclude.getD []) := by
    intro v hv
    rw [← hlog]
    split
    · rename_i hb
      simp only [Bool.and_eq_true, Bool.not_eq_true'] at hb
      rw [List.mem_map]
      constructor
      · rintro ⟨w, hw, hwv⟩
        have := (List.mem_filter.mp hw).2
        rw [hwv, List.contains_eq_mem, Bool.not_eq_true', decide_eq_false_iff_not] at this
        exact ⟨hb.1, hb.2, this⟩
      · rintro ⟨_, _, hx⟩
        refine ⟨v, List.mem_filter.mpr ⟨hv, ?_⟩, rfl⟩
        rw [List.contains_eq_mem, Bool.not_eq_true', decide_eq_false_iff_not]
        exact hx
    · rename_i hb
      simp only [List.map_nil, List.not_mem_nil, false_iff]
      rintro ⟨h1, h2, _⟩
      exact hb (by simp [h1, h2])
  have heo := Ptb.eo_perm vars eqs
  have hvop := Ptb.vo_perm vars eqs
  rw [Ptb.linearize_none, Ptb.linearize_eq vars eqs shocks (some loglin) _ _ hm.distinct
    (fun i hi => List.mem_range.mp (heo.mem_iff.mp hi)) (fun j hj => List.mem_range.mp (hvop.mem_iff.mp hj)), Option.some.injEq] at hsys
  subst hsys
  dsimp only at hA hB hC hD hvo
  generalize hdd : dupdate (paramMapping free determ) (ssMap.map fun p => (p.1, p.2.graphReplace (paramMapping free determ))) = d at hA hB hC hD
  -- every matrix, entry by entry
  have hrows : ∀ k : Int, replaceRows d ((DROrder.fromModel vars eqs).varOrder.map fun j => columnScale vars (some loglin) (vars.getD j ⟨[], .ss, []⟩) j)
      ((DROrder.fromModel vars eqs).eqOrder.map fun i => (DROrder.fromModel vars eqs).varOrder.map fun j => Ptb.cell vars eqs shocks k i j) =
      (DROrder.fromModel vars eqs).eqOrder.map fun i => (DROrder.fromModel vars eqs).varOrder.map fun j =>
        ((Ptb.cell vars eqs shocks k i j).graphReplace d, (columnScale vars (some loglin) (vars.getD j ⟨[], .ss, []⟩) j).graphReplace d) := by
    intro k
    simp only [replaceRows, List.map_map]
    apply List.map_congr_left
    intro i _
    simp only [Function.comp_apply, List.zipWith_map, List.zipWith_self]
  rw [hrows] at hA hB hC
  have hgood : ∀ (par : Str → ℝ) (ssv : TSym → ℝ) (P : RealPath), AtSteady vars determ ssSol par ssv → (∀ n ∈ free, P.par n = par n) →
      ∀ s, ((∃ n, s = .par n ∧ (n ∈ free ∨ n ∈ dkeys determ)) ∨ ∃ v ∈ vars, s = .tv (toSS v)) → SSB.Good free P (SSB.atSS par ssv) d s := by
    intro par ssv P hs hP s hsym
    rw [← hdd]
    exact SSB.ssMap_good hm hs hP hk hv s hsym
  have hfree : ∀ s, ((∃ n, s = .par n ∧ (n ∈ free ∨ n ∈ dkeys determ)) ∨ ∃ v ∈ vars, s = .tv (toSS v)) →
      ∃ w, dget d s = some w ∧ ∀ q ∈ w.syms, ∃ n ∈ free, q = .par n := by
    intro s hsym
    rw [← hdd]
    exact SSB.ssMap_free hm hk hv s hsym
  have hcellsyms : ∀ (i : Nat) (x : TSym), i < eqs.length → ∀ q ∈ ((jacEntry shocks (eqs.getD i (.num 0)) x).graphReplace d).syms, ∃ n ∈ free, q = .par n := by
    intro i x hi
    refine SSB.free_replace _ fun s hs => hfree s (SSB.jac_syms hm _ ?_ x s hs)
    simp only [List.getD_eq_getElem?_getD, List.getElem?_eq_getElem hi, Option.getD_some]
    exact List.getElem_mem hi
  have hscalesyms : ∀ (j : Nat), j < vars.length →
      ∀ q ∈ ((columnScale vars (some loglin) (vars.getD j ⟨[], .ss, []⟩) j).graphReplace d).syms, ∃ n ∈ free, q = .par n := by
    intro j hj
    have hmem : vars.getD j ⟨[], .ss, []⟩ ∈ vars := by
      simp only [List.getD_eq_getElem?_getD, List.getElem?_eq_getElem hj, Option.getD_some]
      exact List.getElem_mem hj
    have hv1 : ∀ q ∈ ((SExpr.sym (.tv (toSS (vars.getD j ⟨[], .ss, []⟩)))).graphReplace d).syms, ∃ n ∈ free, q = .par n := by
      refine SSB.free_replace _ fun s hs => hfree s (.inr ⟨_, hmem, ?_⟩)
      simpa [SExpr.syms] using hs
    unfold columnScale
    split
    · simp [Scale.graphReplace, GScale.syms]
    · split
      · exact hv1
      · exact hv1
  have heolt : ∀ i ∈ (DROrder.fromModel vars eqs).eqOrder, i < eqs.length := fun i hi => List.mem_range.mp (heo.mem_iff.mp hi)
  have hvolt : ∀ j ∈ (DROrder.fromModel vars eqs).varOrder, j < vars.length := fun j hj => List.mem_range.mp (hvop.mem_iff.mp hj)
  have hel : (DROrder.fromModel vars eqs).eqOrder.length = eqs.length := by simpa using heo.length_eq
  have hvl : (DROrder.fromModel vars eqs).varOrder.length = vars.length := by simpa using hvop.length_eq
  have hrow : ∀ k : Int, ∀ row ∈ ((DROrder.fromModel vars eqs).eqOrder.map fun i => (DROrder.fromModel vars eqs).varOrder.map fun j =>
        ((Ptb.cell vars eqs shocks k i j).graphReplace d, (columnScale vars (some loglin) (vars.getD j ⟨[], .ss, []⟩) j).graphReplace d)),
      row.length = vars.length ∧ ∀ x ∈ row, ∀ s ∈ x.1.syms ++ x.2.syms, ∃ n ∈ free, s = .par n := by
    intro k row hrow
    obtain ⟨i, hi, rfl⟩ := List.mem_map.mp hrow
    refine ⟨by simp [hvl], ?_⟩
    intro x hx s hs
    obtain ⟨j, hj, rfl⟩ := List.mem_map.mp hx
    rcases List.mem_append.mp hs with hs | hs
    · exact hcellsyms i _ (heolt i hi) s hs
    · exact hscalesyms j (hvolt j hj) s hs
  refine ⟨(DROrder.fromModel vars eqs).eqOrder, heo, hvo ▸ hvop, ⟨by rw [hA]; simp [hel], by rw [hB]; simp [hel], by rw [hC]; simp [hel], by rw [hD]; simp [hel]⟩, ?_, ?_, ?_⟩
  · intro row hr
    rw [hA, hB, hC] at hr
    rcases List.mem_append.mp hr with hr | hr
    · rcases List.mem_append.mp hr with hr | hr
      · exact hrow _ row hr
      · exact hrow _ row hr
    · exact hrow _ row hr
  · intro row hr
    rw [hD, List.map_map] at hr
    obtain ⟨i, hi, rfl⟩ := List.mem_map.mp hr
    simp only [Function.comp_apply, List.map_map, List.length_map, true_and]
    intro x hx s hs
    obtain ⟨z, _, rfl⟩ := List.mem_map.mp hx
    exact hcellsyms i z (heolt i hi) s hs
  · intro par ssv P hs hP hsm S r i e hr he
    have hi : i < eqs.length := (List.getElem?_eq_some_iff.mp he).1
    have hei : eqs.getD i (.num 0) = e := by simp [List.getD_eq_getElem?_getD, he]
    have hemem := List.mem_of_getElem? he
    have hval : ∀ x : TSym, ((jacEntry shocks e x).graphReplace d).val P 0 = evalAt par ssv (jacEntry shocks e x) := fun x =>
      (SSB.good_replace (Q := SSB.atSS par ssv) _ fun s hs' => hgood par ssv P hs hP s (SSB.jac_syms hm e hemem x s hs')).2
    refine ⟨?_, ?_⟩
    · intro c j v hc hvj k X hX
      have hvmem := List.mem_of_getElem? hvj
      have hjv : vars.getD j ⟨[], .ss, []⟩ = v := by simp [List.getD_eq_getElem?_getD, hvj]
      rw [hvo] at hc
      refine ⟨((jacEntry shocks e (v.atT k)).graphReplace d, (columnScale vars (some loglin) v j).graphReplace d), ?_, ?_⟩
      · simp only [List.mem_cons, List.not_mem_nil, or_false, Prod.mk.injEq] at hX
        rcases hX with ⟨rfl, rfl⟩ | ⟨rfl, rfl⟩ | ⟨rfl, rfl⟩
        · rw [hA]; simp only [entryAt, List.getElem?_map, hr, hc, Option.map_some, Option.bind_some, Ptb.cell, hei, hjv]
        · rw [hB]; simp only [entryAt, List.getElem?_map, hr, hc, Option.map_some, Option.bind_some, Ptb.cell, hei, hjv]
        · rw [hC]; simp only [entryAt, List.getElem?_map, hr, hc, Option.map_some, Option.bind_some, Ptb.cell, hei, hjv]
      · have hscale : ((columnScale vars (some loglin) v j).graphReplace d).val P = promisedScale loglin v (ssv v) := by
          have hsc := Ptb.scale_eval vars loglin v j hvj ssv
          rw [hs.byName (toSS v) v rfl] at hsc
          rw [← hsc]
          have hv1 : ((SExpr.sym (.tv (toSS v))).graphReplace d).val P 0 = ssv (toSS v) :=
            (SSB.good_replace (Q := SSB.atSS par ssv) _ fun s hs' => hgood par ssv P hs hP s (.inr ⟨v, hvmem, by simpa [SExpr.syms] using hs'⟩)).2
          unfold columnScale
          split
          · rfl
          · split
            · exact hv1
            · show (if 0 < ((SExpr.sym (.tv (toSS v))).graphReplace d).val P 0 then ((SExpr.sym (.tv (toSS v))).graphReplace d).val P 0 else 1) = _
              rw [hv1]
              rfl
        have hDe := Ptb.deriv_entry par ssv hs.byName shocks loglin e v k (hsm e hemem) (hdisj v hvmem)
        dsimp only
        rw [hval, hscale]
        refine ⟨fun hlev => hDe.1 ?_, fun h1 h2 h3 h4 h5 => hDe.2 ?_ h5⟩
        · unfold promisedScale
          rw [if_neg]
          rintro ⟨h1, h2, h3⟩
          rw [hmemlog v hvmem] at h1
          rcases hlev with hh | hh | hh | hh | ⟨hh, hh'⟩
          · rw [hh] at h1; exact absurd h1.1 (by simp)
          · rw [hh] at h1; exact absurd h1.2.1 (by simp)
          · exact h1.2.2 hh
          · exact h2 hh
          · rcases h3 with h3 | h3
            · rw [hh] at h3; exact absurd h3 (by simp)
            · exact absurd h3 (not_lt.mpr hh')
        · unfold promisedScale
          rw [if_pos ⟨(hmemlog v hvmem).mpr ⟨h1, h2, h3⟩, fun h => absurd (h4.symm.trans h) (by decide), .inr h5⟩]
    · intro j s hj
      have hmem := List.mem_of_getElem? hj
      refine ⟨(jacEntry shocks e s).graphReplace d, ?_, ?_⟩
      · rw [hD]
        simp only [entryAt, List.getElem?_map, hr, hj, Option.map_some, Option.bind_some, hei]
      · rw [hval]
        have hd := DTT.diff_correct S s 0 0 (hsh s hmem) e (hsm e hemem)
        have hpath : S.path s.base s.asm (0 + 0) = 0 := by
          show (if (⟨s.base, .ss, s.asm⟩ : TSym) ∈ shocks.map toSS then 0 else _) = (0 : ℝ)
          rw [if_pos]
          exact List.mem_map.mpr ⟨s, hmem, rfl⟩
        rw [hpath] at hd
        have : evalAt par ssv (jacEntry shocks e s) = (e.diff (.tv s)).val S 0 := Ptb.jacEntry_val par ssv _ shocks e s 0 0
        rw [this]
        exact hd

/-- **C117** the steady state handed over is the declared one as a function of the free parameters, one entry per variable in the order of the
variables; a model declared linear is never log-linearised, otherwise exactly the variables not excluded are. -/
theorem C117_steady_state (vars : List TSym) (eqs : List SExpr) (shocks : List TSym) (free : List Str) (determ calib : List (Str × SExpr))
    (ssSol : List (Sym × SExpr)) (linear logLin : Bool) (exclude : Option (List Str)) (out : SSGOut)
    (hm : ClosedModel vars eqs shocks free determ ssSol)
    (h : statespaceFromGcn vars eqs shocks free determ calib ssSol linear logLin exclude = .ok out) :
    dkeys out.steadyState = vars.map (fun v => Sym.tv (toSS v)) ∧
    (∀ p ∈ out.steadyState, ∀ s ∈ p.2.syms, ∃ n ∈ free, s = .par n) ∧
    (∀ (par : Str → ℝ) (ssv : TSym → ℝ) (P : RealPath), AtSteady vars determ ssSol par ssv → (∀ n ∈ free, P.par n = par n) →
      ∀ v ∈ vars, ∃ w, dget out.steadyState (.tv (toSS v)) = some w ∧ w.val P 0 = ssv v) ∧
    (∀ v ∈ vars, v.base ∈ out.loglin ↔ logLin = true ∧ linear = false ∧ v.base ∉ exclude.getD []) := by
  obtain ⟨ssMap, sys, hk, hv, hsys, hpar, hss, hA, hB, hC, hD, hvo, hll⟩ := SSB.accepted hm.distinct h
  have hkeys : dkeys out.steadyState = vars.map (fun v => Sym.tv (toSS v)) := by
    rw [hss, ← hk]; simp [dkeys, Function.comp_def]
  have hent : ∀ p ∈ out.steadyState, ∃ v ∈ vars, ∃ w, dget ssSol (.tv (toSS v)) = some w ∧ p = (.tv (toSS v), w.graphReplace (paramMapping free determ)) := by
    intro p hp
    rw [hss] at hp
    obtain ⟨q, hq, rfl⟩ := List.mem_map.mp hp
    have hq1 : q.1 ∈ vars.map (fun v => Sym.tv (toSS v)) := hk ▸ List.mem_map.mpr ⟨q, hq, rfl⟩
    obtain ⟨v, hvv, hqv⟩ := List.mem_map.mp hq1
    exact ⟨v, hvv, q.2, by rw [hqv]; exact hv q hq, by rw [hqv]⟩
  refine ⟨hkeys, ?_, ?_, ?_⟩
  · intro p hp
    obtain ⟨v, hvv, w, hw, rfl⟩ := hent p hp
    refine SSB.free_replace w fun s hs => ?_
    obtain ⟨n, rfl, hn⟩ := hm.analytic v hvv w hw s hs
    obtain ⟨u, hu⟩ := Option.isSome_iff_exists.mp ((dget_isSome _ _).mpr (SSB.paramMapping_keys hn))
    exact ⟨u, hu, SSB.params_free hm.resolved (mem_of_dget _ _ _ hu)⟩
  · intro par ssv P hs hP v hvv
    have hvk : Sym.tv (toSS v) ∈ dkeys out.steadyState := by rw [hkeys]; exact List.mem_map.mpr ⟨v, hvv, rfl⟩
    obtain ⟨u, hu⟩ := Option.isSome_iff_exists.mp ((dget_isSome _ _).mpr hvk)
    refine ⟨u, hu, ?_⟩
    obtain ⟨v', hv', w, hw, he⟩ := hent _ (mem_of_dget _ _ _ hu)
    simp only [Prod.mk.injEq] at he
    obtain ⟨he1, rfl⟩ := he
    rw [← he1] at hw
    rw [hs.steady v hvv w hw]
    exact (SSB.good_replace (free := free) (P := P) (Q := SSB.atSS par (fun _ => 0)) w fun s hs' => by
      obtain ⟨n, rfl, hn⟩ := hm.analytic v hvv w hw s hs'
      exact SSB.params_good rfl hP hm.resolved hs.determ hn).2
  · intro v hvv
    rw [hll]
    split
    · rename_i hb
      simp only [Bool.and_eq_true, Bool.not_eq_true'] at hb
      rw [List.mem_map]
      constructor
      · rintro ⟨w, hw, hwv⟩
        have := (List.mem_filter.mp hw).2
        rw [hwv, List.contains_eq_mem, Bool.not_eq_true', decide_eq_false_iff_not] at this
        exact ⟨hb.1, hb.2, this⟩
      · rintro ⟨_, _, hx⟩
        refine ⟨v, List.mem_filter.mpr ⟨hvv, ?_⟩, rfl⟩
        rw [List.contains_eq_mem, Bool.not_eq_true', decide_eq_false_iff_not]
        exact hx
    · rename_i hb
      simp only [List.map_nil, List.not_mem_nil, false_iff]
      rintro ⟨h1, h2, _⟩
      exact hb (by simp [h1, h2])

/-! ### a steady state that mentions another variable -/

namespace SSB
/-- `k - 2*a`, `y - 3*k` with the steady state `y = 3*k[ss]`, `k = 2*a` -/
def xk : TSym := ⟨['k'], .t 0, []⟩
def xy : TSym := ⟨['y'], .t 0, []⟩
def kss : SExpr := .sym (.tv (toSS xk))
def ka : SExpr := .sym (.par ['a'])
def eqk : SExpr := .add (.sym (.tv xk)) (.mul (.num (-2)) ka)
/-- `y*y - 9*k*k` -/
def eqy : SExpr := .add (.mul (.sym (.tv xy)) (.sym (.tv xy))) (.mul (.num (-9)) (.mul (.sym (.tv xk)) (.sym (.tv xk))))
def declared : List (Sym × SExpr) := [(.tv (toSS xy), .mul (.num 3) kss), (.tv (toSS xk), .mul (.num 2) ka)]
def resolvedSS : List (Sym × SExpr) := [(.tv (toSS xy), .mul (.num 6) ka), (.tv (toSS xk), .mul (.num 2) ka)]
end SSB

/-- **C117 violated** (C117_analytic_violated): values given for `y` in terms of `k[ss]`, where `k` is found by propagation, are accepted, and
then `k[ss]` stays in the matrices, which are no functions of the parameters. (With the value of `k` written out they are.) -/
theorem C117_analytic_violated :
    propagateSS { ord := id, norm := id, solve := fun _ _ => some [.mul (.num 2) SSB.ka], simple := fun _ => true, flt := id } [(.tv (toSS SSB.xy), .mul (.num 3) SSB.kss)]
      [.add SSB.kss (.mul (.num (-2)) SSB.ka)] [SSB.xk, SSB.xy] = SSB.declared ∧
    (∃ out, statespaceFromGcn [SSB.xk, SSB.xy] [SSB.eqk, SSB.eqy] [] [['a']] [] [] SSB.declared false true none = .ok out ∧
      ∃ row ∈ out.B, ∃ x ∈ row, Sym.tv (toSS SSB.xk) ∈ x.1.syms) ∧
    (∃ out, statespaceFromGcn [SSB.xk, SSB.xy] [SSB.eqk, SSB.eqy] [] [['a']] [] [] SSB.resolvedSS false true none = .ok out ∧
      ∀ row ∈ out.B, ∀ x ∈ row, Sym.tv (toSS SSB.xk) ∉ x.1.syms ++ x.2.syms) := by
  refine ⟨by decide +kernel, ?_, ?_⟩
  · refine ⟨_, rfl, ?_⟩
    decide +kernel
  · refine ⟨_, rfl, ?_⟩
    decide +kernel

/-! ### non-vacuity -/

/-- a model with a deterministic parameter `b = 2*a`, whose steady state is `k = b`, `y = 3*b`: it is accepted, it is closed, and its steady state
at `a = 5` is `k = 10`, `y = 30` -/
example :
    let det : List (Str × SExpr) := [(['b'], .mul (.num 2) SSB.ka)]
    let sol : List (Sym × SExpr) := [(.tv (toSS SSB.xy), .mul (.num 3) (.sym (.par ['b']))), (.tv (toSS SSB.xk), .sym (.par ['b']))]
    ClosedModel [SSB.xk, SSB.xy] [SSB.eqk, SSB.eqy] [] [['a']] det sol ∧
    (∃ out, statespaceFromGcn [SSB.xk, SSB.xy] [SSB.eqk, SSB.eqy] [] [['a']] det [] sol false true (some [['y']]) = .ok out ∧ out.loglin = [['k']]) ∧
    AtSteady [SSB.xk, SSB.xy] det sol (fun n => if n = ['a'] then 5 else 10) (fun v => if v.base = ['k'] then 10 else 30) := by
  refine ⟨⟨by decide +kernel, by decide +kernel, ?_, ?_, ?_⟩, ⟨_, rfl, by decide +kernel⟩, ⟨?_, ?_, ?_⟩⟩
  · intro e he n hn
    left
    simp only [List.mem_cons, List.not_mem_nil, or_false] at he
    rcases he with rfl | rfl <;> simp [SSB.eqk, SSB.eqy, SSB.ka, SExpr.syms] at hn ⊢
    exact hn
  · intro p hp s hs
    simp only [List.mem_cons, List.not_mem_nil, or_false] at hp
    subst hp
    simp [SSB.ka, SExpr.syms] at hs ⊢
    exact hs
  · intro v hv w hw s hs
    refine ⟨['b'], ?_, .inr (by decide)⟩
    simp only [List.mem_cons, List.not_mem_nil, or_false] at hv
    rcases hv with rfl | rfl
    · have : w = .sym (.par ['b']) := by
        simpa [dget, SSB.xk, SSB.xy, toSS] using hw.symm
      subst this
      simpa [SExpr.syms] using hs
    · have : w = .mul (.num 3) (.sym (.par ['b'])) := by
        simpa [dget, SSB.xk, SSB.xy, toSS] using hw.symm
      subst this
      simpa [SExpr.syms] using hs
  · intro p hp
    simp only [List.mem_cons, List.not_mem_nil, or_false] at hp
    subst hp
    norm_num [evalAt, SExpr.val, SExpr.at, RealPath.val, Valuation.symAt, SSB.ka]
    decide
  · intro v hv w hw
    simp only [List.mem_cons, List.not_mem_nil, or_false] at hv
    rcases hv with rfl | rfl
    · have : w = .sym (.par ['b']) := by
        simpa [dget, SSB.xk, SSB.xy, toSS] using hw.symm
      subst this
      norm_num [evalAt, SExpr.val, SExpr.at, RealPath.val, Valuation.symAt, SSB.xk]
      decide
    · have : w = .mul (.num 3) (.sym (.par ['b'])) := by
        simpa [dget, SSB.xk, SSB.xy, toSS] using hw.symm
      subst this
      norm_num [evalAt, SExpr.val, SExpr.at, RealPath.val, Valuation.symAt, SSB.xy]
      rw [if_neg (by decide), if_neg (by decide)]
  · intro v w h
    simp only [h]

end GE
