import Verif.Model.DataFromPrior
import Mathlib.Data.Rat.Floor
import Mathlib.Tactic.Linarith
import Mathlib.Tactic.NormNum
/-! # C122: artificial data from the prior -/

namespace GE

/-- specification of the libraries: `n` draws are drawn; every draw has a trajectory simulated from it (`Sim`), with the observed states as columns and as
many rows as the data the graph was built with -/
structure DFPOps.Lawful {P α G : Type} (ops : DFPOps P α G) (Sim : P → List (Str × List α) → Prop) : Prop where
  rng : ops.rng.Lawful
  prior_length : ∀ m n g, (ops.prior m n g).1.length = n
  uncond_length : ∀ obj ps g, (ops.uncond obj ps g).1.length = ps.length
  uncond_sim : ∀ obj ps g (j : Nat) p t, ps[j]? = some p → (ops.uncond obj ps g).1[j]? = some t → Sim p t
  uncond_cols : ∀ obj ps g r, obj.fit = some r → ∀ t ∈ (ops.uncond obj ps g).1, t.map Prod.fst = obj.observed ∧ ∀ c ∈ t, c.2.length = r

/-- specification: the same columns with the same values, except that some are missing -/
def SameButMissing {α : Type} (full : List (Str × List α)) (data : List (Str × List (Option α))) : Prop :=
  List.Forall₂ (fun a b => a.1 = b.1 ∧ a.2.length = b.2.length ∧ ∀ k : Nat, k < a.2.length → b.2[k]? = some none ∨ b.2[k]? = some a.2[k]?) full data

/-- specification: how many values are missing -/
def missingCount {α : Type} (col : List (Option α)) : Nat := (col.filter Option.isNone).length

/-- specification: how many values of each column are to be missing -/
def wantedMissing (rows : Nat) (pct : Rat) : Nat := if 0 < pct then ⌊(rows : Rat) * pct⌋.toNat else 0

/-- specification: the keyword arguments `build_statespace_graph` documents, besides the data -/
def documentedGraphArguments : List Str := ["register_data", "missing_fill_value", "cov_jitter", "save_kalman_filter_outputs_in_idata",
  "add_norm_check", "add_bk_check", "add_solver_success_check", "solver_tol"].map String.toList

namespace DFP

theorem kw_eq : graphKwNames = documentedGraphArguments := by decide

variable {P α G : Type}

theorem set_length (idxs : List Nat) (col : List (Option α)) : (setMissing idxs col).length = col.length := by simp [setMissing]

theorem set_get (idxs : List Nat) (col : List (Option α)) (k : Nat) : (setMissing idxs col)[k]? = if k ∈ idxs then (col[k]?).map (fun _ => none) else col[k]? := by
  simp only [setMissing, List.getElem?_map, List.getElem?_zipIdx, Option.map_map]
  cases h : col[k]? with
  | none => simp
  | some v => by_cases hk : k ∈ idxs <;> simp [hk]

theorem count_set_aux (idxs : List Nat) : ∀ (col : List (Option α)) (b : Nat), (∀ x ∈ col, x ≠ none) →
    ((col.zipIdx b).map (fun p => if p.2 ∈ idxs then none else p.1)).countP Option.isNone = ((List.range' b col.length).filter (· ∈ idxs)).length
  | [], b, _ => by simp
  | x :: col, b, h => by
    simp only [List.zipIdx_cons, List.map_cons, List.countP_cons, List.length_cons, List.range'_succ, List.filter_cons]
    rw [count_set_aux idxs col (b + 1) fun y hy => h y (by simp [hy])]
    have hx : x.isNone = false := by cases x with
      | none => exact absurd rfl (h none (by simp))
      | some _ => rfl
    by_cases hb : b ∈ idxs <;> simp [hb, hx]

theorem count_set (idxs : List Nat) (col : List (Option α)) (hn : idxs.Nodup) (hl : ∀ i ∈ idxs, i < col.length) (h : ∀ x ∈ col, x ≠ none) :
    missingCount (setMissing idxs col) = idxs.length := by
  rw [missingCount, ← List.countP_eq_length_filter, setMissing, count_set_aux idxs col 0 h]
  refine List.Perm.length_eq ((List.perm_ext_iff_of_nodup ((List.nodup_range' (step := 1)).filter _) hn).mpr fun i => ?_)
  simp only [List.mem_filter, List.mem_range'_1, decide_eq_true_eq]
  exact ⟨fun h => h.2, fun h => ⟨⟨Nat.zero_le _, by simpa using hl i h⟩, h⟩⟩

theorem loop_spec {r : RngOps G} (hr : r.Lawful) (rows k : Nat) (hk : k ≤ rows) : ∀ (full : List (Str × List α)) (g : G), (∀ c ∈ full, c.2.length = rows) →
    SameButMissing full (missingLoop r rows k (full.map fun c => (c.1, c.2.map some)) g) ∧
    ∀ c ∈ missingLoop r rows k (full.map fun c => (c.1, c.2.map some)) g, missingCount c.2 = k ∧ c.2.length = rows
  | [], g, _ => ⟨.nil, by simp [missingLoop]⟩
  | (n, col) :: full, g, h => by
    obtain ⟨h1, h2⟩ := loop_spec hr rows k hk full (r.sample rows k g).2 fun c hc => h c (by simp [hc])
    have hl : col.length = rows := h (n, col) (by simp)
    simp only [List.map_cons, missingLoop]
    refine ⟨.cons ⟨rfl, by rw [set_length]; simp, fun j hj => ?_⟩ h1, ?_⟩
    · rw [set_get]
      have hj' : j < col.length := hj
      by_cases hm : j ∈ (r.sample rows k g).1
      · left; rw [if_pos hm]; simp [hj']
      · right; rw [if_neg hm]; simp [hj']
    · intro c hc
      rcases List.mem_cons.mp hc with rfl | hc
      · refine ⟨?_, by rw [set_length]; simpa using hl⟩
        rw [count_set _ _ (hr.sample_nodup rows k g hk) (fun i hi => by simpa [hl] using hr.sample_lt rows k g hk i hi)
          (by simp), hr.sample_length rows k g hk]
      · exact h2 c hc

theorem frame_rows (full : List (Str × List α)) (rows : Nat) (h : ∀ c ∈ full, c.2.length = rows) (hne : full ≠ []) :
    frameRows (full.map fun c => (c.1, c.2.map some)) = rows := by
  cases full with
  | nil => exact absurd rfl hne
  | cons c full => simpa [frameRows] using h c (by simp)

theorem same_refl (full : List (Str × List α)) : SameButMissing full (full.map fun c => (c.1, c.2.map some)) := by
  induction full with
  | nil => exact .nil
  | cons c full ih => exact .cons ⟨rfl, by simp, fun k hk => .inr (by simp [hk])⟩ ih

theorem add_spec {r : RngOps G} (hr : r.Lawful) (pct : Rat) (full : List (Str × List α)) (rows : Nat) (h : ∀ c ∈ full, c.2.length = rows) (g : G)
    {data : List (Str × List (Option α))} (hd : addMissing r pct (full.map fun c => (c.1, c.2.map some)) g = .ok data) :
    SameButMissing full data ∧ ∀ c ∈ data, missingCount c.2 = wantedMissing rows pct ∧ c.2.length = rows := by
  unfold addMissing at hd
  by_cases hp : 0 < pct
  · rw [if_pos hp] at hd
    dsimp only at hd
    by_cases hne : full = []
    · subst hne
      rw [if_neg (by simp)] at hd
      cases hd
      exact ⟨.nil, by simp [missingLoop]⟩
    · rw [frame_rows full rows h hne] at hd
      split at hd
      · cases hd
      · rename_i hk
        cases hd
        have hk' : (((rows : Rat) * pct).floor).toNat ≤ rows := by
          by_contra hlt
          exact hk ⟨by omega, by simpa using hne⟩
        have := loop_spec hr rows _ hk' full g h
        refine ⟨this.1, fun c hc => ⟨?_, (this.2 c hc).2⟩⟩
        rw [(this.2 c hc).1, wantedMissing, if_pos hp]
        rfl
  · rw [if_neg hp] at hd
    cases hd
    refine ⟨same_refl full, fun c hc => ?_⟩
    obtain ⟨c', hc', rfl⟩ := List.mem_map.mp hc
    refine ⟨?_, by simpa using h c' hc'⟩
    rw [wantedMissing, if_neg hp, missingCount]
    simp [List.filter_eq_nil_iff]

theorem same_names (full : List (Str × List α)) (data : List (Str × List (Option α))) (h : SameButMissing full data) :
    full.map Prod.fst = data.map Prod.fst := by
  induction h with
  | nil => rfl
  | cons hab _ ih => rw [List.map_cons, List.map_cons, hab.1, ih]

/-- the call, taken apart -/
structure Run (ops : DFPOps P α G) (obj : DFPState) (model : PMModel) (index : Option Nat) (nSamples : Nat) (pct : Rat) (kwargs : Option Kwargs) (g : G)
    (out : DFPOut P α) where
  obj1 : DFPState
  hbuilt : (if "data".toList ∉ model.nodes then buildGraph obj model (index.getD 180) (kwargs.getD []) else .ok (obj, model)) = Except.ok (obj1, out.used)
  hfit : obj1.fit ≠ none
  hdraws : out.draws = (ops.prior out.used nSamples g).1
  hpos : out.draws ≠ []
  hidx : out.paramIdx = (ops.rng.pick out.draws.length (ops.uncond obj1 out.draws (ops.prior out.used nSamples g).2).2).1
  hparams : out.draws[out.paramIdx]? = some out.params
  traj : List (Str × List α)
  htraj : (ops.uncond obj1 out.draws (ops.prior out.used nSamples g).2).1[out.paramIdx]? = some traj
  hdata : addMissing ops.rng pct (traj.map fun c => (c.1, c.2.map some))
    (ops.rng.pick out.draws.length (ops.uncond obj1 out.draws (ops.prior out.used nSamples g).2).2).2 = .ok out.data
  hobj : out.obj = { obj1 with fit := none }
  hcaller : out.caller = model

theorem run {ops : DFPOps P α G} {obj : DFPState} {model : PMModel} {index : Option Nat} {nSamples : Nat} {pct : Rat} {kwargs : Option Kwargs} {g : G}
    {out : DFPOut P α} (h : dataFromPrior ops obj model index nSamples pct kwargs g = .ok out) :
    Nonempty (Run ops obj model index nSamples pct kwargs g out) := by
  unfold dataFromPrior at h
  dsimp only at h
  split at h
  · cases h
  · rename_i obj1 new hb
    split at h
    · cases h
    · rename_i hf
      split at h
      · cases h
      · rename_i hl
        split at h
        · rename_i p traj hp ht
          split at h
          · cases h
          · rename_i data hd
            cases h
            exact ⟨{ obj1 := obj1, hbuilt := hb, hfit := hf, hdraws := rfl, hpos := by simpa using hl, hidx := rfl, hparams := hp, traj := traj, htraj := ht,
                     hdata := hd, hobj := rfl, hcaller := rfl }⟩
        · cases h

theorem build_ok {obj obj1 : DFPState} {m m1 : PMModel} {rows : Nat} {kw : Kwargs} (h : buildGraph obj m rows kw = .ok (obj1, m1)) :
    obj1 = { obj with fit := some rows } ∧ m1.nodes = m.nodes ++ graphNodes obj kw ∧ ∀ k ∈ dkeys kw, k ∈ graphKwNames := by
  unfold buildGraph at h
  split at h
  · cases h
  · rename_i hn
    cases h
    refine ⟨rfl, rfl, fun k hk => ?_⟩
    have := List.find?_eq_none.mp hn k hk
    simpa using this

end DFP

section
variable {P α G : Type} {ops : DFPOps P α G} {Sim : P → List (Str × List α) → Prop} {obj : DFPState} {model : PMModel} {index : Option Nat} {nSamples : Nat}
  {pct : Rat} {kwargs : Option Kwargs} {g : G} {out : DFPOut P α}

/-- **C122** The parameters and the data belong together: the returned parameters are those of one of the `n_samples` draws, the recorded number is the
number of that draw, and the returned data are a trajectory simulated from these very parameters, but for the missing values. -/
theorem C122_same_draw (hl : ops.Lawful Sim) (hdata : "data".toList ∉ model.nodes) (h : dataFromPrior ops obj model index nSamples pct kwargs g = .ok out) :
    out.draws.length = nSamples ∧ out.draws[out.paramIdx]? = some out.params ∧ ∃ full, Sim out.params full ∧ SameButMissing full out.data := by
  obtain ⟨R⟩ := DFP.run h
  have hb := R.hbuilt
  rw [if_pos hdata] at hb
  obtain ⟨ho, _, _⟩ := DFP.build_ok hb
  have hcols := hl.uncond_cols R.obj1 out.draws (ops.prior out.used nSamples g).2 (index.getD 180) (by rw [ho]) R.traj (List.mem_of_getElem? R.htraj)
  refine ⟨by rw [R.hdraws, hl.prior_length], R.hparams, R.traj, hl.uncond_sim _ _ _ _ _ _ R.hparams R.htraj, ?_⟩
  exact (DFP.add_spec hl.rng pct R.traj _ hcols.2 _ R.hdata).1

/-- **C122** The data frame: its columns are the observed states in the order of the model, its rows those of the index given, or 180 quarters, and
exactly `⌊rows · pct_missing⌋` values of every column are missing, none if the fraction is not positive. -/
theorem C122_missing (hl : ops.Lawful Sim) (hdata : "data".toList ∉ model.nodes) (h : dataFromPrior ops obj model index nSamples pct kwargs g = .ok out) :
    out.data.map Prod.fst = obj.observed ∧
    ∀ c ∈ out.data, c.2.length = index.getD 180 ∧ missingCount c.2 = wantedMissing (index.getD 180) pct := by
  obtain ⟨R⟩ := DFP.run h
  have hb := R.hbuilt
  rw [if_pos hdata] at hb
  obtain ⟨ho, _, _⟩ := DFP.build_ok hb
  have hcols := hl.uncond_cols R.obj1 out.draws (ops.prior out.used nSamples g).2 (index.getD 180) (by rw [ho]) R.traj (List.mem_of_getElem? R.htraj)
  obtain ⟨h1, h2⟩ := DFP.add_spec hl.rng pct R.traj _ hcols.2 _ R.hdata
  refine ⟨?_, fun c hc => ⟨(h2 c hc).2, (h2 c hc).1⟩⟩
  rw [← DFP.same_names _ _ h1, hcols.1, ho]

/-- **C122** When it fails: a call on a model without data succeeds exactly when the keyword arguments are ones the graph takes, there is at least one
draw, and not more values are to be missing than there are; so always for a fraction between 0 and 1. -/
theorem C122_accepts (hl : ops.Lawful Sim) (hdata : "data".toList ∉ model.nodes) (hobs : obj.observed ≠ []) :
    ((∃ out, dataFromPrior ops obj model index nSamples pct kwargs g = .ok out) ↔
      (∀ k ∈ dkeys (kwargs.getD []), k ∈ documentedGraphArguments) ∧ 0 < nSamples ∧ wantedMissing (index.getD 180) pct ≤ index.getD 180) ∧
    (0 ≤ pct → pct ≤ 1 → wantedMissing (index.getD 180) pct ≤ index.getD 180) := by
  rw [← DFP.kw_eq]
  refine ⟨⟨?_, ?_⟩, ?_⟩
  · rintro ⟨out, h⟩
    obtain ⟨R⟩ := DFP.run h
    have hb := R.hbuilt
    rw [if_pos hdata] at hb
    obtain ⟨ho, _, hk⟩ := DFP.build_ok hb
    refine ⟨hk, ?_, ?_⟩
    · have := R.hpos
      rw [R.hdraws] at this
      rw [← hl.prior_length out.used nSamples g]
      exact List.length_pos_iff.mpr this
    · obtain ⟨h1, h2⟩ := C122_missing hl hdata h
      cases hd : out.data with
      | nil => rw [hd] at h1; exact absurd h1.symm hobs
      | cons c rest =>
        obtain ⟨h3, h4⟩ := h2 c (by rw [hd]; simp)
        rw [← h4, ← h3]
        exact List.length_filter_le _ _
  · rintro ⟨hk, hn, hm⟩
    unfold dataFromPrior
    have hb : buildGraph obj model (index.getD 180) (kwargs.getD []) =
        .ok ({ obj with fit := some (index.getD 180) }, { nodes := model.nodes ++ graphNodes obj (kwargs.getD []) }) := by
      unfold buildGraph
      have : (dkeys (kwargs.getD [])).find? (fun k => k ∉ graphKwNames) = none := List.find?_eq_none.mpr fun k hk' => by simpa using hk k hk'
      rw [this]
    dsimp only
    rw [if_pos hdata, hb]
    dsimp only
    rw [if_neg (by simp)]
    generalize hnew : (PMModel.mk (model.nodes ++ graphNodes obj (kwargs.getD []))) = new
    generalize ho1 : ({ obj with fit := some (index.getD 180) } : DFPState) = obj1
    have hlen := hl.prior_length new nSamples g
    rw [if_neg (by omega)]
    generalize hd : ops.prior new nSamples g = d at hlen ⊢
    generalize ht : ops.uncond obj1 d.1 d.2 = t
    have htl : t.1.length = d.1.length := by rw [← ht]; exact hl.uncond_length _ _ _
    have hpk := hl.rng.pick_lt d.1.length t.2 (by omega)
    rw [List.getElem?_eq_getElem hpk, List.getElem?_eq_getElem (by omega : (ops.rng.pick d.1.length t.2).1 < t.1.length)]
    dsimp only
    have hcols := hl.uncond_cols obj1 d.1 d.2 (index.getD 180) (by rw [← ho1]) (t.1[(ops.rng.pick d.1.length t.2).1]'(by omega)) (by rw [ht]; exact List.getElem_mem _)
    have hadd : ∃ data, addMissing ops.rng pct ((t.1[(ops.rng.pick d.1.length t.2).1]'(by omega)).map fun c => (c.1, c.2.map some))
        (ops.rng.pick d.1.length t.2).2 = .ok data := by
      unfold addMissing
      by_cases hp : 0 < pct
      · rw [if_pos hp]
        dsimp only
        rw [DFP.frame_rows _ _ hcols.2 (fun h0 => hobs (by have := hcols.1; rw [h0, ← ho1] at this; exact this.symm))]
        rw [wantedMissing, if_pos hp] at hm
        rw [if_neg (fun hlt => absurd hm (Nat.not_le.mpr hlt.1))]
        exact ⟨_, rfl⟩
      · rw [if_neg hp]; exact ⟨_, rfl⟩
    obtain ⟨data, hdt⟩ := hadd
    rw [hdt]
    exact ⟨_, rfl⟩
  · intro _ h1
    rw [wantedMissing]
    split
    · have : ⌊((index.getD 180 : Nat) : Rat) * pct⌋ ≤ (index.getD 180 : Nat) := by
        have hle : ((index.getD 180 : Nat) : Rat) * pct ≤ ((index.getD 180 : Nat) : Rat) := by
          have h0 : (0 : Rat) ≤ ((index.getD 180 : Nat) : Rat) := by positivity
          nlinarith
        calc ⌊((index.getD 180 : Nat) : Rat) * pct⌋ ≤ ⌊((index.getD 180 : Nat) : Rat)⌋ := Int.floor_le_floor hle
          _ = (index.getD 180 : Nat) := by simp
      omega
    · exact Nat.zero_le _

/-- **C122** What the call leaves behind: the caller's PyMC model as it was, the state-space model without data, otherwise as it was, ready for its graph to be
built again. -/
theorem C122_unchanged (h : dataFromPrior ops obj model index nSamples pct kwargs g = .ok out) :
    out.caller = model ∧ out.obj = { obj with fit := none } ∧
    ∀ rows kw, (∀ k ∈ dkeys kw, k ∈ documentedGraphArguments) → "data".toList ∉ model.nodes →
      ∃ m, buildGraph out.obj out.caller rows kw = .ok ({ obj with fit := some rows }, m) ∧ m.nodes = model.nodes ++ graphNodes obj kw := by
  rw [← DFP.kw_eq]
  obtain ⟨R⟩ := DFP.run h
  have ho : out.obj = { obj with fit := none } := by
    rw [R.hobj]
    have hb := R.hbuilt
    split at hb
    · rw [(DFP.build_ok hb).1]
    · have : obj = R.obj1 := congrArg Prod.fst (Except.ok.inj hb)
      rw [← this]
  refine ⟨R.hcaller, ho, fun rows kw hk _ => ?_⟩
  rw [ho, R.hcaller]
  have : (dkeys kw).find? (fun k => k ∉ graphKwNames) = none := List.find?_eq_none.mpr fun k hk' => by simpa using hk k hk'
  unfold buildGraph
  rw [this]
  exact ⟨_, rfl, rfl⟩

/-- **C122** The checks: the model the draws come from is the caller's with the graph built with the caller's keyword arguments: a draw whose solution
fails is ruled out exactly if the caller asked for it. -/
theorem C122_checks (hdata : "data".toList ∉ model.nodes) (h : dataFromPrior ops obj model index nSamples pct kwargs g = .ok out) (n : Str) :
    n ∈ out.used.nodes ↔ n ∈ model.nodes ∨
      n = "data".toList ∧ dget (kwargs.getD []) "register_data".toList ≠ some false ∨
      n = "n_cycle_steps".toList ∧ obj.cyclic = true ∨
      (n = "deterministic_norm".toList ∨ n = "stochastic_norm".toList) ∧ dget (kwargs.getD []) "add_norm_check".toList ≠ some false ∨
      (n = "bk_satisfied".toList ∨ n = "bk_condition_satisfied".toList) ∧ dget (kwargs.getD []) "add_bk_check".toList = some true ∨
      (n = "policy_resid".toList ∨ n = "policy_resid_within_tol".toList) ∧ dget (kwargs.getD []) "add_solver_success_check".toList = some true := by
  obtain ⟨R⟩ := DFP.run h
  have hb := R.hbuilt
  rw [if_pos hdata] at hb
  obtain ⟨_, hn, _⟩ := DFP.build_ok hb
  have off : ∀ name : String, graphSwitch (kwargs.getD []) name true = true ↔ dget (kwargs.getD []) name.toList ≠ some false := by
    intro name; unfold graphSwitch; cases dget (kwargs.getD []) name.toList with
    | none => simp
    | some v => cases v <;> simp
  have on : ∀ name : String, graphSwitch (kwargs.getD []) name false = true ↔ dget (kwargs.getD []) name.toList = some true := by
    intro name; unfold graphSwitch; cases dget (kwargs.getD []) name.toList <;> simp
  have hif : ∀ (c : Bool) (l : List Str), n ∈ (if c then l else []) ↔ n ∈ l ∧ c = true := by intro c l; cases c <;> simp
  rw [hn, List.mem_append]
  refine or_congr_right ?_
  unfold graphNodes
  rw [List.mem_append, List.mem_append, List.mem_append, List.mem_append, hif, hif, hif, hif, hif, off, off, on, on]
  simp only [List.mem_cons, List.not_mem_nil, or_false, or_assoc]

/-- **C122, violated**: the defaults for the graph are written down but never used: without keyword arguments the graph is built without the check that the
model is solved, which the defaults ask for, so draws without a solution are not ruled out. Passed on as written they would make every call fail, since the
graph takes no steady-state penalty. -/
theorem C122_defaults_violated (hl : ops.Lawful Sim) (hdata : "data".toList ∉ model.nodes) (hres : "policy_resid_within_tol".toList ∉ model.nodes)
    (hobs : obj.observed ≠ []) (hn : 0 < nSamples) :
    dget dfpDefaults "add_solver_success_check".toList = some true ∧
    (∃ out, dataFromPrior ops obj model index nSamples 0 none g = .ok out ∧ "policy_resid_within_tol".toList ∉ out.used.nodes) ∧
    ∀ out, dataFromPrior ops obj model index nSamples 0 (some dfpDefaults) g ≠ .ok out := by
  refine ⟨by decide, ?_, ?_⟩
  · obtain ⟨out, h⟩ := (C122_accepts (ops := ops) (Sim := Sim) (index := index) (nSamples := nSamples) (pct := 0) (kwargs := none) (g := g) hl hdata hobs).1.mpr
      ⟨by simp [dkeys], hn, by simp [wantedMissing]⟩
    refine ⟨out, h, fun hm => ?_⟩
    rcases (C122_checks hdata h "policy_resid_within_tol".toList).mp hm with hm | hm | hm | hm | hm | hm
    · exact hres hm
    · exact absurd hm.1 (by decide)
    · exact absurd hm.1 (by decide)
    · exact absurd hm.1 (by decide)
    · exact absurd hm.1 (by decide)
    · have := hm.2
      simp [dget] at this
  · intro out h
    have := ((C122_accepts (ops := ops) (Sim := Sim) (index := index) (nSamples := nSamples) (pct := 0) (kwargs := some dfpDefaults) (g := g) hl hdata hobs).1.mp
      ⟨out, h⟩).1 "add_steady_state_penalty".toList (by decide)
    revert this
    decide

/-- **C122, violated**: the documentation says the PyMC model and the state-space model are changed as if the graph had been built with the new data: the
PyMC model still has no data, and the state-space model remembers none. -/
theorem C122_in_place_violated (hdata : "data".toList ∉ model.nodes) (h : dataFromPrior ops obj model index nSamples pct kwargs g = .ok out) :
    "data".toList ∉ out.caller.nodes ∧ out.obj.fit = none := by
  obtain ⟨h1, h2, _⟩ := C122_unchanged h
  exact ⟨by rw [h1]; exact hdata, by rw [h2]⟩

/-- **C122, violated**: a fraction that is not between 0 and 1 is not always refused: with ten rows 21/20 makes everything missing, and a negative one nothing. -/
theorem C122_range_violated (hl : ops.Lawful Sim) (hdata : "data".toList ∉ model.nodes) (hobs : obj.observed ≠ []) (hn : 0 < nSamples) :
    (∃ out, dataFromPrior ops obj model (some 10) nSamples (21 / 20) none g = .ok out ∧ ∀ c ∈ out.data, missingCount c.2 = 10) ∧
    (∃ out, dataFromPrior ops obj model (some 10) nSamples (-1) none g = .ok out ∧ ∀ c ∈ out.data, missingCount c.2 = 0) := by
  have w1 : wantedMissing 10 (21 / 20) = 10 := by decide +kernel
  have w2 : wantedMissing 10 (-1) = 0 := by decide +kernel
  constructor
  · obtain ⟨out, h⟩ := (C122_accepts (ops := ops) (Sim := Sim) (index := some 10) (nSamples := nSamples) (pct := 21 / 20) (kwargs := none) (g := g) hl hdata hobs).1.mpr
      ⟨by simp [dkeys], hn, by simp [w1]⟩
    exact ⟨out, h, fun c hc => by rw [((C122_missing hl hdata h).2 c hc).2]; exact w1⟩
  · obtain ⟨out, h⟩ := (C122_accepts (ops := ops) (Sim := Sim) (index := some 10) (nSamples := nSamples) (pct := -1) (kwargs := none) (g := g) hl hdata hobs).1.mpr
      ⟨by simp [dkeys], hn, by simp [w2]⟩
    exact ⟨out, h, fun c hc => by rw [((C122_missing hl hdata h).2 c hc).2]; exact w2⟩

end

namespace DFP

/-- a generator that always takes the first ones -/
def exRng : RngOps Unit := { pick := fun _ _ => (0, ()), sample := fun _ k _ => (List.range k, ()) }

theorem ex_rng : exRng.Lawful where
  pick_lt := fun _ _ h => h
  sample_length := fun _ _ _ _ => List.length_range
  sample_nodup := fun _ _ _ _ => List.nodup_range
  sample_lt := fun n k _ h i hi => by
    have : i < k := by simpa [exRng] using hi
    omega

/-- parameters are numbers, the data of a parameter is that number in every row -/
def exOps : DFPOps Nat Nat Unit where
  rng := exRng
  prior := fun _ n _ => (List.range n, ())
  uncond := fun obj ps _ => (ps.map fun p => obj.observed.map fun c => (c, List.replicate (obj.fit.getD 0) p), ())

/-- the libraries' side of the hypotheses can be met -/
theorem ex_lawful : exOps.Lawful fun p t => ∀ c ∈ t, ∀ x ∈ c.2, x = p where
  rng := ex_rng
  prior_length := fun _ _ _ => List.length_range
  uncond_length := fun _ _ _ => by simp [exOps]
  uncond_sim := fun obj ps g j p t hp ht c hc x hx => by
    simp only [exOps, List.getElem?_map, hp, Option.map_some] at ht
    cases ht
    obtain ⟨n, _, rfl⟩ := List.mem_map.mp hc
    exact (List.mem_replicate.mp hx).2
  uncond_cols := fun obj ps g r hr t ht => by
    obtain ⟨p, _, rfl⟩ := List.mem_map.mp ht
    refine ⟨by simp [Function.comp_def], fun c hc => ?_⟩
    obtain ⟨n, _, rfl⟩ := List.mem_map.mp hc
    simp [hr]

/-- a call with half of the values missing -/
example : ∃ out, dataFromPrior exOps { observed := [['Y']], cyclic := true, fit := none } { nodes := [['b']] } (some 4) 3 (1 / 2) none () = .ok out ∧
    ∀ c ∈ out.data, missingCount c.2 = 2 := by
  have hw : wantedMissing 4 (1 / 2) = 2 := by decide +kernel
  obtain ⟨out, h⟩ := (C122_accepts (index := some 4) (nSamples := 3) (pct := 1 / 2) (kwargs := none) (g := ()) (obj := { observed := [['Y']], cyclic := true, fit := none })
    (model := { nodes := [['b']] }) ex_lawful (by decide) (by decide)).1.mpr ⟨by simp [dkeys], by decide, hw.le.trans (by decide)⟩
  exact ⟨out, h, fun c hc => by rw [((C122_missing ex_lawful (by decide) h).2 c hc).2]; exact hw⟩

end DFP

end GE
