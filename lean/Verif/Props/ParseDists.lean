import Verif.Props.FileCalibration
/-! # C120, continued: which priors are loaded, and the priors of a `ParseResult` -/

namespace GE
open Gcn FCal

/-- the priors a file states, in the order of the file -/
def Gcn.GFile.priors (m : GFile) : List GDist := m.blocks.flatMap fun b => b.calibration.filterMap fun c => match c with | .prior d => some d | .eq _ => none

namespace FCal

/-- the priors of calibration statements -/
def calPriors (cs : List Calib) : List Dist := cs.filterMap fun c => match c with | .dist d => some d | .eq _ => none

theorem cal_priors (b : GBlock) :
    calPriors b.toBlk.calibration = (b.calibration.filterMap fun c => match c with | .prior d => some d | .eq _ => none).map GDist.toDist := by
  simp only [calPriors, GBlock.toBlk]
  induction b.calibration with
  | nil => rfl
  | cons c cs ih =>
    cases c with
    | eq e => simpa [GCal.toCalib] using ih
    | prior d => simpa [GCal.toCalib] using ih

theorem blocks_priors (m : GFile) : m.toMdl.blocks.flatMap (fun b => calPriors b.calibration) = m.priors.map GDist.toDist := by
  simp only [GFile.toMdl, GFile.priors]
  induction m.blocks with
  | nil => rfl
  | cons b bs ih => simp only [List.map_cons, List.flatMap_cons, List.map_append, ih, cal_priors]

/-- whether PreliZ builds the distribution -/
def Builds (pz : PzCall → Bool) (d : Dist) : Prop := ∃ c, toPreliz d = .ok c ∧ pz c = true

/-- the entry of the result a prior makes -/
def entry (d : Dist) : Option (PzCall × (Str × Option Rat × Bool × Option Str)) :=
  match toPreliz d with
  | .ok c => some (c, d.param, d.initial, d.wrapper.isSome, d.wrapper)
  | .error _ => none

theorem cal_spec (pz : PzCall → Bool) : ∀ (cs : List Calib) (acc),
    ((∃ r, distsFromCalibration pz cs acc = .ok r) ↔ ∀ d ∈ calPriors cs, Builds pz d) ∧
    ∀ r, distsFromCalibration pz cs acc = .ok r → ((dkeys acc).Nodup → (dkeys r).Nodup) ∧
      ∀ n, dget r n = (((calPriors cs).filter fun d => d.param = n).getLast?.bind entry).or (dget acc n)
  | [], acc => ⟨⟨fun _ d hd => (by cases hd), fun _ => ⟨_, rfl⟩⟩, fun r h => by cases h; exact ⟨id, fun n => rfl⟩⟩
  | .eq e :: cs, acc => cal_spec pz cs acc
  | .dist d :: cs, acc => by
    have hc : calPriors (.dist d :: cs) = d :: calPriors cs := rfl
    rw [hc]
    simp only [distsFromCalibration]
    cases hp : toPreliz d with
    | error e =>
      refine ⟨⟨fun ⟨_, h⟩ => (by cases h), fun h => ?_⟩, fun r h => by cases h⟩
      obtain ⟨c, hc, _⟩ := h d (by simp)
      rw [hp] at hc; cases hc
    | ok c =>
      dsimp only
      by_cases hz : pz c = true
      · rw [if_pos hz]
        obtain ⟨h1, h2⟩ := cal_spec pz cs (dset acc d.param (c, metadata d))
        refine ⟨h1.trans ⟨fun h d' hd' => ?_, fun h d' hd' => h d' (by simp [hd'])⟩, fun r hr => ?_⟩
        · rcases List.mem_cons.mp hd' with rfl | hd'
          · exact ⟨c, hp, hz⟩
          · exact h d' hd'
        · obtain ⟨h3, h4⟩ := h2 r hr
          refine ⟨fun h => h3 (dset_nodup _ _ _ h), fun n => ?_⟩
          rw [h4 n, dget_dset, List.filter_cons]
          by_cases hn : d.param = n
          · rw [if_pos hn, if_pos (by simpa using hn)]
            cases hl : (List.filter (fun d => decide (d.param = n)) (calPriors cs)).getLast? with
            | none =>
              rw [List.getLast?_eq_none_iff] at hl
              rw [hl]
              simp [entry, hp, metadata]
            | some y =>
              rw [List.getLast?_cons, hl]
              have hy : ∃ v, entry y = some v := by
                have hm := List.mem_of_getLast? hl
                obtain ⟨c', hc', _⟩ := h1.mp ⟨r, hr⟩ y (List.mem_filter.mp hm).1
                exact ⟨_, by simp only [entry, hc']; rfl⟩
              obtain ⟨v, hv⟩ := hy
              simp [hv]
          · rw [if_neg hn, if_neg (by simpa using hn)]
      · rw [if_neg hz]
        refine ⟨⟨fun ⟨_, h⟩ => (by cases h), fun h => ?_⟩, fun r h => by cases h⟩
        obtain ⟨c', hc', hz'⟩ := h d (by simp)
        rw [hp] at hc'; cases hc'; exact (hz hz').elim

theorem dget_reverse {ν : Type} (d : List (Str × ν)) (hn : (dkeys d).Nodup) (k : Str) : dget d.reverse k = dget d k := by
  have hr : (dkeys d.reverse).Nodup := by simpa [dkeys] using hn
  cases h : dget d k with
  | none =>
    rw [dget_eq_none] at h ⊢
    simpa [dkeys] using h
  | some v => exact dget_of_mem _ hr k v (by simpa using mem_of_dget _ _ _ h)

theorem entry_some {pz d} (h : Builds pz d) : ∃ v, entry d = some v := by
  obtain ⟨c', hc', _⟩ := h
  exact ⟨_, by simp only [entry, hc']; rfl⟩

theorem last_append {α β} (f : α → Option β) (l1 l2 : List α) (h : ∀ a ∈ l2, ∃ v, f a = some v) :
    (l1 ++ l2).getLast?.bind f = (l2.getLast?.bind f).or (l1.getLast?.bind f) := by
  rw [List.getLast?_append]
  cases hl : l2.getLast? with
  | none => simp
  | some y =>
    obtain ⟨v, hv⟩ := h y (List.mem_of_getLast? hl)
    simp [hv]

theorem model_spec (pz : PzCall → Bool) : ∀ (bs : List Blk) (acc),
    ((∃ r, distsFromModel pz bs acc = .ok r) ↔ ∀ d ∈ bs.flatMap fun b => calPriors b.calibration, Builds pz d) ∧
    ∀ r, distsFromModel pz bs acc = .ok r →
      ∀ n, dget r n = (((bs.flatMap fun b => calPriors b.calibration).filter fun d => d.param = n).getLast?.bind entry).or (dget acc n)
  | [], acc => ⟨⟨fun _ d hd => (by cases hd), fun _ => ⟨_, rfl⟩⟩, fun r h => by cases h; exact fun n => rfl⟩
  | b :: bs, acc => by
    simp only [distsFromModel, List.flatMap_cons]
    obtain ⟨h1, h2⟩ := cal_spec pz b.calibration []
    cases hb : distsFromCalibration pz b.calibration [] with
    | error e =>
      refine ⟨⟨fun ⟨_, h⟩ => (by cases h), fun h => ?_⟩, fun r h => by cases h⟩
      obtain ⟨r, hr⟩ := h1.mpr fun d hd => h d (by simp [hd])
      rw [hb] at hr; cases hr
    | ok rb =>
      dsimp only
      obtain ⟨h3, h4⟩ := model_spec pz bs (dupdate acc rb)
      obtain ⟨h5, h6⟩ := h2 rb hb
      refine ⟨h3.trans ⟨fun h d' hd' => ?_, fun h d' hd' => h d' (by simp only [List.mem_append]; exact .inr hd')⟩, fun r hr n => ?_⟩
      · rcases List.mem_append.mp hd' with hd' | hd'
        · exact h1.mp ⟨rb, hb⟩ d' hd'
        · exact h d' hd'
      · have hall := h3.mp ⟨r, hr⟩
        rw [h4 r hr n, List.filter_append, last_append entry, Option.or_assoc]
        · congr 1
          have hget : dget (dupdate acc rb) n = (dget rb n).or (dget acc n) := by
            rw [dget_dupdate, dget_reverse rb (h5 (by simp [dkeys]))]
          rw [hget, h6 n]
          simp [dget]
        · intro a ha
          exact entry_some (hall a (List.mem_filter.mp ha).1)

/-- every prior loaded was stated for that parameter and passed the test -/
theorem loaded_from (ok : Dist → Bool) (all : List Dist) : ∀ (bs : List Blk) (ps sd), (∀ b ∈ bs, ∀ d ∈ calPriors b.calibration, d ∈ all) →
    (∀ n p, dget ps n = some p → p ∈ all ∧ p.param = n ∧ ok p = true) →
    ∀ n p, dget (loadDists ok bs ps sd).1 n = some p → p ∈ all ∧ p.param = n ∧ ok p = true
  | [], ps, sd, _, h => h
  | b :: bs, ps, sd, hb, h => by
    refine loaded_from ok all bs _ _ (fun b' hb' => hb b' (by simp [hb'])) ?_
    have hcal : ∀ (cs : List Calib) (ps : List (Str × Dist)), (∀ d ∈ calPriors cs, d ∈ all) →
        (∀ n p, dget ps n = some p → p ∈ all ∧ p.param = n ∧ ok p = true) →
        ∀ n p, dget (cs.foldl (fun ps c => match c with | .dist d => if ok d then dset ps d.param d else ps | .eq _ => ps) ps) n = some p →
          p ∈ all ∧ p.param = n ∧ ok p = true := by
      intro cs
      induction cs with
      | nil => intro ps _ h; exact h
      | cons c cs ih =>
        intro ps hm h
        rw [List.foldl_cons]
        cases c with
        | eq e => exact ih ps (fun d hd => hm d hd) h
        | dist d =>
          refine ih _ (fun d' hd' => hm d' (by rw [show calPriors (.dist d :: cs) = d :: calPriors cs from rfl]; simp [hd'])) ?_
          dsimp only
          by_cases hok : ok d = true
          · rw [if_pos hok]
            intro n p hp
            rw [dget_dset] at hp
            split at hp
            · next hn => cases hp; exact ⟨hm _ (by rw [show calPriors (.dist d :: cs) = d :: calPriors cs from rfl]; simp), hn, hok⟩
            · exact h n p hp
          · rw [if_neg hok]; exact h
    exact hcal b.calibration ps (hb b (by simp)) h

end FCal

/-- **C120**: every prior `load_gcn_string` returns was stated in the file for that parameter, and PreliZ accepted it: a refused one is never
returned. -/
theorem C120_accepted (pz : PzCall → Bool) (text : List Char) (ts : List Tok) (m : GFile) (r : List (Str × Dist) × List (Str × ShockDist))
    (hs : SpellsToks text ts) (hf : IsFile ts m) (hl : LoadGcnDists pz text r) (n : Str) (p : Dist) (h : dget r.1 n = some p) :
    ∃ d ∈ m.priors, p = d.toDist ∧ d.param = n ∧ ∃ c, toPreliz p = .ok c ∧ pz c = true := by
  obtain ⟨m', hp, rfl⟩ := hl
  cases C107_unique text m m' ((C107_parse text m).2 ⟨ts, hs, hf⟩) hp
  obtain ⟨h1, h2, h3⟩ := loaded_from (acceptsDist pz) (m.priors.map GDist.toDist) m.toMdl.blocks [] [] (by
    intro b hb d hd
    rw [← blocks_priors]
    exact List.mem_flatMap.mpr ⟨b, hb, hd⟩) (fun n p h => by cases h) n p h
  obtain ⟨d, hd, rfl⟩ := List.mem_map.mp h1
  refine ⟨d, hd, rfl, h2, ?_⟩
  unfold acceptsDist at h3
  split at h3
  · next c hc => exact ⟨c, hc, h3⟩
  · cases h3

/-- **C120**: the priors of a `ParseResult` (`preprocess_gcn(text).distributions`). They are there exactly when PreliZ accepts every prior of the
file; then each parameter has the last prior stated for it, built as stated, with its name, starting value and wrapper, and no other parameter has
one. -/
theorem C120_parse_result (pz : PzCall → Bool) (m : GFile) :
    ((∃ r, distsFromModel pz m.toMdl.blocks [] = .ok r) ↔ ∀ d ∈ m.priors, ∃ c, toPreliz d.toDist = .ok c ∧ pz c = true) ∧
    ∀ r, distsFromModel pz m.toMdl.blocks [] = .ok r →
      (∀ n, (∀ d ∈ m.priors, d.param ≠ n) → dget r n = none) ∧
      ∀ l1 d l2, m.priors = l1 ++ d :: l2 → (∀ d' ∈ l2, d'.param ≠ d.param) →
        ∃ c, toPreliz d.toDist = .ok c ∧ dget r d.param = some (c, d.param, d.initial, d.wrapper.isSome, d.wrapper) := by
  obtain ⟨h1, h2⟩ := model_spec pz m.toMdl.blocks []
  rw [blocks_priors] at h1 h2
  have h1' : (∃ r, distsFromModel pz m.toMdl.blocks [] = .ok r) ↔ ∀ d ∈ m.priors, ∃ c, toPreliz d.toDist = .ok c ∧ pz c = true := by
    rw [h1]; simp [Builds]
  refine ⟨h1', fun r hr => ⟨fun n hn => ?_, fun l1 d l2 hm hl => ?_⟩⟩
  · rw [h2 r hr n, List.filter_eq_nil_iff.mpr]
    · simp [dget]
    · intro a ha
      obtain ⟨d, hd, rfl⟩ := List.mem_map.mp ha
      have := hn d hd
      exact fun hc => this (of_decide_eq_true hc)
  · obtain ⟨c, hc, _⟩ := h1'.mp ⟨r, hr⟩ d (by rw [hm]; simp)
    refine ⟨c, hc, ?_⟩
    rw [h2 r hr d.param, hm]
    simp only [List.map_append, List.map_cons, List.filter_append, List.filter_cons]
    have hp : d.toDist.param = d.param := rfl
    have hnil : (l2.map GDist.toDist).filter (fun d' => decide (d'.param = d.param)) = [] := by
      refine List.filter_eq_nil_iff.mpr fun a ha => ?_
      obtain ⟨d', hd', rfl⟩ := List.mem_map.mp ha
      have := hl d' hd'
      exact fun hc => this (of_decide_eq_true hc)
    rw [if_pos (by simp [hp]), hnil]
    rw [List.getLast?_append]
    simp only [List.getLast?_singleton, Option.some_or, Option.bind_some, entry, hc]
    rfl

/-- the file of `C120`'s example states one prior -/
example : fcFile.priors = [fcPrior] := rfl
example : ∃ r, distsFromModel (fun _ => true) fcFile.toMdl.blocks [] = .ok r :=
  (C120_parse_result _ fcFile).1.mpr fun d hd => by
    have : d = fcPrior := by simpa [GFile.priors, fcFile, fcBlock] using hd
    subst this
    exact ⟨_, rfl, rfl⟩

end GE
