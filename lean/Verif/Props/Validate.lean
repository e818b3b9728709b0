import Verif.Model.Validate
import Mathlib.Data.List.Count
import Mathlib.Data.List.Sort
/-! # C16, C17, C18: validation of parsed models -/

namespace GE

/-- the parameters a block's calibration defines, one entry per definition -/
def Blk.calibrated (b : Blk) : List Str := b.calibration.filterMap fun c =>
  match c with
  | .dist d => some d.param
  | .eq e => match e.lhs with | .par n => some n | _ => none

namespace Vld

theorem dup_count (mk : Str → VErr) (hinj : ∀ a b, mk a = mk b → a = b) (ns seen : List Str) (n : Str) :
    (dupLoop mk ns seen).count (mk n) = if n ∈ seen then ns.count n else ns.count n - 1 := by
  induction ns generalizing seen with
  | nil => simp [dupLoop]
  | cons a ns ih =>
    simp only [dupLoop, List.count_append, ih, List.mem_cons, List.count_cons]
    by_cases han : a = n
    · subst han
      by_cases hs : a ∈ seen
      · simp [hs]; omega
      · simp [hs]
    · have h1 : (n = a) = False := by simp [Ne.symm han]
      have h2 : ¬ (mk a = mk n) := fun h => han (hinj _ _ h)
      simp only [h1, false_or]
      have h3 : (if a ∈ seen then [mk a] else ([] : List VErr)).count (mk n) = 0 := by
        split
        · rw [List.count_eq_zero]; simpa using Ne.symm h2
        · rfl
      simp [h3, han]

theorem dup_mem (mk : Str → VErr) (ns seen : List Str) (e) (h : e ∈ dupLoop mk ns seen) : ∃ n ∈ ns, e = mk n := by
  induction ns generalizing seen with
  | nil => simp [dupLoop] at h
  | cons a ns ih =>
    simp only [dupLoop, List.mem_append] at h
    rcases h with h | h
    · split at h
      · simp at h; exact ⟨a, by simp, h⟩
      · simp at h
    · obtain ⟨n, hn, e⟩ := ih _ h; exact ⟨n, by simp [hn], e⟩

theorem dup_count_zero (mk : Str → VErr) (ns seen : List Str) (e) (h : ∀ n, e ≠ mk n) : (dupLoop mk ns seen).count e = 0 := by
  rw [List.count_eq_zero]
  intro hm
  obtain ⟨n, _, he⟩ := dup_mem mk ns seen e hm
  exact h n he

end Vld

open Vld

/-- **C16** per block: a control (shock, calibrated parameter) declared `k` times is reported `k - 1` times, so it is reported at all
exactly when it is declared more than once. -/
theorem C16_block_counts (b : Blk) (n : Str) :
    (validateBlock b).count (.dupControl n b.name) = (b.controls.map VarRef.name).count n - 1 ∧
    (validateBlock b).count (.dupShock n b.name) = (b.shocks.map VarRef.name).count n - 1 ∧
    (validateBlock b).count (.dupCalib n b.name) = b.calibrated.count n - 1 := by
  have w : ∀ (e : VErr), e.isError = true →
      ((if b.controls ≠ [] ∧ b.objective.isEmpty then [VErr.noObjective b.name] else []).count e = 0 ∧
      (if ¬ b.objective.isEmpty ∧ b.constraints.isEmpty then [VErr.noConstraints b.name] else []).count e = 0) := by
    intro e he
    constructor
    · split
      · rw [List.count_eq_zero]; simp; rintro rfl; simp [VErr.isError] at he
      · rfl
    · split
      · rw [List.count_eq_zero]; simp; rintro rfl; simp [VErr.isError] at he
      · rfl
  refine ⟨?_, ?_, ?_⟩
  · have := w (.dupControl n b.name) rfl
    simp only [validateBlock, List.count_append, this.1, this.2]
    rw [dup_count (VErr.dupControl · b.name) (by simp), dup_count_zero (VErr.dupShock · b.name) _ _ _ (by simp),
      dup_count_zero (VErr.dupCalib · b.name) _ _ _ (by simp)]
    simp
  · have := w (.dupShock n b.name) rfl
    simp only [validateBlock, List.count_append, this.1, this.2]
    rw [dup_count (VErr.dupShock · b.name) (by simp), dup_count_zero (VErr.dupControl · b.name) _ _ _ (by simp),
      dup_count_zero (VErr.dupCalib · b.name) _ _ _ (by simp)]
    simp
  · have := w (.dupCalib n b.name) rfl
    simp only [validateBlock, List.count_append, this.1, this.2]
    rw [dup_count (VErr.dupCalib · b.name) (by simp), dup_count_zero (VErr.dupShock · b.name) _ _ _ (by simp),
      dup_count_zero (VErr.dupControl · b.name) _ _ _ (by simp)]
    simp; rfl

/-- **C16** a block is reported as erroneous exactly when a control, a shock or a calibrated parameter is declared twice in it. -/
theorem C16_block_iff (b : Blk) :
    hasErrors (validateBlock b) = true ↔
      ¬ (b.controls.map VarRef.name).Nodup ∨ ¬ (b.shocks.map VarRef.name).Nodup ∨ ¬ b.calibrated.Nodup := by
  have pos : ∀ (l : List Str), ¬ l.Nodup ↔ ∃ n, 0 < l.count n - 1 := by
    intro l
    rw [List.nodup_iff_count_le_one]
    push Not
    constructor
    · rintro ⟨n, hn⟩; exact ⟨n, by omega⟩
    · rintro ⟨n, hn⟩; exact ⟨n, by omega⟩
  simp only [pos]
  constructor
  · intro h
    simp only [hasErrors, List.any_eq_true] at h
    obtain ⟨e, he, h2⟩ := h
    simp only [validateBlock, List.mem_append] at he
    rcases he with (((he | he) | he) | he) | he
    · obtain ⟨n, _, rfl⟩ := dup_mem _ _ _ _ he
      left; refine ⟨n, ?_⟩; rw [← (C16_block_counts b n).1, List.count_pos_iff]; simp [validateBlock, he]
    · obtain ⟨n, _, rfl⟩ := dup_mem _ _ _ _ he
      right; left; refine ⟨n, ?_⟩; rw [← (C16_block_counts b n).2.1, List.count_pos_iff]; simp [validateBlock, he]
    · obtain ⟨n, _, rfl⟩ := dup_mem _ _ _ _ he
      right; right; refine ⟨n, ?_⟩; rw [← (C16_block_counts b n).2.2, List.count_pos_iff]; simp [validateBlock, he]
    · split at he <;> simp at he; subst he; simp [VErr.isError] at h2
    · split at he <;> simp at he; subst he; simp [VErr.isError] at h2
  · intro h
    simp only [hasErrors, List.any_eq_true]
    rcases h with ⟨n, h⟩ | ⟨n, h⟩ | ⟨n, h⟩
    · exact ⟨.dupControl n b.name, by rw [← (C16_block_counts b n).1, List.count_pos_iff] at h; exact h, rfl⟩
    · exact ⟨.dupShock n b.name, by rw [← (C16_block_counts b n).2.1, List.count_pos_iff] at h; exact h, rfl⟩
    · exact ⟨.dupCalib n b.name, by rw [← (C16_block_counts b n).2.2, List.count_pos_iff] at h; exact h, rfl⟩

namespace Vld

/-- all (parameter, block) definitions of the model in order -/
def defsOf (m : Mdl) : List (Str × Str) := m.blocks.flatMap fun b => b.calibrated.map fun n => (n, b.name)

theorem group_get (l : List (Str × Str)) (d : List (Str × List Str)) (n : Str) :
    (dget (l.foldl (fun d p => dset d p.1 ((dget d p.1).getD [] ++ [p.2])) d) n).getD [] =
      (dget d n).getD [] ++ (l.filter fun p => p.1 = n).map Prod.snd := by
  induction l generalizing d with
  | nil => simp
  | cons p l ih =>
    rw [List.foldl_cons, ih, dget_dset]
    by_cases h : p.1 = n
    · subst h; simp
    · simp [h]

theorem group_nodup (l : List (Str × Str)) (d : List (Str × List Str)) (h : (dkeys d).Nodup) :
    (dkeys (l.foldl (fun d p => dset d p.1 ((dget d p.1).getD [] ++ [p.2])) d)).Nodup := by
  induction l generalizing d with
  | nil => exact h
  | cons p l ih => rw [List.foldl_cons]; exact ih _ (dset_nodup _ _ _ h)

theorem mem_paramDefinitions (m : Mdl) (n : Str) (bs : List Str) (h : (n, bs) ∈ paramDefinitions m) :
    bs = ((defsOf m).filter fun p => p.1 = n).map Prod.snd := by
  have hn : (dkeys (paramDefinitions m)).Nodup := group_nodup _ _ (by simp [dkeys])
  have := group_get (defsOf m) [] n
  have e : dget (paramDefinitions m) n = some bs := dget_of_mem _ hn _ _ h
  change (dget (paramDefinitions m) n).getD [] = _ at this
  rw [e] at this
  simpa [dget] using this

theorem block_mem (b : Blk) (e : VErr) (h : e ∈ validateBlock b) : (∀ n, e ≠ .dupBlock n) ∧ (∀ n bs, e ≠ .multiParam n bs) := by
  simp only [validateBlock, List.mem_append] at h
  rcases h with (((h | h) | h) | h) | h
  · obtain ⟨n, _, rfl⟩ := dup_mem _ _ _ _ h; simp
  · obtain ⟨n, _, rfl⟩ := dup_mem _ _ _ _ h; simp
  · obtain ⟨n, _, rfl⟩ := dup_mem _ _ _ _ h; simp
  · split at h <;> simp at h; subst h; simp
  · split at h <;> simp at h; subst h; simp

theorem blocks_count_zero (m : Mdl) (e : VErr) (h : ∀ b, e ∉ validateBlock b) : (m.blocks.flatMap validateBlock).count e = 0 := by
  rw [List.count_eq_zero, List.mem_flatMap]
  rintro ⟨b, _, hb⟩; exact h b hb

end Vld

/-- **C16** per model: a block name used `k` times is reported `k - 1` times. -/
theorem C16_block_names (m : Mdl) (n : Str) :
    (validateModel m).count (.dupBlock n) = (m.blocks.map Blk.name).count n - 1 := by
  have h1 := blocks_count_zero m (.dupBlock n) fun b hb => (block_mem b _ hb).1 n rfl
  have h2 : ((paramDefinitions m).filterMap fun p => if p.2.length > 1 then some (VErr.multiParam p.1 p.2) else none).count (.dupBlock n) = 0 := by
    rw [List.count_eq_zero, List.mem_filterMap]
    rintro ⟨p, _, hp⟩; split at hp <;> simp at hp
  simp only [validateModel, List.count_append, h1, h2]
  rw [dup_count VErr.dupBlock (by simp)]
  simp

/-- **C16** per model: a parameter is reported (once, with the names of all blocks defining it, in order) exactly when it is defined
more than once in the model. -/
theorem C16_parameters (m : Mdl) (n : Str) (bs : List Str) :
    (.multiParam n bs ∈ validateModel m ↔
      bs = ((m.blocks.flatMap fun b => b.calibrated.map fun n => (n, b.name)).filter fun p => p.1 = n).map Prod.snd ∧ 2 ≤ bs.length) ∧
    (validateModel m).count (.multiParam n bs) ≤ 1 := by
  have h1 := blocks_count_zero m (.multiParam n bs) fun b hb => (block_mem b _ hb).2 n bs rfl
  have h2 := dup_count_zero VErr.dupBlock (m.blocks.map Blk.name) [] (.multiParam n bs) (by simp)
  have hn : (dkeys (paramDefinitions m)).Nodup := group_nodup _ _ (by simp [dkeys])
  constructor
  · simp only [validateModel, List.mem_append, List.mem_filterMap]
    constructor
    · rintro ((h | h) | ⟨p, hp, h⟩)
      · rw [← List.count_pos_iff, h1] at h; simp at h
      · rw [← List.count_pos_iff, h2] at h; simp at h
      · split at h
        · simp at h
          obtain ⟨rfl, rfl⟩ := h
          exact ⟨mem_paramDefinitions m p.1 p.2 hp, by omega⟩
        · simp at h
    · rintro ⟨rfl, hlen⟩
      right
      have hg := group_get (defsOf m) [] n
      change (dget (paramDefinitions m) n).getD [] = _ at hg
      change (dget (paramDefinitions m) n).getD [] = [] ++ ((m.blocks.flatMap fun b => b.calibrated.map fun n => (n, b.name)).filter fun p => p.1 = n).map Prod.snd at hg
      rw [List.nil_append] at hg
      rw [← hg] at hlen ⊢
      cases hd : dget (paramDefinitions m) n with
      | none => rw [hd] at hlen; simp at hlen
      | some v =>
        rw [hd] at hlen
        simp only [Option.getD_some] at hlen ⊢
        exact ⟨(n, v), mem_of_dget _ _ _ hd, by rw [if_pos (show v.length > 1 from hlen)]⟩
  · simp only [validateModel, List.count_append, h1, h2, Nat.zero_add]
    have gen : ∀ d : List (Str × List Str), (dkeys d).Nodup →
        (d.filterMap fun p => if p.2.length > 1 then some (VErr.multiParam p.1 p.2) else none).count (.multiParam n bs) ≤ 1 ∧
        (n ∉ dkeys d → (d.filterMap fun p => if p.2.length > 1 then some (VErr.multiParam p.1 p.2) else none).count (.multiParam n bs) = 0) := by
      intro d hd
      refine ⟨?_, ?_⟩
      · induction d with
        | nil => simp
        | cons p d ih =>
          simp only [dkeys, List.map_cons, List.nodup_cons] at hd
          by_cases hp : p.1 = n
          · have hz : (d.filterMap fun p => if p.2.length > 1 then some (VErr.multiParam p.1 p.2) else none).count (.multiParam n bs) = 0 := by
              rw [List.count_eq_zero, List.mem_filterMap]
              rintro ⟨q, hq, h⟩
              split at h <;> simp at h
              apply hd.1
              rw [hp, ← h.1]; exact List.mem_map_of_mem hq
            rw [List.filterMap_cons]
            split
            · omega
            · rw [List.count_cons, hz]; split <;> simp
          · rw [List.filterMap_cons]
            split
            · exact ih hd.2
            · rename_i w hw
              split at hw <;> simp at hw
              subst hw
              rw [List.count_cons]
              have := ih hd.2
              have hne : ¬ (VErr.multiParam p.1 p.2 = .multiParam n bs) := by simp [hp]
              simp only [beq_iff_eq, hne, if_false]; omega
      · intro hnot
        rw [List.count_eq_zero, List.mem_filterMap]
        rintro ⟨q, hq, h⟩
        split at h <;> simp at h
        exact hnot (by rw [← h.1]; exact List.mem_map_of_mem hq)
    exact (gen _ hn).1

/-- **C16** a model is reported as erroneous exactly when some block declares a control, shock or calibrated parameter twice, or two
blocks share their name, or a parameter is defined twice in the model. -/
theorem C16_model_iff (m : Mdl) :
    hasErrors (validateModel m) = true ↔
      (∃ b ∈ m.blocks, ¬ (b.controls.map VarRef.name).Nodup ∨ ¬ (b.shocks.map VarRef.name).Nodup ∨ ¬ b.calibrated.Nodup) ∨
      ¬ (m.blocks.map Blk.name).Nodup ∨ ¬ (m.blocks.flatMap Blk.calibrated).Nodup := by
  have hsplit : hasErrors (validateModel m) = true ↔ (∃ b ∈ m.blocks, hasErrors (validateBlock b) = true) ∨
      (∃ n, .dupBlock n ∈ validateModel m) ∨ ∃ n bs, .multiParam n bs ∈ validateModel m := by
    simp only [hasErrors, List.any_eq_true]
    constructor
    · rintro ⟨e, he, h⟩
      have he' := he
      simp only [validateModel, List.mem_append, List.mem_flatMap, List.mem_filterMap] at he
      rcases he with (⟨b, hb, he⟩ | he) | ⟨p, hp, he⟩
      · exact .inl ⟨b, hb, e, he, h⟩
      · obtain ⟨n, _, rfl⟩ := dup_mem _ _ _ _ he; exact .inr (.inl ⟨n, he'⟩)
      · split at he <;> simp at he; subst he; exact .inr (.inr ⟨_, _, he'⟩)
    · rintro (⟨b, hb, e, he, h⟩ | ⟨n, h⟩ | ⟨n, bs, h⟩)
      · exact ⟨e, by simp only [validateModel, List.mem_append, List.mem_flatMap]; exact .inl (.inl ⟨b, hb, he⟩), h⟩
      · exact ⟨_, h, rfl⟩
      · exact ⟨_, h, rfl⟩
  rw [hsplit]
  refine or_congr ?_ (or_congr ?_ ?_)
  · exact exists_congr fun b => and_congr_right fun _ => C16_block_iff b
  · rw [List.nodup_iff_count_le_one]
    push Not
    refine exists_congr fun n => ?_
    rw [← List.count_pos_iff, C16_block_names]
    omega
  · rw [List.nodup_iff_count_le_one]
    push Not
    refine exists_congr fun n => ?_
    have hlen : ∀ bl : List Blk, (((bl.flatMap fun b => b.calibrated.map fun n => (n, b.name)).filter fun p => p.1 = n).map Prod.snd).length =
        (bl.flatMap Blk.calibrated).count n := by
      intro bl
      rw [List.length_map]
      induction bl with
      | nil => rfl
      | cons b bl ih =>
        rw [List.flatMap_cons, List.flatMap_cons, List.filter_append, List.length_append, ih, List.count_append]
        congr 1
        rw [List.filter_map, List.length_map, List.count, List.countP_eq_length_filter]
        congr 1
        apply List.filter_congr
        intro x _
        by_cases hx : x = n <;> simp [hx]
    constructor
    · rintro ⟨bs, h⟩
      obtain ⟨rfl, h2⟩ := (C16_parameters m n bs).1.mp h
      rw [hlen] at h2; exact h2
    · intro h
      refine ⟨_, (C16_parameters m n _).1.mpr ⟨rfl, ?_⟩⟩
      rw [hlen]; exact h

/-! ## C17 -/

/-- **C17** is violated: `preprocess` gives the same outcome with and without validation — whatever the parser returns. -/
theorem C17_validate_ignored {σ : Type} (parse : Str → Except σ Mdl) (source : Str) :
    preprocess parse source true = preprocess parse source false := by
  unfold preprocess
  cases parse source with
  | error e => rfl
  | ok ast => simp [resultValidate]

/-- **C17** is violated: every model with semantic errors is accepted by `preprocess(source, validate=True)`. -/
theorem C17_semantic_errors_accepted {σ : Type} (parse : Str → Except σ Mdl) (source : Str) (m : Mdl) (h : parse source = .ok m) :
    preprocess parse source true = .ok m := by
  rw [C17_validate_ignored]; simp [preprocess, h]

/-- **C17** what does hold: syntax errors are passed on, and calling `.validate()` on the result raises exactly when validation found an
error-level problem — the first one in the list. -/
theorem C17_explicit_validate_partial {σ : Type} (parse : Str → Except σ Mdl) (source : Str) (v : Bool) :
    (∀ e, parse source = .error e → preprocess parse source v = .error (.grammar e)) ∧
    (∀ m, (∃ e, resultValidate m true = .error e) ↔ ∃ e ∈ fullValidation m [] [], e.isError = true) ∧
    (∀ m e, resultValidate m true = .error e → ∃ l1 l2, fullValidation m [] [] = l1 ++ e :: l2 ∧ e.isError = true ∧ ∀ w ∈ l1, w.isError = false) := by
  refine ⟨fun e h => by simp [preprocess, h], ?_, ?_⟩
  · intro m
    simp only [resultValidate, hasErrors, raiseFirst]
    by_cases h : (fullValidation m [] []).any VErr.isError = true
    · rw [if_pos (by simp [h])]
      have h' := h
      rw [List.any_eq_true] at h'
      refine ⟨fun _ => h', fun _ => ?_⟩
      cases hf : (fullValidation m [] []).find? VErr.isError with
      | none => rw [List.find?_eq_none] at hf; obtain ⟨e, he, h2⟩ := h'; exact absurd h2 (hf e he)
      | some e => exact ⟨e, rfl⟩
    · rw [if_neg (by simp [h])]
      rw [List.any_eq_true] at h
      constructor
      · rintro ⟨e, he⟩; cases he
      · intro h2; exact absurd h2 h
  · intro m e h
    simp only [resultValidate, raiseFirst] at h
    split at h
    · cases hf : (fullValidation m [] []).find? VErr.isError with
      | none => rw [hf] at h; cases h
      | some e' =>
        rw [hf] at h
        simp only at h
        cases h
        obtain ⟨h1, l1, l2, h2, h3⟩ := List.find?_eq_some_iff_append.mp hf
        exact ⟨l1, l2, h2, h1, fun w hw => by simpa using h3 w hw⟩
    · cases h

/-- non-vacuity: a block with a control declared twice has semantic errors -/
example : hasErrors (fullValidation { blocks := [{ name := ['B'], controls := [⟨['x'], .t 0⟩, ⟨['x'], .t 0⟩] }] } [] []) = true := by
  decide

/-! ## C18 -/

namespace Vld

theorem strLe_trans (a b c : Str) (h1 : strLe a b = true) (h2 : strLe b c = true) : strLe a c = true := by
  simp only [strLe, decide_eq_true_eq] at *
  exact List.le_trans h1 h2

theorem strLe_total (a b : Str) : (strLe a b || strLe b a) = true := by
  simp only [strLe, Bool.or_eq_true, decide_eq_true_eq]
  exact List.le_total a b

theorem nodup_eraseDups : ∀ (k : Nat) (l : List Str), l.length ≤ k → l.eraseDups.Nodup
  | _, [], _ => by simp
  | 0, _ :: _, h => by simp at h
  | k + 1, a :: l, h => by
    rw [List.eraseDups_cons, List.nodup_cons]
    refine ⟨by simp, nodup_eraseDups k _ ?_⟩
    have := List.length_filter_le (fun b => !b == a) l
    simp at h; omega

theorem missing_spec (used defined ext : List Str) :
    (∀ n, n ∈ sortedMissing used defined ext ↔ n ∈ used ∧ n ∉ defined ∧ n ∉ ext) ∧
    (sortedMissing used defined ext).Nodup ∧ (sortedMissing used defined ext).Pairwise (fun a b => strLe a b = true) := by
  refine ⟨?_, ?_, ?_⟩
  · intro n; simp [sortedMissing, List.mem_mergeSort]
  · rw [sortedMissing, (List.mergeSort_perm _ _).nodup_iff]
    exact List.Nodup.filter _ (nodup_eraseDups _ _ (Nat.le_refl _))
  · have := List.pairwise_mergeSort (le := strLe) strLe_trans strLe_total ((used.eraseDups).filter fun n => n ∉ defined ∧ n ∉ ext)
    exact this

end Vld

/-- the variables a model declares: controls, shocks, and single variables on the left of a definition, identity or objective -/
def Mdl.declares (m : Mdl) (n : Str) : Prop :=
  ∃ b ∈ m.blocks, (∃ v ∈ b.controls, v.name = n) ∨ (∃ v ∈ b.shocks, v.name = n) ∨
    ∃ e ∈ b.definitions ++ b.identities ++ b.objective, ∃ t, e.lhs = .var n t

/-- **C18** exact warnings: a name is warned about exactly when it occurs on the *right-hand side* of some equation and is neither declared
nor external; every such name once, in alphabetical order. The claim says "occurs in some equation": see
`C18_left_hand_side_missed`. -/
theorem C18_right_hand_sides_partial (m : Mdl) (ext : List Str) :
    ∃ ns : List Str, checkUndefinedVars m ext = ns.map .undefVar ∧ ns.Nodup ∧ ns.Pairwise (fun a b => strLe a b = true) ∧
      ∀ n, n ∈ ns ↔ (∃ b ∈ m.blocks, ∃ e ∈ b.equations, ∃ o ∈ e.rhs.vars, o.1 = n) ∧ ¬ m.declares n ∧ n ∉ ext := by
  obtain ⟨h1, h2, h3⟩ := missing_spec (usedVars m) (definedVars m) ext
  refine ⟨_, rfl, h2, h3, ?_⟩
  intro n
  rw [h1]
  refine and_congr ?_ (and_congr_left fun _ => not_congr ?_)
  · simp only [usedVars, Blk.equations, List.mem_flatMap, List.mem_map, List.mem_append]
    constructor
    · rintro ⟨b, hb, e, he, o, ho, rfl⟩; exact ⟨b, hb, e, by tauto, o, ho, rfl⟩
    · rintro ⟨b, hb, e, he, o, ho, rfl⟩; exact ⟨b, hb, e, by tauto, o, ho, rfl⟩
  · have hdef : ∀ e : Eqn, e.definedVar = some n ↔ ∃ t, e.lhs = .var n t := by
      intro e
      unfold Eqn.definedVar
      cases e.lhs <;> simp
    simp only [definedVars, Mdl.declares, List.mem_flatMap, List.mem_map, List.mem_append, List.mem_filterMap, hdef]
    refine exists_congr fun b => and_congr_right fun _ => ?_
    constructor
    · rintro (((h | h) | ⟨e, he, h⟩) | ⟨e, he, h⟩)
      · exact .inl h
      · exact .inr (.inl h)
      · exact .inr (.inr ⟨e, .inl he, h⟩)
      · exact .inr (.inr ⟨e, .inr he, h⟩)
    · rintro (h | h | ⟨e, he | he, h⟩)
      · exact .inl (.inl (.inl h))
      · exact .inl (.inl (.inr h))
      · exact .inl (.inr ⟨e, he, h⟩)
      · exact .inr ⟨e, he, h⟩

/-- **C18** is violated for left-hand sides: in a model whose only equation is the constraint `C[] + I[] = 1` nothing declares `C` or
`I`, yet there is no warning. -/
theorem C18_left_hand_side_missed :
    let m : Mdl := { blocks := [{ name := ['B']
                                  constraints := [{ lhs := .bin .add (.var ['C'] (.t 0)) (.var ['I'] (.t 0)), rhs := .num 1 }] }] }
    checkUndefinedVars m [] = [] ∧ ¬ m.declares ['C'] ∧
      ∃ b ∈ m.blocks, ∃ e ∈ b.equations, ∃ o ∈ e.vars, o.1 = ['C'] := by
  refine ⟨by decide +kernel, by simp [Mdl.declares], ?_⟩
  simp [Blk.equations, Eqn.vars, Expr.vars]

/-- **C18** for parameters both sides are searched: a parameter is warned about exactly when it occurs in a definition, objective,
constraint or identity and no calibration item defines it. -/
theorem C18_parameters (m : Mdl) (ext : List Str) :
    ∃ ns : List Str, checkUndefinedParams m ext = ns.map .undefParam ∧ ns.Nodup ∧ ns.Pairwise (fun a b => strLe a b = true) ∧
      ∀ n, n ∈ ns ↔ (∃ b ∈ m.blocks, ∃ e ∈ b.equations, n ∈ e.lhs.pars ∨ n ∈ e.rhs.pars) ∧
        (∀ b ∈ m.blocks, n ∉ b.calibrated) ∧ n ∉ ext := by
  obtain ⟨h1, h2, h3⟩ := missing_spec (usedParams m) (calibratedParams m) ext
  refine ⟨_, rfl, h2, h3, ?_⟩
  intro n
  rw [h1]
  refine and_congr ?_ (and_congr_left fun _ => ?_)
  · simp only [usedParams, Blk.equations, List.mem_flatMap, List.mem_append]
    constructor
    · rintro ⟨b, hb, e, he, h⟩; exact ⟨b, hb, e, by tauto, h⟩
    · rintro ⟨b, hb, e, he, h⟩; exact ⟨b, hb, e, by tauto, h⟩
  · simp only [calibratedParams, List.mem_flatMap, not_exists, not_and]; rfl

theorem dupLoop_kind (mk : Str → VErr) (x : VErr) (hx : ∀ n, mk n ≠ x) (ns seen : List Str) : x ∉ dupLoop mk ns seen := by
  induction ns generalizing seen with
  | nil => simp [dupLoop]
  | cons n ns ih =>
    unfold dupLoop
    rw [List.mem_append]
    rintro (h | h)
    · split at h
      · exact hx n (List.mem_singleton.1 h).symm
      · cases h
    · exact ih _ h

theorem validateModel_kind (m : Mdl) (n : Str) : VErr.undefVar n ∉ validateModel m ∧ VErr.undefParam n ∉ validateModel m := by
  have key : ∀ x : VErr, (x = .undefVar n ∨ x = .undefParam n) → x ∉ validateModel m := by
    intro x hx hm
    unfold validateModel at hm
    simp only [List.mem_append, List.mem_flatMap, List.mem_filterMap] at hm
    rcases hm with (⟨b, _, hb⟩ | hm) | ⟨p, _, hp⟩
    · unfold validateBlock at hb
      simp only [List.mem_append] at hb
      rcases hb with (((hb | hb) | hb) | hb) | hb
      · exact dupLoop_kind _ x (by rcases hx with rfl | rfl <;> simp) _ _ hb
      · exact dupLoop_kind _ x (by rcases hx with rfl | rfl <;> simp) _ _ hb
      · exact dupLoop_kind _ x (by rcases hx with rfl | rfl <;> simp) _ _ hb
      · split at hb
        · rcases hx with rfl | rfl <;> simp at hb
        · cases hb
      · split at hb
        · rcases hx with rfl | rfl <;> simp at hb
        · cases hb
    · exact dupLoop_kind _ x (by rcases hx with rfl | rfl <;> simp) _ _ hm
    · split at hp
      · rcases hx with rfl | rfl <;> simp at hp
      · cases hp
  exact ⟨key _ (.inl rfl), key _ (.inr rfl)⟩

/-- **C18** the full validation: it warns about exactly the variables and parameters named by the two checks, the first list given being that of
the variables defined elsewhere and the second that of the parameters; and it keeps the errors of each block and of the whole model. -/
theorem C18_full_partial (m : Mdl) (extV extP : List Str) (n : Str) :
    (VErr.undefVar n ∈ fullValidation m extV extP ↔ (∃ b ∈ m.blocks, ∃ e ∈ b.equations, ∃ o ∈ e.rhs.vars, o.1 = n) ∧ ¬ m.declares n ∧ n ∉ extV) ∧
    (VErr.undefParam n ∈ fullValidation m extV extP ↔ (∃ b ∈ m.blocks, ∃ e ∈ b.equations, n ∈ e.lhs.pars ∨ n ∈ e.rhs.pars) ∧
      (∀ b ∈ m.blocks, n ∉ b.calibrated) ∧ n ∉ extP) ∧
    (∀ x ∈ validateModel m, x ∈ fullValidation m extV extP) ∧
    ∀ x ∈ fullValidation m extV extP, x.isError = true → x ∈ validateModel m := by
  obtain ⟨vs, hv, _, _, hv'⟩ := C18_right_hand_sides_partial m extV
  obtain ⟨ps, hp, _, _, hp'⟩ := C18_parameters m extP
  have hk := validateModel_kind m n
  unfold fullValidation
  rw [hv, hp, ← hv' n, ← hp' n]
  refine ⟨?_, ?_, ?_, ?_⟩
  · simp [hk.1]
  · simp [hk.2]
  · intro x hx; simp [hx]
  · intro x hx he
    simp only [List.mem_append, List.mem_map] at hx
    rcases hx with (h | ⟨a, _, rfl⟩) | ⟨a, _, rfl⟩
    · exact h
    · cases he
    · cases he

/-- non-vacuity: `x[] = y[-1] + z[]` used as an identity, `y` a shock: exactly `z` is reported -/
example : checkUndefinedVars { blocks := [{ name := ['B'], shocks := [⟨['y'], .t 0⟩]
                                            identities := [{ lhs := .var ['x'] (.t 0), rhs := .bin .add (.var ['y'] (.t (-1))) (.var ['z'] (.t 0)) }] }] } []
    = [.undefVar ['z']] := by decide +kernel

end GE
