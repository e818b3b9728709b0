import Verif.Model.Build
import Verif.Props.SteadyState
import Verif.Props.Simplification
import Verif.Props.Timing
import Verif.Props.Primitives
/-! # C41, C75-C78: building a model -/

namespace GE

/-! ## specification -/

/-- the parameter occurs in one of the expressions -/
def UsesParam (eqs : List SExpr) (n : Str) : Prop := ∃ e ∈ eqs, Sym.par n ∈ e.syms

/-- all definitions of parameters -/
def allDefs (param calib determ : List (Str × SExpr)) : List (Str × SExpr) := param ++ calib ++ determ

namespace Bld

theorem any_uses {eqs : List SExpr} {n : Str} : (eqs.any fun e => e.syms.contains (.par n)) = true ↔ UsesParam eqs n := by
  simp [UsesParam]

theorem any_uses_val {joint : List (Str × SExpr)} {n : Str} :
    (joint.any fun p => p.2.syms.contains (.par n)) = true ↔ UsesParam (joint.map Prod.snd) n := by
  simp only [UsesParam, List.any_eq_true, List.contains_iff_mem, List.mem_map]
  constructor
  · rintro ⟨p, hp, h⟩
    exact ⟨p.2, ⟨p, hp, rfl⟩, h⟩
  · rintro ⟨e, ⟨p, hp, rfl⟩, h⟩
    exact ⟨p, hp, h⟩

theorem mem_orphans {eqs : List SExpr} {joint : List (Str × SExpr)} {n : Str} :
    n ∈ orphanParams eqs joint ↔ UsesParam eqs n ∧ n ∉ dkeys joint ∧ ¬ UsesParam (joint.map Prod.snd) n := by
  unfold orphanParams
  rw [List.mem_flatMap]
  constructor
  · rintro ⟨e, he, h⟩
    rw [List.mem_filterMap] at h
    obtain ⟨s, hs, h⟩ := h
    cases s with
    | tv s => simp at h
    | par m =>
      simp only at h
      split at h
      · rename_i hc
        simp only [Option.some.injEq] at h
        subst h
        exact ⟨⟨e, he, hs⟩, hc.1, fun h => hc.2 (any_uses_val.mpr h)⟩
      · exact absurd h (by simp)
  · rintro ⟨⟨e, he, hs⟩, h1, h2⟩
    refine ⟨e, he, List.mem_filterMap.mpr ⟨.par n, hs, ?_⟩⟩
    simp only
    rw [if_pos ⟨h1, fun h => h2 (any_uses_val.mp h)⟩]

theorem joint_eq {param calib determ : List (Str × SExpr)} (hn : (dkeys (allDefs param calib determ)).Nodup) :
    dupdate (dupdate param calib) determ = allDefs param calib determ := by
  have h1 : (dkeys (param ++ calib)).Nodup := by
    have : dkeys (allDefs param calib determ) = dkeys (param ++ calib) ++ dkeys determ := by simp [allDefs, dkeys]
    rw [this] at hn
    exact (List.nodup_append.mp hn).1
  rw [dupdate_fresh _ _ h1, dupdate_fresh _ _ hn]
  rfl

end Bld

open Bld

/-- specification: used in an equation, neither defined nor mentioned by any definition -/
def Orphan (eqs : List SExpr) (defs : List (Str × SExpr)) (n : Str) : Prop :=
  UsesParam eqs n ∧ n ∉ dkeys defs ∧ ¬ UsesParam (defs.map Prod.snd) n

/-- specification: defined, but used by no equation, no definition and no prior -/
def Unused (eqs : List SExpr) (defs : List (Str × SExpr)) (args distParams : List Str) (n : Str) : Prop :=
  n ∈ dkeys defs ∧ ¬ UsesParam eqs n ∧ ¬ UsesParam (defs.map Prod.snd) n ∧ n ∉ args ∧ n ∉ distParams

/-! ## C41 -/

section
variable (eqs ssRel : List SExpr) (param calib determ : List (Str × SExpr)) (on : OnUnused) (args distParams : List Str)
  (hn : (dkeys (allDefs param calib determ)).Nodup)
include hn

/-- **C41** a model is rejected for an orphan exactly when some plain symbol of an equation or steady-state relation is neither defined nor
mentioned in a definition, and the error names exactly these symbols. -/
theorem C41_orphan :
    ((∃ l, validateResults eqs ssRel param calib determ on args distParams = .error (.orphan l)) ↔
      ∃ n, Orphan (eqs ++ ssRel) (allDefs param calib determ) n) ∧
    ∀ l, validateResults eqs ssRel param calib determ on args distParams = .error (.orphan l) →
      ∀ n, n ∈ l ↔ Orphan (eqs ++ ssRel) (allDefs param calib determ) n := by
  have hj := joint_eq hn
  unfold validateResults
  simp only [hj]
  split
  · rename_i ho
    constructor
    · refine ⟨fun _ => ?_, fun _ => ⟨_, rfl⟩⟩
      obtain ⟨n, hm⟩ := List.exists_mem_of_ne_nil _ ho
      exact ⟨n, mem_orphans.mp hm⟩
    · intro l hl n
      simp only [Except.error.injEq, BuildErr.orphan.injEq] at hl
      rw [← hl]
      exact mem_orphans
  · rename_i ho
    have ho' : orphanParams (eqs ++ ssRel) (allDefs param calib determ) = [] := by simpa using ho
    have h1 : ¬ ∃ n, Orphan (eqs ++ ssRel) (allDefs param calib determ) n := by
      rintro ⟨n, hn'⟩
      have := mem_orphans.mpr hn'
      rw [ho'] at this
      simp at this
    refine ⟨⟨fun ⟨l, hl⟩ => ?_, fun h => absurd h h1⟩, fun l hl => ?_⟩
    · split at hl
      · cases on <;> simp at hl
      · simp at hl
    · split at hl
      · cases on <;> simp at hl
      · simp at hl

/-- **C41 (partial)** the claim as stated holds when definitions mention defined parameters only: then a model is rejected for an orphan
exactly when some parameter used in an equation has no value or definition. -/
theorem C41_orphan_partial
    (hclosed : ∀ n, UsesParam ((allDefs param calib determ).map Prod.snd) n → n ∈ dkeys (allDefs param calib determ)) :
    (∃ l, validateResults eqs ssRel param calib determ on args distParams = .error (.orphan l)) ↔
      ∃ n, UsesParam (eqs ++ ssRel) n ∧ n ∉ dkeys param ∧ n ∉ dkeys calib ∧ n ∉ dkeys determ := by
  rw [(C41_orphan eqs ssRel param calib determ on args distParams hn).1]
  have hk : ∀ n, n ∉ dkeys (allDefs param calib determ) ↔ n ∉ dkeys param ∧ n ∉ dkeys calib ∧ n ∉ dkeys determ := by
    intro n
    simp only [allDefs, dkeys, List.map_append, List.mem_append, not_or, and_assoc]
  constructor
  · rintro ⟨n, h1, h2, _⟩
    exact ⟨n, h1, (hk n).mp h2⟩
  · rintro ⟨n, h1, h2⟩
    exact ⟨n, h1, (hk n).mpr h2, fun h => (hk n).mpr h2 (hclosed n h)⟩

/-- **C41** without orphans, the outcome for superfluous parameters is as documented: `raise` rejects the model exactly when there is one,
`warn` warns, anything else accepts silently; error and warning name exactly the superfluous parameters. -/
theorem C41_extra (hno : ¬ ∃ n, Orphan (eqs ++ ssRel) (allDefs param calib determ) n) :
    ∃ l, (∀ n, n ∈ l ↔ Unused (eqs ++ ssRel) (allDefs param calib determ) args distParams n) ∧
      validateResults eqs ssRel param calib determ .raise args distParams = (if l = [] then .ok [] else .error (.extra l)) ∧
      validateResults eqs ssRel param calib determ .warn args distParams = .ok l ∧
      validateResults eqs ssRel param calib determ .ignore args distParams = .ok [] := by
  have hj := joint_eq hn
  have ho : orphanParams (eqs ++ ssRel) (allDefs param calib determ) = [] := by
    by_contra h
    obtain ⟨n, hm⟩ := List.exists_mem_of_ne_nil _ h
    exact hno ⟨n, mem_orphans.mp hm⟩
  refine ⟨extraParams (eqs ++ ssRel) (allDefs param calib determ) (distributionAtoms args distParams (allDefs param calib determ)), ?_, ?_, ?_, ?_⟩
  · intro n
    unfold extraParams Unused distributionAtoms
    rw [List.mem_filter]
    simp only [decide_eq_true_eq, any_uses, List.mem_append, not_or]
    have h1 : UsesParam ((eqs ++ ssRel) ++ (allDefs param calib determ).map Prod.snd) n ↔
        UsesParam (eqs ++ ssRel) n ∨ UsesParam ((allDefs param calib determ).map Prod.snd) n := by
      simp only [UsesParam, List.mem_append]
      constructor
      · rintro ⟨e, h | h, hs⟩
        · exact Or.inl ⟨e, h, hs⟩
        · exact Or.inr ⟨e, h, hs⟩
      · rintro (⟨e, h, hs⟩ | ⟨e, h, hs⟩)
        · exact ⟨e, Or.inl h, hs⟩
        · exact ⟨e, Or.inr h, hs⟩
    rw [h1]
    simp only [List.mem_filter, decide_eq_true_eq]
    tauto
  · unfold validateResults
    simp only [hj, ho]
    simp
  · unfold validateResults
    simp only [hj, ho]
    simp only [ne_eq, not_true_eq_false, if_false]
    split
    · rfl
    · rename_i h
      simp only [not_not] at h
      rw [h]
  · unfold validateResults
    simp only [hj, ho]
    simp

omit hn in
/-- the check never ends in another way -/
theorem C41_outcomes : (∃ l, validateResults eqs ssRel param calib determ on args distParams = .ok l) ∨
    (∃ l, validateResults eqs ssRel param calib determ on args distParams = .error (.orphan l)) ∨
    (∃ l, validateResults eqs ssRel param calib determ on args distParams = .error (.extra l)) := by
  unfold validateResults
  simp only
  split
  · exact Or.inr (Or.inl ⟨_, rfl⟩)
  · split
    · cases on
      · exact Or.inr (Or.inr ⟨_, rfl⟩)
      · exact Or.inl ⟨_, rfl⟩
      · exact Or.inl ⟨_, rfl⟩
    · exact Or.inl ⟨_, rfl⟩

end

/-- **C41 violated**: a parameter without a value is not reported when a definition mentions it: the equation `q - a = 0` with the only
definition `a = q` is accepted although `q` is defined nowhere. -/
theorem C41_orphan_violated :
    let q : SExpr := .sym (.par ['q'])
    let a : SExpr := .sym (.par ['a'])
    validateResults [.sub q a] [] [] [] [(['a'], q)] .raise [] [] = .ok [] := by
  rfl

/-! ## C75: hyper-parameters -/

namespace Bld

theorem hyper_fold {ν : Type} (param : List (Str × ν)) (hn : (dkeys param).Nodup) : ∀ (names done : List Str) (st : List (Str × ν) × List (Str × ν)),
    st.1 = param.filter (fun p => p.1 ∉ done) → (∀ n, dget st.2 n = if n ∈ done then dget param n else none) → (dkeys st.2).Nodup →
    (names.foldl (hyperStep param) st).1 = param.filter (fun p => p.1 ∉ done ++ names) ∧
    (∀ n, dget (names.foldl (hyperStep param) st).2 n = if n ∈ done ++ names then dget param n else none) ∧
    (dkeys (names.foldl (hyperStep param) st).2).Nodup
  | [], done, st, h1, h2, h3 => by
    refine ⟨?_, ?_, h3⟩
    · rw [List.append_nil]; exact h1
    · rw [List.append_nil]; exact h2
  | m :: names, done, st, h1, h2, h3 => by
    rw [List.foldl_cons]
    have hk : ∀ n, n ∈ dkeys st.1 ↔ n ∈ dkeys param ∧ n ∉ done := by
      intro n
      rw [h1]
      simp only [dkeys, List.mem_map, List.mem_filter, decide_eq_true_eq]
      constructor
      · rintro ⟨p, ⟨hp, hd⟩, rfl⟩
        exact ⟨⟨p, hp, rfl⟩, hd⟩
      · rintro ⟨⟨p, hp, rfl⟩, hd⟩
        exact ⟨p, ⟨hp, hd⟩, rfl⟩
    have happ : done ++ m :: names = (done ++ [m]) ++ names := by simp
    rw [happ]
    unfold hyperStep
    split
    · rename_i hm
      obtain ⟨hmp, hmd⟩ := (hk m).mp hm
      obtain ⟨v, hv⟩ := Option.isSome_iff_exists.mp ((dget_isSome param m).mpr hmp)
      rw [hv]
      simp only
      refine hyper_fold param hn names (done ++ [m]) _ ?_ ?_ ?_
      · simp only [ddel]
        rw [h1, List.filter_filter]
        apply List.filter_congr
        intro p _
        simp [not_or, and_comm]
      · intro n
        rw [dget_dset]
        simp only [List.mem_append, List.mem_singleton]
        by_cases hnm : n = m
        · subst hnm; simp [hv]
        · have : ¬ m = n := fun h => hnm h.symm
          simp [hnm, this, h2 n]
      · exact dset_nodup _ _ _ h3
    · rename_i hm
      refine hyper_fold param hn names (done ++ [m]) st ?_ ?_ h3
      · rw [h1]
        apply List.filter_congr
        intro p hp
        simp only [List.mem_append, List.mem_singleton, not_or, decide_eq_decide]
        constructor
        · intro h
          refine ⟨h, fun he => hm ((hk m).mpr ⟨?_, ?_⟩)⟩
          · rw [← he]; exact List.mem_map_of_mem hp
          · rw [← he]; exact h
        · exact fun h => h.1
      · intro n
        rw [h2 n]
        simp only [List.mem_append, List.mem_singleton]
        by_cases hnm : n = m
        · subst hnm
          by_cases hd : n ∈ done
          · simp [hd]
          · have : n ∉ dkeys param := fun h => hm ((hk n).mpr ⟨h, hd⟩)
            simp [hd, (dget_eq_none param n).mpr this]
        · simp [hnm]

end Bld

/-- **C75** `split_out_hyper_params` splits the parameters in two: those used by a shock distribution, with their values, and the others,
unchanged and in order. Nothing is lost, and the hyper-parameters of a shock that have no value are left out. -/
theorem C75_split {ν : Type} (param : List (Str × ν)) (sp : List (Str × ShockDist)) (hn : (dkeys param).Nodup) :
    (splitOutHyper param sp).1 = param.filter (fun p => p.1 ∉ hyperNames sp) ∧
    (dkeys (splitOutHyper param sp).2).Nodup ∧
    ∀ n v, (n, v) ∈ (splitOutHyper param sp).2 ↔ (n, v) ∈ param ∧ ∃ s ∈ sp, ∃ q ∈ s.2.names, q.2 = n := by
  obtain ⟨h1, h2, h3⟩ := hyper_fold param hn (hyperNames sp) [] (param, []) (by simp) (by simp [dget]) (by simp [dkeys])
  simp only [List.nil_append] at h1 h2
  refine ⟨h1, h3, fun n v => ?_⟩
  have hm : n ∈ hyperNames sp ↔ ∃ s ∈ sp, ∃ q ∈ s.2.names, q.2 = n := by
    simp only [hyperNames, List.mem_flatMap, List.mem_map]
  rw [← hm]
  constructor
  · intro h
    have h4 := dget_of_mem _ h3 n v h
    have h5 := h2 n
    unfold splitOutHyper at h4
    rw [h4] at h5
    split at h5
    · rename_i hmem
      exact ⟨mem_of_dget _ _ _ h5.symm, hmem⟩
    · exact absurd h5 (by simp)
  · rintro ⟨hp, hmem⟩
    have h5 := h2 n
    rw [if_pos hmem, dget_of_mem _ hn n v hp] at h5
    exact mem_of_dget _ _ _ h5

/-- **C75** (consequence, contrary to C41's intention): a parameter with a value that is used both by a shock distribution and by an
equation is reported as undefined, unless a definition happens to mention it. -/
theorem C41_hyper_in_equation_violated (param calib determ : List (Str × SExpr)) (sp : List (Str × ShockDist)) (eqs ssRel : List SExpr)
    (on : OnUnused) (args distParams : List Str) (hn : (dkeys (allDefs param calib determ)).Nodup) (n : Str)
    (_hval : n ∈ dkeys param) (hhyp : n ∈ hyperNames sp) (huse : UsesParam eqs n)
    (hmen : ¬ UsesParam ((allDefs param calib determ).map Prod.snd) n) :
    ∃ l, validateResults eqs ssRel (splitOutHyper param sp).1 calib determ on args distParams = .error (.orphan l) ∧ n ∈ l := by
  have hp : (dkeys param).Nodup := by
    have : dkeys (allDefs param calib determ) = dkeys param ++ (dkeys calib ++ dkeys determ) := by simp [allDefs, dkeys]
    rw [this] at hn
    exact (List.nodup_append.mp hn).1
  have h1 := (C75_split param sp hp).1
  have hsub : (allDefs (splitOutHyper param sp).1 calib determ).Sublist (allDefs param calib determ) := by
    rw [h1]
    exact (List.filter_sublist.append (List.Sublist.refl _)).append (List.Sublist.refl _)
  have hn' : (dkeys (allDefs (splitOutHyper param sp).1 calib determ)).Nodup := hn.sublist (hsub.map _)
  have hnk : n ∉ dkeys (allDefs (splitOutHyper param sp).1 calib determ) := by
    intro h
    have hnd : n ∉ dkeys calib ∧ n ∉ dkeys determ := by
      have : dkeys (allDefs param calib determ) = dkeys param ++ (dkeys calib ++ dkeys determ) := by simp [allDefs, dkeys]
      rw [this, List.nodup_append] at hn
      constructor
      · intro hc; exact hn.2.2 n _hval n (List.mem_append_left _ hc) rfl
      · intro hc; exact hn.2.2 n _hval n (List.mem_append_right _ hc) rfl
    simp only [allDefs, dkeys, List.map_append, List.mem_append] at h
    rcases h with (h | h) | h
    · rw [h1] at h
      simp only [List.mem_map, List.mem_filter, decide_eq_true_eq] at h
      obtain ⟨p, ⟨_, hp2⟩, rfl⟩ := h
      exact hp2 hhyp
    · exact hnd.1 h
    · exact hnd.2 h
  have horph : Orphan (eqs ++ ssRel) (allDefs (splitOutHyper param sp).1 calib determ) n := by
    refine ⟨?_, hnk, ?_⟩
    · obtain ⟨e, he, hs⟩ := huse
      exact ⟨e, List.mem_append_left _ he, hs⟩
    · rintro ⟨e, he, hs⟩
      refine hmen ⟨e, ?_, hs⟩
      exact (hsub.map _).subset he
  obtain ⟨h2, h3⟩ := C41_orphan eqs ssRel (splitOutHyper param sp).1 calib determ on args distParams hn'
  obtain ⟨l, hl⟩ := h2.mpr ⟨n, horph⟩
  exact ⟨l, hl, (h3 l hl n).mpr horph⟩

/-! ## C76: priors -/

/-- **C76** the priors of the model are those declared, except the ones of shocks and of parameters used by shock distributions; the shock
distributions are all kept. -/
theorem C76_split {δ : Type} (dists : List (Str × δ)) (sd : List (Str × ShockDist)) (names : List Str) (hd : (dkeys dists).Nodup)
    (hs : (dkeys sd).Nodup) :
    splitDistributions dists sd names =
      (dists.filter (fun p => p.1 ∉ names ∧ ¬ ∃ s ∈ sd, ∃ q ∈ s.2.names, q.2 = p.1), sd) := by
  unfold splitDistributions
  have h1 : (dists.filter fun p => p.1 ∉ names ∧ p.1 ∉ hyperNames sd) =
      dists.filter (fun p => p.1 ∉ names ∧ ¬ ∃ s ∈ sd, ∃ q ∈ s.2.names, q.2 = p.1) := by
    apply List.filter_congr
    intro p _
    simp only [hyperNames, List.mem_flatMap, List.mem_map]
  rw [h1]
  congr 1
  · have := dupdate_fresh ([] : List (Str × δ)) _ (by
      rw [List.nil_append]
      exact hd.sublist ((List.filter_sublist (p := fun p => decide (p.1 ∉ names ∧ ¬ ∃ s ∈ sd, ∃ q ∈ s.2.names, q.2 = p.1))).map _))
    rw [this]; rfl
  · have := dupdate_fresh ([] : List (Str × ShockDist)) sd (by simpa using hs)
    simpa using this

/-- **C76 violated**: a prior is lost when the parameter is declared in a block after the one of the shock that uses it: it is neither among
the parameter priors nor attached to the shock. -/
theorem C76_later_block_violated :
    let sh : Dist := { param := ['e'], dist := "Normal".toList, kwargs := [(['m'], .inl 0), (['s'], .inr ['q'])] }
    let pr : Dist := { param := ['q'], dist := "Gamma".toList, kwargs := [(['a'], .inl 2)] }
    let b1 : Blk := { name := ['A'], shockDists := [sh] }
    let b2 : Blk := { name := ['B'], calibration := [.dist pr] }
    let ld := loadDists (fun _ => true) [b1, b2] [] []
    ld.1 = [(['q'], pr)] ∧ (splitDistributions ld.1 ld.2 [['e']]).1 = [] ∧
      ∀ s ∈ (splitDistributions ld.1 ld.2 [['e']]).2, s.2.hyper = [] := by
  refine ⟨rfl, rfl, ?_⟩
  intro s hs
  have h2 : s ∈ [((['e'], { name := ['e'], fixed := [(['m'], 0)], hyper := [], names := [(['s'], ['q'])] }) : Str × ShockDist)] := hs
  rw [List.mem_singleton] at h2
  rw [h2]

/-! ## C77: deterministic parameters -/

namespace Bld

theorem symKeys_get (d : List (Str × SExpr)) (n : Str) : dget (symKeys d) (.par n) = dget d n := by
  induction d with
  | nil => rfl
  | cons p d ih =>
    simp only [symKeys, List.map_cons, dget] at ih ⊢
    by_cases h : p.1 = n
    · simp [h]
    · simp [h, ih]

theorem symKeys_mem (d : List (Str × SExpr)) (n : Str) : Sym.par n ∈ dkeys (symKeys d) ↔ n ∈ dkeys d := by
  simp [symKeys, dkeys]

end Bld

/-- **C77** deterministic parameters cannot be resolved (ValueError) exactly when one depends on itself through others. Otherwise the
parameters used in an equation or steady-state relation are kept, in order, and the others are reported as dropped. -/
theorem C77_resolved (determ : List (Str × SExpr)) (eqs ssRel : List SExpr) :
    (resolveDeterministic determ eqs ssRel = none ↔ Circular (symKeys determ)) ∧
    ∀ kept dropped, resolveDeterministic determ eqs ssRel = some (kept, dropped) →
      (∃ f : Str → Bool, (∀ n, f n = true ↔ UsesParam (eqs ++ ssRel) n) ∧ dkeys kept = (dkeys determ).filter f ∧
        dropped = (dkeys determ).filter (fun n => !f n)) := by
  have ht := flatten_total (symKeys determ)
  have hc := C15_cycle_iff (symKeys determ)
  unfold resolveDeterministic
  cases hfl : flattenSubs (symKeys determ) with
  | none => exact absurd hfl ht
  | some o =>
    cases o with
    | none => exact ⟨⟨fun _ => hc.mp hfl, fun _ => rfl⟩, by simp⟩
    | some flat =>
      refine ⟨⟨fun h => by simp at h, fun h => ?_⟩, ?_⟩
      · have := hc.mpr h
        rw [hfl] at this
        simp at this
      · intro kept dropped h
        simp only [Option.some.injEq, Prod.mk.injEq] at h
        obtain ⟨rfl, rfl⟩ := h
        refine ⟨fun n => (eqs ++ ssRel).any fun e => e.syms.contains (.par n), fun n => any_uses, ?_, ?_⟩
        · rw [dkeys, List.map_map, dkeys, List.filter_map]
          rfl
        · apply List.filter_congr
          intro n _
          have hb : ∀ b : Bool, (decide ¬ (b = true)) = !b := by decide
          exact hb _

/-- **C77** the value kept for a parameter is the parameter's, whatever values satisfy the definitions; and when no definition mentions its
own parameter, the value mentions no deterministic parameter. -/
theorem C77_values (determ : List (Str × SExpr)) (eqs ssRel : List SExpr) (kept dropped)
    (h : resolveDeterministic determ eqs ssRel = some (kept, dropped)) (n : Str) (v : SExpr) (hk : (n, v) ∈ kept) :
    (∀ {K} (V : Valuation K) (t : Int), (∀ m w, dget determ m = some w → V.symAt t (.par m) = w.at V t) → v.at V t = V.symAt t (.par n)) ∧
    ((∀ m w, dget determ m = some w → Sym.par m ∉ w.syms) → ∀ m ∈ dkeys determ, Sym.par m ∉ v.syms) := by
  unfold resolveDeterministic at h
  split at h
  · rename_i flat hfl
    simp only [Option.some.injEq, Prod.mk.injEq] at h
    obtain ⟨rfl, rfl⟩ := h
    obtain ⟨p, hp, hpe⟩ := List.mem_map.mp hk
    have hp' : p.1 ∈ dkeys determ := List.mem_map_of_mem (List.mem_filter.mp hp).1
    obtain ⟨_, hkeys⟩ := C15_keys _ hfl
    have hmem : Sym.par p.1 ∈ dkeys flat := (hkeys _).mpr ((symKeys_mem _ _).mpr hp')
    obtain ⟨w, hw⟩ := Option.isSome_iff_exists.mp ((dget_isSome flat _).mpr hmem)
    simp only [hw, Option.getD_some, Prod.mk.injEq] at hpe
    obtain ⟨rfl, rfl⟩ := hpe
    have hwf := mem_of_dget _ _ _ hw
    have hpar : ∀ (m : Sym) (u : SExpr), dget (symKeys determ) m = some u → ∃ k, m = .par k ∧ dget determ k = some u := by
      intro m u hu
      have := mem_of_dget _ _ _ hu
      obtain ⟨q, _, hq⟩ := List.mem_map.mp this
      simp only [Prod.mk.injEq] at hq
      refine ⟨q.1, hq.1.symm, ?_⟩
      rw [← hq.1, symKeys_get] at hu
      exact hu
    constructor
    · intro K V t hV
      refine C15_same_values _ hfl V t (fun k u hu => ?_) _ _ hwf
      obtain ⟨m, rfl, hm⟩ := hpar k u hu
      exact hV m u hm
    · intro hself m hm hs
      refine C15_resolved_partial _ hfl (fun k u hu => ?_) _ _ hwf _ hs ((symKeys_mem _ _).mpr hm)
      obtain ⟨m, rfl, hm⟩ := hpar k u hu
      exact hself m u hm
  · exact absurd h (by simp)

/-- **C77 violated**: a deterministic parameter used only in a calibrating equation counts as unused. With `b = 2` deterministic, `a = b`
calibrated and the equation `x - a = 0`, `b` is dropped, and the check for undefined parameters passes although `b`, on which `a` depends,
is no longer defined. -/
theorem C77_calibration_violated :
    let x : SExpr := .sym (.tv ⟨['x'], .t 0, []⟩)
    let a : SExpr := .sym (.par ['a'])
    let b : SExpr := .sym (.par ['b'])
    resolveDeterministic [(['b'], .num 2)] [.sub x a] [] = some ([], [['b']]) ∧
      validateResults [.sub x a] [] [] [(['a'], b)] [] .raise [] [] = .ok [] := by
  refine ⟨?_, rfl⟩
  have : flattenSubs (symKeys [(['b'], SExpr.num 2)]) = some (some [(.par ['b'], .num 2)]) := by
    simp [symKeys, flattenSubs, resolveLoop, resolve, flatDeps, dkeys, dget, dset, SExpr.syms, SExpr.subsSeq, List.eraseDups]
  unfold resolveDeterministic
  rw [this]
  rfl

/-! ## C78: the model as a whole -/

namespace Bld

/-- the stages of a successful build -/
structure Stages (o : BuildOracle) (f : BuildFlags) (i : BuildIn) (out : BuildOut) (vars : List TSym) (ss0 : List (Sym × SExpr)) : Prop where
  simp : applySimplifications o f i = some (out.equations, vars, out.reducedVars, out.singletons)
  hvars : out.vars = naturalSort vars
  hshocks : out.shocks = naturalSort i.shocks
  hpriors : splitDistributions i.dists i.shockDists (i.shocks.map TSym.base) = (out.paramPriors, out.shockPriors)
  hparams : splitOutHyper i.param out.shockPriors = (out.param, out.hyper)
  hss0 : simplifyProvided i.ss vars = some ss0
  hdeterm : resolveDeterministic i.determ out.equations (ssRelations ss0) = some (out.determ, out.reducedParams)
  hcalib : out.calib = i.calib
  hvalid : validateResults out.equations (ssRelations ss0) out.param i.calib out.determ f.onUnused (o.distArgs i.dists) i.distParams = .ok out.unused
  hssEqs : out.ssEqs = systemToSS o.simp o.order out.equations i.shocks
  hssRel : out.ssRel = if f.inferSS then propagateSS o.ss ss0 out.ssEqs vars else ss0
  huser : out.userSS = dkeys ss0

theorem stages {o f i out} (h : compileGcn o f i = .ok out) : ∃ vars ss0, Stages o f i out vars ss0 := by
  unfold compileGcn at h
  split at h
  · cases h
  · rename_i eqs vars rv sg hs
    simp only at h
    split at h
    · cases h
    · rename_i ss0 h0
      split at h
      · cases h
      · rename_i determ rp hd
        split at h
        · cases h
        · rename_i un hv
          simp only [Except.ok.injEq] at h
          subst h
          exact ⟨vars, ss0, hs, rfl, rfl, rfl, rfl, h0, hd, rfl, hv, rfl, rfl, rfl⟩

end Bld

section
variable {o : BuildOracle} {f : BuildFlags} {i : BuildIn} {out : BuildOut}

/-- **C78** without simplification a model has exactly the given equations and variables; it always has exactly the given shocks. -/
theorem C78_unchanged (h : compileGcn o f i = .ok out) : out.shocks.Perm i.shocks ∧
    (f.tryreduce = false → f.constants = false → out.equations = i.equations ∧ out.vars.Perm i.vars ∧ out.reducedVars = [] ∧ out.singletons = []) := by
  obtain ⟨vars, ss0, S⟩ := stages h
  refine ⟨by rw [S.hshocks]; exact Tmg.sort_perm _, fun h1 h2 => ?_⟩
  have := S.simp
  simp only [applySimplifications, h1, h2, Bool.false_eq_true, if_false, Option.some.injEq, Prod.mk.injEq] at this
  obtain ⟨h3, h4, h5, h6⟩ := this
  refine ⟨h3.symm, ?_, h5.symm, h6.symm⟩
  rw [S.hvars, ← h4]
  exact Tmg.sort_perm _

/-- **C78** no variable is lost silently: each given variable is in the model or reported as eliminated, never both, and nothing else is. -/
theorem C78_variables (hv : ∀ v ∈ i.vars, v.idx = .t 0) (h : compileGcn o f i = .ok out) (v : TSym) :
    (v ∈ i.vars ↔ v ∈ out.vars ∨ v ∈ out.reducedVars ∨ v ∈ out.singletons) ∧
    (v ∈ out.vars → v ∉ out.reducedVars ∧ v ∉ out.singletons) := by
  obtain ⟨vars, ss0, S⟩ := stages h
  have hmem : v ∈ out.vars ↔ v ∈ vars := by rw [S.hvars]; exact (Tmg.sort_perm _).mem_iff
  rw [hmem]
  have hs := S.simp
  unfold applySimplifications at hs
  simp only at hs
  -- after the first stage
  have key : ∀ r1 : List SExpr × List TSym × List TSym × Bool,
      r1 = (if f.tryreduce then simplifyTryreduce o.simp i.tryreduce i.equations i.vars (blockSubDict i.blocks) else (i.equations, i.vars, [], false)) →
      (∀ x, x ∈ i.vars ↔ x ∈ r1.2.1 ∨ x ∈ r1.2.2.1) ∧ (∀ x ∈ r1.2.1, x ∉ r1.2.2.1) := by
    intro r1 hr
    by_cases ht : f.tryreduce = true
    · rw [if_pos ht] at hr
      by_cases hsq : i.equations.length = i.vars.length
      · obtain ⟨h1, h2, _⟩ := C26_absent o.simp i.tryreduce i.equations i.vars (blockSubDict i.blocks) hsq hv
        rw [← hr] at h1 h2
        refine ⟨fun x => ?_, fun x hx hx' => ?_⟩
        · rw [h1, h2, ← and_or_left]
          refine ⟨fun hx => ⟨hx, ?_⟩, fun hx => hx.1⟩
          by_cases hc : ∃ e ∈ r1.1, e.Occurs x
          · exact Or.inl hc
          · exact Or.inr fun e he ho => hc ⟨e, he, ho⟩
        · obtain ⟨_, e, he, ho⟩ := (h1 x).mp hx
          exact ((h2 x).mp hx').2 e he ho
      · rw [C26_not_square _ _ _ _ _ hsq] at hr
        subst hr
        simp
    · rw [if_neg ht] at hr
      subst hr
      simp
  generalize hr1 : (if f.tryreduce then simplifyTryreduce o.simp i.tryreduce i.equations i.vars (blockSubDict i.blocks)
    else (i.equations, i.vars, [], false)) = r1 at hs
  obtain ⟨k1, k2⟩ := key r1 hr1.symm
  split at hs
  · rename_i hc
    split at hs
    · cases hs
    · rename_i r2 hr2
      simp only [Option.some.injEq, Prod.mk.injEq] at hs
      obtain ⟨h3, h4, h5, h6⟩ := hs
      rw [← h4, ← h5, ← h6]
      have hv1 : ∀ x ∈ r1.2.1, x.idx = .t 0 := fun x hx => hv x ((k1 x).mpr (Or.inl hx))
      have k3 : (v ∈ r1.2.1 ↔ v ∈ r2.2.1 ∨ v ∈ r2.2.2.1) ∧ (v ∈ r2.2.1 → v ∉ r2.2.2.1) := by
        by_cases hsq : r1.1.length = r1.2.1.length
        · unfold simplifyConstants at hr2
          rw [if_neg (not_not.mpr hsq)] at hr2
          split at hr2
          · cases hr2
          · simp only [Option.some.injEq] at hr2
            subst hr2
            dsimp only
            obtain ⟨m1, m2⟩ := Rdc.mem_reduced _ r1.2.1 hv1 v
            rw [m1, m2]
            constructor
            · rw [← and_or_left]
              refine ⟨fun hx => ⟨hx, ?_⟩, fun hx => hx.1⟩
              refine Classical.or_iff_not_imp_left.mpr fun hc e he ho => hc ⟨e, he, ho⟩
            · rintro ⟨_, e, he, ho⟩ ⟨_, hn⟩
              exact hn e he ho
        · rw [C27_not_square _ _ _ _ hsq] at hr2
          simp only [Option.some.injEq] at hr2
          subst hr2
          simp
      refine ⟨?_, fun hx => ⟨?_, k3.2 hx⟩⟩
      · rw [k1, k3.1]; tauto
      · exact k2 v (k3.1.mpr (Or.inl hx))
  · simp only [Option.some.injEq, Prod.mk.injEq] at hs
    obtain ⟨h3, h4, h5, h6⟩ := hs
    rw [← h4, ← h5, ← h6]
    refine ⟨by rw [k1]; simp, fun hx => ⟨k2 v hx, by simp⟩⟩

/-- **C78** no parameter is lost: each given parameter is, with its value, among the model's parameters or among the hyper-parameters of
its shocks, never both. -/
theorem C78_parameters (hn : (dkeys i.param).Nodup) (h : compileGcn o f i = .ok out) :
    (∀ p, p ∈ i.param ↔ p ∈ out.param ∨ p ∈ out.hyper) ∧ (∀ n ∈ dkeys out.param, n ∉ dkeys out.hyper) ∧ out.calib = i.calib := by
  obtain ⟨vars, ss0, S⟩ := stages h
  obtain ⟨h1, h2, h3⟩ := C75_split i.param out.shockPriors hn
  rw [S.hparams] at h1 h2 h3
  simp only at h1 h2 h3
  have hm : ∀ n, n ∈ hyperNames out.shockPriors ↔ ∃ s ∈ out.shockPriors, ∃ q ∈ s.2.names, q.2 = n := by
    intro n; simp only [hyperNames, List.mem_flatMap, List.mem_map]
  refine ⟨fun p => ?_, fun n hn1 hn2 => ?_, S.hcalib⟩
  · rw [h1, h3 p.1 p.2, List.mem_filter]
    rw [← hm]
    simp only [decide_eq_true_eq]
    tauto
  · rw [h1] at hn1
    obtain ⟨p, hp, rfl⟩ := List.mem_map.mp hn1
    obtain ⟨q, hq, hqe⟩ := List.mem_map.mp hn2
    have h4 := (List.mem_filter.mp hp).2
    simp only [decide_eq_true_eq] at h4
    refine h4 ((hm _).mpr ?_)
    rw [← hqe]
    exact ((h3 q.1 q.2).mp hq).2

/-- **C78 (partial)** the model is closed: a parameter of an equation is a parameter of the model, or is calibrated, deterministic, or
mentioned by one of these. Partial: a mentioned parameter need not have a value (`C41_orphan_violated`, `C77_calibration_violated`). -/
theorem C78_closed_partial (hn : (dkeys (allDefs i.param i.calib i.determ)).Nodup) (h : compileGcn o f i = .ok out) (n : Str)
    (hu : UsesParam out.equations n) :
    n ∈ dkeys out.param ∨ n ∈ dkeys out.calib ∨ n ∈ dkeys out.determ ∨ UsesParam ((allDefs out.param out.calib out.determ).map Prod.snd) n := by
  obtain ⟨vars, ss0, S⟩ := stages h
  have hsplit : dkeys (allDefs i.param i.calib i.determ) = dkeys i.param ++ dkeys i.calib ++ dkeys i.determ := by simp [allDefs, dkeys]
  rw [hsplit] at hn
  have hp : (dkeys i.param).Nodup := (List.nodup_append.mp (List.nodup_append.mp hn).1).1
  obtain ⟨h1, _⟩ := C75_split i.param out.shockPriors hp
  rw [S.hparams] at h1
  simp only at h1
  obtain ⟨g, _, h3, _⟩ := (C77_resolved i.determ out.equations (ssRelations ss0)).2 _ _ S.hdeterm
  have hn' : (dkeys (allDefs out.param i.calib out.determ)).Nodup := by
    have : dkeys (allDefs out.param i.calib out.determ) = dkeys out.param ++ dkeys i.calib ++ dkeys out.determ := by simp [allDefs, dkeys]
    rw [this, h3, h1]
    refine hn.sublist ?_
    refine List.Sublist.append (List.Sublist.append ?_ (List.Sublist.refl _)) List.filter_sublist
    exact (List.filter_sublist (p := fun p : Str × SExpr => decide (p.1 ∉ hyperNames out.shockPriors))).map _
  rw [S.hcalib]
  by_contra hc
  simp only [not_or] at hc
  obtain ⟨c1, c2, c3, c4⟩ := hc
  have ho : Orphan (out.equations ++ ssRelations ss0) (allDefs out.param i.calib out.determ) n := by
    refine ⟨?_, ?_, c4⟩
    · obtain ⟨e, he, hs⟩ := hu
      exact ⟨e, List.mem_append_left _ he, hs⟩
    · simp only [allDefs, dkeys, List.map_append, List.mem_append, not_or]
      exact ⟨⟨c1, c2⟩, c3⟩
  obtain ⟨l, hl⟩ := (C41_orphan out.equations (ssRelations ss0) out.param i.calib out.determ f.onUnused (o.distArgs i.dists) i.distParams hn').1.mpr
    ⟨n, ho⟩
  rw [S.hvalid] at hl
  cases hl

/-- **C78** the steady-state system belongs to the model's equations: it holds exactly when the constant path without shocks solves the model. -/
theorem C78_steady_state (hs : SameValues o.simp) (ho : ∀ e s, s ∈ o.order e ↔ s ∈ e.tsyms) (h : compileGcn o f i = .ok out) (P : RealPath) :
    out.ssEqs.length = out.equations.length ∧
    ((∀ e ∈ out.ssEqs, e.val P 0 = 0) ↔ ∀ e ∈ out.equations, ∀ t, e.val (P.constant i.shocks) t = 0) := by
  obtain ⟨vars, ss0, S⟩ := stages h
  rw [S.hssEqs]
  exact ⟨(C70_system o.simp hs o.order ho _ _).1, C70_solves_iff o.simp hs o.order ho _ _ P⟩

/-- **C78** the user's steady-state values are in the model: for each variable of the model, the value stored equals the user's wherever the
user's definitions hold. Inferred values follow from the user's and the model's equations. -/
theorem C78_user_steady_state (ho : o.ss.Lawful) (hc : o.ss.Complete) (hn : (dkeys i.ss).Nodup) (h : compileGcn o f i = .ok out) :
    (∀ v ∈ out.vars, Sym.tv (toSS v) ∈ dkeys i.ss → ∃ e, dget out.ssRel (.tv (toSS v)) = some e ∧
      ∀ P : RealPath, P.Meets i.ss → e.val P 0 = P.val.symAt 0 (.tv (toSS v))) ∧
    ∀ P : RealPath, P.Meets i.ss → (∀ e ∈ out.ssEqs, e.val P 0 = 0) → P.Meets out.ssRel := by
  obtain ⟨vars, ss0, S⟩ := stages h
  obtain ⟨h1, h2⟩ := (C74_simplified i.ss vars).2 ss0 S.hss0
  constructor
  · intro v hv hk
    have hvv : v ∈ vars := by rw [S.hvars] at hv; exact (Tmg.sort_perm _).mem_iff.mp hv
    have hk0 : Sym.tv (toSS v) ∈ dkeys ss0 := by
      rw [h1, List.mem_filter]
      refine ⟨hk, ?_⟩
      rw [decide_eq_true_eq]
      exact List.mem_map_of_mem hvv
    obtain ⟨e, he⟩ := Option.isSome_iff_exists.mp ((dget_isSome ss0 _).mpr hk0)
    refine ⟨e, ?_, fun P hP => ?_⟩
    · rw [S.hssRel]
      split
      · exact C45_lookup _ _ _ _ _ _ _ he
      · exact he
    · exact (h2 P hP (.tv (toSS v), e) (mem_of_dget _ _ _ he)).symm
  · intro P hP he
    rw [S.hssRel]
    split
    · exact C45_implied _ ho hc _ _ _ _ P (h2 P hP) he
    · exact h2 P hP

/-- **C78 (partial)** simplification loses no solution: a path that solves the given equations, on which the reduced variables are what their
block definitions say, solves the equations of the model. Partial: when pinned variables have unique constant values. -/
theorem C78_solutions_partial (hs : SameValues o.simp) (hn : SameValues o.norm) (hso : o.solve.Sound)
    (hconst : ∀ e x rhs, Pins o.solve e x rhs → rhs.tsyms = [] ∧ x.idx ≠ .ss) (h : compileGcn o f i = .ok out) (P : RealPath)
    (hP : P.Solves i.equations) (hsub : ∀ x ∈ i.tryreduce, ∀ rhs, dget (blockSubDict i.blocks) (.tv x) = some rhs → P.Defines x rhs) :
    P.Solves out.equations := by
  obtain ⟨vars, ss0, S⟩ := stages h
  have hsm := S.simp
  unfold applySimplifications at hsm
  simp only at hsm
  have h1 : P.Solves (if f.tryreduce then simplifyTryreduce o.simp i.tryreduce i.equations i.vars (blockSubDict i.blocks)
    else (i.equations, i.vars, [], false)).1 := by
    split
    · exact C26_solutions_kept o.simp hs _ _ _ _ P hP hsub
    · exact hP
  generalize (if f.tryreduce then simplifyTryreduce o.simp i.tryreduce i.equations i.vars (blockSubDict i.blocks)
    else (i.equations, i.vars, [], false)) = r1 at hsm h1
  split at hsm
  · split at hsm
    · cases hsm
    · rename_i r2 hr2
      simp only [Option.some.injEq, Prod.mk.injEq] at hsm
      rw [← hsm.1]
      by_cases hsq : r1.1.length = r1.2.1.length
      · exact ((C27_solutions_partial o.solve hso o.norm hn r1.1 r1.2.1 (fun e _ => hconst e) r2 hr2 hsq P).mp h1).1
      · rw [C27_not_square _ _ _ _ hsq] at hr2
        simp only [Option.some.injEq] at hr2
        subst hr2
        exact h1
  · simp only [Option.some.injEq, Prod.mk.injEq] at hsm
    rw [← hsm.1]
    exact h1

/-- **C78** unused parameters make a build fail only on request -/
theorem C78_unused_fatal_on_request (l : List Str) (h : compileGcn o f i = .error (.extra l)) : f.onUnused = .raise := by
  unfold compileGcn at h
  split at h
  · cases h
  · simp only at h
    split at h
    · cases h
    · split at h
      · cases h
      · split at h
        · rename_i e hv
          simp only [Except.error.injEq] at h
          subst h
          unfold validateResults at hv
          simp only at hv
          split at hv
          · simp at hv
          · split at hv
            · cases hf : f.onUnused with
              | raise => rfl
              | warn => simp [hf] at hv
              | ignore => simp [hf] at hv
            · simp at hv
        · cases h

end

/-! ## a concrete model meets the hypotheses -/

namespace Bld

def exX : TSym := ⟨['x'], .t 0, []⟩
def exE : TSym := ⟨['e'], .t 0, []⟩
def exOracle : BuildOracle where
  simp := id
  solve := fun _ _ => none
  norm := id
  ss := SSt.linOracle
  order := SExpr.tsyms
  distArgs := fun _ => []

/-- `x[] - 2 b - e[] = 0` with `b = 3 a` deterministic, `a` and the hyper-parameter `s` given, `x[ss]` known -/
def exIn : BuildIn where
  equations := [.sub (.sub (.sym (.tv exX)) (.mul (.num 2) (.sym (.par ['b'])))) (.sym (.tv exE))]
  vars := [exX]
  shocks := [exE]
  param := [(['a'], .num 5), (['s'], .num 1)]
  calib := []
  determ := [(['b'], .mul (.num 3) (.sym (.par ['a'])))]
  ss := [(.tv (toSS exX), .num 30)]
  tryreduce := []
  blocks := []
  dists := []
  shockDists := [(['e'], { name := ['e'], fixed := [(['m'], 0)], hyper := [], names := [(['s'], ['s'])] })]
  distParams := [['s']]

def exFlags : BuildFlags := { tryreduce := false, constants := false }

theorem ex_resolve : resolveDeterministic exIn.determ exIn.equations (ssRelations exIn.ss) =
    some ([(['b'], .mul (.num 3) (.sym (.par ['a'])))], []) := by
  have : flattenSubs (symKeys exIn.determ) = some (some [(.par ['b'], .mul (.num 3) (.sym (.par ['a'])))]) := by
    simp [symKeys, exIn, flattenSubs, resolveLoop, resolve, flatDeps, dkeys, dget, dset, SExpr.syms, SExpr.subsSeq, List.eraseDups_cons]
  unfold resolveDeterministic
  rw [this]
  rfl

/-- the build succeeds: hypotheses of the C78 theorems hold, and `s` goes to the hyper-parameters -/
theorem ex_builds : ∃ out, compileGcn exOracle exFlags exIn = .ok out ∧ out.param = [(['a'], .num 5)] ∧ out.hyper = [(['s'], .num 1)] ∧
    out.vars = [exX] ∧ out.reducedParams = [] ∧ dkeys out.determ = [['b']] := by
  have h1 : applySimplifications exOracle exFlags exIn = some (exIn.equations, [exX], [], []) := rfl
  have h2 : simplifyProvided exIn.ss [exX] = some exIn.ss := by
    unfold simplifyProvided
    simp only
    rw [if_pos]
    rfl
  unfold compileGcn
  rw [h1]
  simp only
  rw [h2]
  simp only
  rw [ex_resolve]
  simp only
  have h3 : validateResults exIn.equations (ssRelations exIn.ss)
      (splitOutHyper exIn.param (splitDistributions exIn.dists exIn.shockDists (exIn.shocks.map TSym.base)).2).1 exIn.calib
      [(['b'], .mul (.num 3) (.sym (.par ['a'])))] exFlags.onUnused (exOracle.distArgs exIn.dists) exIn.distParams = .ok [] := rfl
  rw [h3]
  exact ⟨_, rfl, rfl, rfl, rfl, rfl, rfl⟩

example : (∀ v ∈ exIn.vars, v.idx = .t 0) ∧ (dkeys exIn.param).Nodup ∧ (dkeys exIn.ss).Nodup ∧
    (dkeys (allDefs exIn.param exIn.calib exIn.determ)).Nodup ∧ SameValues exOracle.simp ∧ exOracle.ss.Lawful ∧ exOracle.ss.Complete ∧
    (∀ e s, s ∈ exOracle.order e ↔ s ∈ e.tsyms) :=
  ⟨by decide, by decide, by decide, by decide, fun _ _ _ => rfl, SSt.lin_lawful, SSt.lin_complete, fun _ _ => Iff.rfl⟩

/-- an undefined parameter, an unused one, and the three modes -/
example : (∃ l, validateResults [.sym (.par ['q'])] [] [] [] [] .ignore [] [] = .error (.orphan l)) ∧
    validateResults [.num 1] [] [(['a'], .num 1)] [] [] .warn [] [] = .ok [['a']] ∧
    validateResults [.num 1] [] [(['a'], .num 1)] [] [] .ignore [] [] = .ok [] :=
  ⟨⟨_, rfl⟩, rfl, rfl⟩

end Bld

end GE
