import Verif.Props.BlockValidate
import Verif.Props.Closure
import Verif.Props.ExpandTime
import Verif.Model.PipelineSpec
import Verif.Props.Grammar
/-! # C112: from the text of a GCN file to the equations of the model -/

namespace GE
namespace Pip
open Ldr Num

theorem dget_numbered {α} : ∀ (l : List α) (n k : Nat), dget (numbered n l) (n + k) = l[k]?
  | [], n, k => by simp [numbered, dget]
  | a :: l, n, k => by
    rw [numbered_cons]
    cases k with
    | zero => simp [dget]
    | succ k =>
      have : dget ((n, a) :: numbered (n + 1) l) (n + (k + 1)) = dget (numbered (n + 1) l) (n + (k + 1)) := by
        simp [dget]
      rw [this, show n + (k + 1) = n + 1 + k by omega, dget_numbered l (n + 1) k]
      simp

theorem dvals_component {α} (n : Nat) (l : List α) : dvals (component n l) = l := by
  unfold component dvals
  split
  · rename_i h; simp [h]
  · simp [numbered, List.map_snd_zip]

theorem kept_conv {asm} (flags : List (Nat × Flags)) {es : List Eqn} {cs : List SEq}
    (h : List.Forall₂ (fun e s => eqnToSympy asm e = .ok s) es cs) :
    ∀ n, (∀ j e, es[j]? = some e → dget flags (n + j) = some (extractFlags e)) →
    List.Forall₂ (fun e s => eqnToSympy asm e = .ok s) (es.filter fun e => Tag.exclude ∉ e.tags)
      (((numbered n cs).filter fun p => !((dget flags p.1).elim false Flags.exclude)).map Prod.snd) := by
  induction h with
  | nil => intro n _; simp [numbered]
  | @cons e s es cs h1 h2 ih =>
    intro n hf
    have h0 := hf 0 e (by simp)
    have ih' := ih (n + 1) fun j e' he' => by
      have := hf (j + 1) e' (by simpa using he')
      rwa [show n + (j + 1) = n + 1 + j by omega] at this
    rw [numbered_cons, List.filter_cons, List.filter_cons]
    rw [Nat.add_zero] at h0
    have hx := (C20_flags asm e).1
    have hh : (dget flags (n, s).1).elim false Flags.exclude = (extractFlags e).exclude := by
      show (dget flags n).elim false Flags.exclude = _
      rw [h0]; rfl
    rw [hh]
    by_cases ht : Tag.exclude ∈ e.tags
    · rw [hx.2 ht, if_neg (by simp [ht]), if_neg (by simp)]
      exact ih'
    · have : (extractFlags e).exclude = false := by
        rw [← Bool.not_eq_true]; exact fun h => ht (hx.1 h)
      rw [this, if_pos (by simp [ht]), if_pos (by simp), List.map_cons]
      exact .cons h1 ih'

theorem keptConstraints_eq (B : Block) (n : Nat) (cs : List SEq) (h : B.constraints = component n cs) :
    B.keptConstraints = ((numbered n cs).filter fun p => !((dget B.flags p.1).elim false Flags.exclude)).map Prod.snd := by
  unfold Block.keptConstraints
  rw [h]
  unfold component
  split
  · rename_i h; subst h; simp [numbered]
  · rfl

/-- no calibrating arrow on an equation that passed validation -/
theorem no_arrow {asm : List (Str × Asm)} {e : Eqn} (h : (extractFlags e).isCalibrating = false) : e.calibrating = none ∨ e.calibrating = some [] := by
  have := (C20_flags asm e).2.2.2.1
  rcases hc : e.calibrating with _ | _ | ⟨c, p⟩
  · exact .inl rfl
  · exact .inr rfl
  · rw [this.2 ⟨c :: p, hc, by simp⟩] at h; cases h

theorem conv_holds {asm e s} (h : eqnToSympy asm e = .ok s) (hc : (extractFlags e).isCalibrating = false) (R : RealPath) (t : Int) :
    s.lhs.val R t = s.rhs.val R t ↔ e.holds (realInterp asm R) (pathOf asm R) t := by
  rcases no_arrow (asm := asm) hc with hc | hc
  · exact (C51_equation asm e s h).1 hc R t
  · have h' : eqnToSympy asm { e with calibrating := none } = .ok s := by
      unfold eqnToSympy at h ⊢
      simpa [hc] using h
    exact (C51_equation asm _ s h').1 rfl R t

theorem forall2_iff {α β} {R : α → β → Prop} {l : List α} {m : List β} (h : List.Forall₂ R l m) (p : α → Prop) (q : β → Prop)
    (hpq : ∀ a ∈ l, ∀ b, R a b → (q b ↔ p a)) : (∀ b ∈ m, q b) ↔ ∀ a ∈ l, p a := by
  induction h with
  | nil => simp
  | @cons a b l m h1 _ ih =>
    simp only [List.mem_cons, forall_eq_or_imp]
    rw [ih fun a ha => hpq a (List.mem_cons_of_mem _ ha), hpq a (List.mem_cons_self ..) b h1]

/-- the flags recorded for the `i`-th equation of the block -/
theorem flag_at {asm b B} (h : astBlockToBlock asm b = .ok B) (i : Nat) (e : Eqn) (he : b.equations[i]? = some e) :
    dget B.flags i = some (extractFlags e) := by
  obtain ⟨_, hf, _⟩ := C20_numbering asm b B h
  rw [hf]
  have := dget_numbered (b.equations.map extractFlags ++ (keptCalib b.calibration).map calibFlags) 0 i
  rw [Nat.zero_add] at this
  rw [this, List.getElem?_append_left]
  · simp [he]
  · have := (List.getElem?_eq_some_iff.1 he).1
    simpa using this

theorem mem_numbered {α} {l : List α} {n j : Nat} {a : α} (h : l[j]? = some a) : (n + j, a) ∈ numbered n l := by
  apply mem_of_dget
  rw [dget_numbered, h]

/-- a component of a validated block carries no calibrating arrows -/
theorem comp_plain {asm} {b : Blk} {B : Block} (h : astBlockToBlock asm b = .ok B) {es : List Eqn} {ss : List SEq} {n : Nat}
    {comp : Option (List (Nat × SEq))} (hc : comp = component n ss) (hf2 : List.Forall₂ (fun e s => eqnToSympy asm e = .ok s) es ss)
    (hi : ∀ j e, es[j]? = some e → b.equations[n + j]? = some e) {me mo : Prop}
    (hw : ∀ l, comp = some l → ∀ p ∈ l, TagsWithin B.flags me mo p.1) :
    ∀ e ∈ es, (extractFlags e).isCalibrating = false := by
  intro e he
  obtain ⟨j, hj⟩ := List.mem_iff_getElem?.1 he
  have hlen := hf2.length_eq
  obtain ⟨hjl, _⟩ := List.getElem?_eq_some_iff.1 hj
  have hs : ss[j]? = some (ss[j]'(hlen ▸ hjl)) := List.getElem?_eq_getElem _
  have hne : ss ≠ [] := by intro h; rw [h, List.length_nil] at hlen; omega
  obtain ⟨f, h1, h2, _⟩ := hw (numbered n ss) (by rw [hc]; simp [component, hne]) _ (mem_numbered hs)
  rw [flag_at h _ _ (hi j e hj)] at h1
  cases h1
  exact h2

theorem defsHold_consolidate {B0 B : Block} (h : B0.consolidate = .ok B) (R : RealPath) (hd : DefsHold (dvals B0.definitions) R) :
    DefsHold (dvals B.definitions) R ∧ (∃ ds, B = { B0 with definitions := ds }) := by
  cases hB : B0.definitions with
  | none =>
    have : B = B0 := by
      unfold Block.consolidate at h
      rw [hB] at h
      simpa using h.symm
    subst this
    exact ⟨hd, B.definitions, rfl⟩
  | some ds =>
    obtain ⟨ds', rfl, h2⟩ := C49_consolidate B0 B ds hB h
    refine ⟨?_, _, rfl⟩
    rw [hB] at hd
    have hd' : ∀ u, ∀ q ∈ ds, q.2.lhs.at R.val u = q.2.rhs.at R.val u := fun u q hq => hd q.2 (List.mem_map.2 ⟨q, hq, rfl⟩) u
    intro e he u
    obtain ⟨p, hp, rfl⟩ := List.mem_map.1 he
    obtain ⟨q, hq, h3, h4, h5⟩ : ∃ q ∈ ds, p.1 = q.1 ∧ p.2.lhs = q.2.lhs ∧ p.2.rhs.at R.val u = q.2.rhs.at R.val u := by
      obtain ⟨i, hi⟩ := List.mem_iff_getElem?.1 hp
      have hl := h2.length_eq
      obtain ⟨hil, hie⟩ := List.getElem?_eq_some_iff.1 hi
      have := (List.forall₂_iff_get.1 h2).2 i (by simpa [hl] using hil) hil
      refine ⟨ds[i]'(by simpa [hl] using hil), List.getElem_mem _, ?_⟩
      simp only [Option.getD_some, List.get_eq_getElem] at this hie
      rw [hie] at this
      exact ⟨this.1, this.2.1, this.2.2 R.val u (hd' u)⟩
    show p.2.lhs.at R.val u = p.2.rhs.at R.val u
    rw [h4, h5]
    exact hd' u q hq

/-- the equations a block imposes directly -/
def stated (b : Blk) : List Eqn := b.identities ++ b.constraints.filter (fun e => Tag.exclude ∉ e.tags) ++ b.objective

/-- what a converted block's components say -/
theorem stated_conv {asm b B0} (h : astBlockToBlock asm b = .ok B0) (hv : B0.validate = .ok ()) (R : RealPath) (t : Int) :
    ((∀ s ∈ dvals B0.identities ++ B0.keptConstraints ++ dvals B0.objective, s.lhs.val R t = s.rhs.val R t) ↔
      ∀ e ∈ stated b, e.holds (realInterp asm R) (pathOf asm R) t) ∧
    ((∀ s ∈ dvals B0.definitions, s.lhs.val R t = s.rhs.val R t) ↔
      ∀ e ∈ b.definitions, e.holds (realInterp asm R) (pathOf asm R) t) := by
  have wf := (C67_accepted_iff B0).1 hv
  obtain ⟨⟨ds, os, cs, is, ks, hds, ed, hos, eo, hcs, ec, his, ei, _⟩, hfl, _⟩ := C20_numbering asm b B0 h
  have ld := hds.length_eq
  have lo := hos.length_eq
  have pd := comp_plain h ed hds (fun j e he => by
    have := (List.getElem?_eq_some_iff.1 he).1
    simp only [Blk.equations, List.append_assoc, Nat.zero_add]
    rw [List.getElem?_append_left this, he]) wf.definitions
  have po := comp_plain h eo hos (fun j e he => by
    have := (List.getElem?_eq_some_iff.1 he).1
    simp only [Blk.equations, List.append_assoc]
    rw [List.getElem?_append_right (by omega), Nat.add_sub_cancel_left, List.getElem?_append_left this, he])
    (fun l hl p hp => (wf.objective l hl p hp).1)
  have gc : ∀ j e, b.constraints[j]? = some e → b.equations[b.definitions.length + b.objective.length + j]? = some e := fun j e he => by
    have := (List.getElem?_eq_some_iff.1 he).1
    simp only [Blk.equations, List.append_assoc]
    rw [List.getElem?_append_right (by omega), List.getElem?_append_right (by omega), List.getElem?_append_left (by omega), ← he]
    congr 1; omega
  have pc := comp_plain h ec hcs gc wf.constraints
  have pi := comp_plain h ei his (fun j e he => by
    have := (List.getElem?_eq_some_iff.1 he).1
    simp only [Blk.equations, List.append_assoc]
    rw [List.getElem?_append_right (by omega), List.getElem?_append_right (by omega), List.getElem?_append_right (by omega), ← he]
    congr 1; omega) wf.identities
  have hk := kept_conv B0.flags hcs _ (fun j e he => flag_at h _ e (gc j e he))
  rw [← keptConstraints_eq B0 _ cs ec] at hk
  constructor
  · simp only [stated, List.mem_append, or_imp, forall_and]
    rw [ei, eo, dvals_component, dvals_component]
    refine and_congr (and_congr ?_ ?_) ?_
    · exact forall2_iff his _ _ fun a ha s hs => conv_holds hs (pi a ha) R t
    · exact forall2_iff hk _ _ fun a ha s hs => conv_holds hs (pc a (List.mem_of_mem_filter ha)) R t
    · exact forall2_iff hos _ _ fun a ha s hs => conv_holds hs (po a ha) R t
  · rw [ed, dvals_component]
    exact forall2_iff hds _ _ fun a ha s hs => conv_holds hs (pd a ha) R t

theorem gaps_zero (R : RealPath) (t : Int) (l : List SEq) : (∀ x ∈ gaps R t l, x = 0) ↔ ∀ s ∈ l, s.lhs.val R t = s.rhs.val R t := by
  unfold gaps
  simp only [List.mem_map, forall_exists_index, and_imp, forall_apply_eq_imp_iff₂, sub_eq_zero]
  exact ⟨fun h s hs => (h s hs).symm, fun h s hs => (h s hs).symm⟩

/-- the equations of a built block: those stated in the expanded block, and the first-order conditions -/
theorem built_equations {asm ss b r} (h : constructBlock asm ss b = .ok r) :
    ∃ plain focs, r.equations = plain ++ focs ∧ (b.controls = [] → focs = []) ∧
      ∀ R : RealPath, (∀ t, ∀ e ∈ (expandBlock b).definitions, e.holds (realInterp asm R) (pathOf asm R) t) → ∀ t,
        ((∀ q ∈ plain, q.val R t = 0) ↔ ∀ e ∈ stated (expandBlock b), e.holds (realInterp asm R) (pathOf asm R) t) := by
  obtain ⟨B0, B, vs0, dicts, s, h1, h2, h3, _, _, h6, _, _, h9, _⟩ := build_ok h
  rw [h9]
  have wf := (C67_accepted_iff B0).1 h2
  have hctl : B0.controls = convertVars asm (expandBlock b).controls := by
    unfold astBlockToBlock at h1
    repeat' split at h1
    all_goals first | (cases h1; done) | (cases h1; rfl)
  have hdefs : ∀ R : RealPath, (∀ t, ∀ e ∈ (expandBlock b).definitions, e.holds (realInterp asm R) (pathOf asm R) t) →
      DefsHold (dvals B0.definitions) R := fun R hR s hs t => ((stated_conv h1 h2 R t).2.2 (hR t)) s hs
  obtain ⟨dd, hB⟩ : ∃ ds, B = { B0 with definitions := ds } := by
    unfold Block.consolidate at h3
    split at h3
    · exact ⟨B0.definitions, by cases h3; rfl⟩
    · split at h3
      · cases h3; exact ⟨_, rfl⟩
      · cases h3
  have e1 : B.identities = B0.identities := by rw [hB]
  have e2 : B.keptConstraints = B0.keptConstraints := by rw [hB]; rfl
  have e3 : B.objective = B0.objective := by rw [hB]
  have e4 : B.controls = B0.controls := by rw [hB]
  cases hc : B.controls with
  | none =>
    have ho : B.objective = none := by
      rw [e3]; have := wf.both; rw [← e4, hc] at this
      cases hh : B0.objective with
      | none => rfl
      | some x => rw [hh] at this; simp at this
    obtain ⟨_, h7⟩ := C23_no_optimisation B s hc ho h6
    refine ⟨s.equations, [], by simp, fun _ => rfl, ?_⟩
    intro R hR t
    have hv := h7 R (defsHold_consolidate h3 R (hdefs R hR)).1 t
    rw [← (stated_conv h1 h2 R t).1, ← e3, ho, ← e1, ← e2]
    simp only [dvals, Option.getD_none, List.map_nil, List.append_nil]
    rw [← gaps_zero]
    have hg : gaps R t ((B.identities.getD []).map Prod.snd ++ B.keptConstraints) = s.equations.map (·.val R t) := by
      rw [hv]; simp [gaps, dvals]
    rw [hg]; simp
  | some cs =>
    have ho : ∃ okey obj, B.objective = some [(okey, obj)] := by
      have hb := wf.both; rw [← e4, hc, ← e3] at hb
      cases hh : B.objective with
      | none => rw [hh] at hb; simp at hb
      | some x =>
        have hl := wf.one x (by rw [← e3, hh])
        rcases x with _ | ⟨⟨k, o⟩, _ | ⟨y, z⟩⟩
        · unfold Block.solve at h6
          cases hp : B.plainEquations with
          | error e => rw [hp] at h6; cases h6
          | ok eqs => rw [hp] at h6; simp only [hh, hc] at h6; cases h6
        · exact ⟨k, o, rfl⟩
        · simp at hl
    obtain ⟨okey, obj, ho⟩ := ho
    obtain ⟨L, ms, df, plain, focs, _, _, h7, _, h8, _⟩ := C23_equations B s okey obj [] cs hc ho h6
    refine ⟨plain, focs, h7, ?_, ?_⟩
    · intro hb
      exfalso
      have : (expandBlock b).controls = [] := by simp only [expandBlock]; split <;> simp [hb]
      rw [e4, hctl, this] at hc
      simp [convertVars] at hc
    · intro R hR t
      have hv := h8 R (defsHold_consolidate h3 R (hdefs R hR)).1 t
      rw [← (stated_conv h1 h2 R t).1, ← e3, ho, ← e1, ← e2]
      rw [← gaps_zero]
      have hg : gaps R t (dvals B.identities ++ B.keptConstraints ++ dvals (some [(okey, obj)])) = plain.map (·.val R t) := by
        rw [hv]; simp [gaps, dvals]
      rw [hg]; simp

theorem mem_stated_expand (b : Blk) (e' : Eqn) : e' ∈ stated (expandBlock b) ↔
    (∃ e ∈ stated b, e' = replaceEqn (blockDeep b) e) ∨ e' ∈ auxIdentities (blockDeep b) := by
  by_cases hd : (blockDeep b).lags.isEmpty ∧ (blockDeep b).leads.isEmpty
  · have he : expandBlock b = b := by simp only [expandBlock]; rw [if_pos hd]
    have ha : auxIdentities (blockDeep b) = [] := by
      have h1 : (blockDeep b).lags = [] := by simpa using hd.1
      have h2 : (blockDeep b).leads = [] := by simpa using hd.2
      simp [auxIdentities, h1, h2]
    have hr : ∀ e ∈ stated b, replaceEqn (blockDeep b) e = e := by
      intro e he
      apply replaceEqn_of_near
      intro o ho
      refine deep_empty_near b hd o ((blockDeep_spec b).2.1 e ?_ o ho)
      simp only [stated, List.mem_append, List.mem_filter] at he
      simp only [Blk.equations, List.mem_append]
      tauto
    rw [he, ha]
    constructor
    · intro h; exact .inl ⟨e', h, (hr e' h).symm⟩
    · rintro (⟨e, h, rfl⟩ | h)
      · rw [hr e h]; exact h
      · cases h
  · have haux : (auxIdentities (blockDeep b)).map (replaceEqn (blockDeep b)) = auxIdentities (blockDeep b) := by
      conv_rhs => rw [← List.map_id (auxIdentities (blockDeep b))]
      exact List.map_congr_left fun e he => replaceEqn_of_near _ e (aux_vars_near _ e he)
    have htag : ∀ e, (replaceEqn (blockDeep b) e).tags = e.tags := fun e => rfl
    simp only [stated, expandBlock]
    rw [if_neg hd]
    simp only [List.map_append, haux, List.mem_append, List.mem_filter, List.mem_map]
    constructor
    · rintro (((⟨e, h, rfl⟩ | h) | ⟨⟨e, h, rfl⟩, ht⟩) | ⟨e, h, rfl⟩)
      · exact .inl ⟨e, .inl (.inl h), rfl⟩
      · exact .inr h
      · exact .inl ⟨e, .inl (.inr ⟨h, ht⟩), rfl⟩
      · exact .inl ⟨e, .inr h, rfl⟩
    · rintro (⟨e, (h | ⟨h, ht⟩) | h, rfl⟩ | h)
      · exact .inl (.inl (.inl ⟨e, h, rfl⟩))
      · exact .inl (.inr ⟨⟨e, h, rfl⟩, ht⟩)
      · exact .inr ⟨e, h, rfl⟩
      · exact .inl (.inl (.inr h))

theorem defs_expand (b : Blk) (hn : ∀ e ∈ b.definitions, ∀ n k, (n, TIdx.t k) ∈ e.vars → -1 ≤ k ∧ k ≤ 1) :
    (expandBlock b).definitions = b.definitions := by
  have : b.definitions.map (replaceEqn (blockDeep b)) = b.definitions := by
    conv_rhs => rw [← List.map_id b.definitions]
    refine List.map_congr_left fun e he => replaceEqn_of_near _ e ?_
    rintro ⟨n, t⟩ ho
    cases t with
    | ss => trivial
    | t k => exact hn e he n k ho
  simp only [expandBlock]
  split
  · rfl
  · exact this

theorem stated_covers (b : Blk) : ∀ e ∈ stated b, ∀ o ∈ e.vars, (blockDeep b).covers o := by
  intro e he
  refine (blockDeep_spec b).2.1 e ?_
  simp only [stated, List.mem_append, List.mem_filter] at he
  simp only [Blk.equations, List.mem_append]
  tauto

/-- the stated equations of the expanded block, read on a path: the written ones and the chains -/
theorem stated_expand_iff (b : Blk) (I : Interp ℝ) (path : Str → Int → ℝ) :
    (∀ t, ∀ e ∈ stated (expandBlock b), e.holds I path t) ↔
      (∀ t, ∀ e ∈ stated b, e.holds I path t) ∧ ChainHolds path (blockDeep b) := by
  constructor
  · intro h
    have hch : ChainHolds path (blockDeep b) :=
      chain_of_aux I path _ fun e he t => h t e ((mem_stated_expand b e).2 (.inr he))
    exact ⟨fun t e he => (replaceEqn_holds I path _ hch t e (stated_covers b e he)).1
      (h t _ ((mem_stated_expand b _).2 (.inl ⟨e, he, rfl⟩))), hch⟩
  · rintro ⟨h, hch⟩ t e' he'
    rcases (mem_stated_expand b e').1 he' with ⟨e, he, rfl⟩ | he
    · exact (replaceEqn_holds I path _ hch t e (stated_covers b e he)).2 (h t e he)
    · exact aux_of_chain I path _ hch e' he t

open Gcn

/-- the model blocks of a loaded file, one by one -/
theorem loaded_blocks {text ts m P} (hs : SpellsToks text ts) (hf : IsFile ts m) (hl : LoadGcn text P) (hn : m.DistinctNames) :
    ∃ ss, P.equations = P.blocks.flatMap (fun p => p.2.equations) ∧
      List.Forall₂ (fun (b : GBlock) (p : Str × Built) => constructBlock m.assumptions ss b.toBlk = .ok p.2)
        (m.blocks.filter fun b => !isSkippedName b.name) P.blocks := by
  obtain ⟨m', hp, hl⟩ := hl
  cases C107_unique text m m' ((C107_parse text m).2 ⟨ts, hs, hf⟩) hp
  have e : (m.toMdl.blocks.filter fun b => !isSkippedName b.name) = (m.blocks.filter fun b => !isSkippedName b.name).map GBlock.toBlk := by
    simp only [GFile.toMdl, List.filter_map]; rfl
  have hd : ((m.toMdl.blocks.filter fun b => !isSkippedName b.name).map Blk.name).Nodup := by
    rw [e, List.map_map]
    show List.Nodup ((m.blocks.filter fun b => !isSkippedName b.name).map fun b => b.name)
    rw [List.Nodup, List.pairwise_map, List.pairwise_filter]
    refine hn.imp ?_
    intro a b hab ha hb he
    have := (C53_skipped_names a.name).2 (hab he)
    rw [this] at ha
    cases ha
  obtain ⟨h1, ss, _, h2⟩ := C53_blocks_partial m.toMdl P hl hd
  refine ⟨ssSymbols ss, h1, ?_⟩
  rw [e, List.forall₂_map_left_iff] at h2
  exact h2.imp fun b p h => h.2

theorem modelBlock_iff (m : GFile) (b : GBlock) : m.IsModelBlock b ↔ b ∈ m.blocks.filter fun b => !isSkippedName b.name := by
  unfold GFile.IsModelBlock
  rw [List.mem_filter, Bool.not_eq_true', ← Bool.not_eq_true, C53_skipped_names, not_or]

theorem forall2_mem {α β} {R : α → β → Prop} {l : List α} {m : List β} (h : List.Forall₂ R l m) :
    (∀ a ∈ l, ∃ b ∈ m, R a b) ∧ ∀ b ∈ m, ∃ a ∈ l, R a b := by
  induction h with
  | nil => simp
  | @cons a b l m h1 _ ih =>
    constructor
    · rintro x hx
      rcases List.mem_cons.1 hx with rfl | hx
      · exact ⟨b, List.mem_cons_self .., h1⟩
      · obtain ⟨y, hy, h⟩ := ih.1 x hx; exact ⟨y, List.mem_cons_of_mem _ hy, h⟩
    · rintro x hx
      rcases List.mem_cons.1 hx with rfl | hx
      · exact ⟨a, List.mem_cons_self .., h1⟩
      · obtain ⟨y, hy, h⟩ := ih.2 x hx; exact ⟨y, List.mem_cons_of_mem _ hy, h⟩

end Pip
open Pip Gcn

/-- **C112**: whatever path makes all equations of the loaded model zero makes every equation of the file true, as written, at every
date: identities, constraints that are not excluded, and objectives, with lags and leads of any depth -/
theorem C112_written (text : List Char) (ts : List Tok) (m : GFile) (P : Primitives) (hs : SpellsToks text ts) (hf : IsFile ts m)
    (hl : LoadGcn text P) (hn : m.DistinctNames) (hnear : m.NearDefinitions) (R : RealPath) (hd : m.DefinitionsHold R)
    (hR : ∀ q ∈ P.equations, ∀ t, q.val R t = 0) : m.EquationsHold R := by
  obtain ⟨ss, h1, h2⟩ := loaded_blocks hs hf hl hn
  intro b hb e he
  obtain ⟨p, hp, hc⟩ := (forall2_mem h2).1 b ((modelBlock_iff m b).1 hb)
  obtain ⟨plain, focs, h3, _, h5⟩ := built_equations hc
  have hdef : ∀ t, ∀ e ∈ (expandBlock b.toBlk).definitions, e.holds (realInterp m.assumptions R) (pathOf m.assumptions R) t := by
    rw [defs_expand b.toBlk (hnear b hb)]
    exact fun t e he => hd b hb e he t
  have h6 : ∀ t, ∀ e ∈ stated (expandBlock b.toBlk), e.holds (realInterp m.assumptions R) (pathOf m.assumptions R) t := fun t =>
    (h5 R hdef t).1 fun q hq => hR q (by
      rw [h1, List.mem_flatMap]
      exact ⟨p, hp, by rw [h3]; exact List.mem_append_left _ hq⟩) t
  exact fun t => ((stated_expand_iff b.toBlk _ _).1 h6).1 t e he

namespace Pip

theorem shift_iff (m : GFile) (n : Str) : m.IsShiftName n ↔ ∃ y, m.IsVariable y ∧ ∃ k, n = makeLagName y k ∨ n = makeLeadName y k := by
  unfold GFile.IsShiftName makeLagName makeLeadName natStr Nat.repr
  simp only [String.toList_ofList]
  rfl

open Classical in
/-- the path that gives every `y__lagK`, `y__leadK` the value of `y` at the shifted date -/
noncomputable def shifted (m : GFile) (R : RealPath) : RealPath where
  par := R.par
  ss := R.ss
  path n a t :=
    if h : ∃ q : Str × Nat, m.IsVariable q.1 ∧ n = makeLagName q.1 q.2 then pathOf m.assumptions R (choose h).1 (t - (choose h).2)
    else if h : ∃ q : Str × Nat, m.IsVariable q.1 ∧ n = makeLeadName q.1 q.2 then pathOf m.assumptions R (choose h).1 (t + (choose h).2)
    else R.path n a t

theorem shifted_lag {m : GFile} (R : RealPath) {y : Str} (k : Nat) (hy : m.IsVariable y) (t : Int) :
    pathOf m.assumptions (shifted m R) (makeLagName y k) t = pathOf m.assumptions R y (t - k) := by
  have h : ∃ q : Str × Nat, m.IsVariable q.1 ∧ makeLagName y k = makeLagName q.1 q.2 := ⟨(y, k), hy, rfl⟩
  simp only [pathOf, shifted]
  rw [dif_pos h]
  obtain ⟨e1, e2⟩ := lagName_inj (Classical.choose_spec h).2
  rw [← e1, ← e2]

theorem shifted_lead {m : GFile} (R : RealPath) {y : Str} (k : Nat) (hy : m.IsVariable y) (t : Int) :
    pathOf m.assumptions (shifted m R) (makeLeadName y k) t = pathOf m.assumptions R y (t + k) := by
  have h0 : ¬ ∃ q : Str × Nat, m.IsVariable q.1 ∧ makeLeadName y k = makeLagName q.1 q.2 := by
    rintro ⟨q, _, e⟩; exact lagName_ne_leadName _ _ _ _ e.symm
  have h : ∃ q : Str × Nat, m.IsVariable q.1 ∧ makeLeadName y k = makeLeadName q.1 q.2 := ⟨(y, k), hy, rfl⟩
  simp only [pathOf, shifted]
  rw [dif_neg h0, dif_pos h]
  obtain ⟨e1, e2⟩ := leadName_inj (Classical.choose_spec h).2
  rw [← e1, ← e2]

theorem shifted_other {m : GFile} (R : RealPath) {n : Str} (h : ¬ m.IsShiftName n) (a : Asm) (t : Int) :
    (shifted m R).path n a t = R.path n a t := by
  rw [shift_iff] at h
  simp only [shifted]
  rw [dif_neg, dif_neg]
  · rintro ⟨q, h1, h2⟩; exact h ⟨q.1, h1, q.2, .inr h2⟩
  · rintro ⟨q, h1, h2⟩; exact h ⟨q.1, h1, q.2, .inl h2⟩

theorem varNames_var {m : GFile} {b : GBlock} (hb : m.IsModelBlock b) {n : Str} (h : n ∈ b.toBlk.varNames) : m.IsVariable n := by
  refine ⟨b, hb, ?_⟩
  simp only [Blk.varNames, List.mem_append, List.mem_map, List.mem_flatMap] at h
  rcases h with ⟨o, ⟨e, he, ho⟩, rfl⟩ | ⟨v, hv, rfl⟩
  · exact .inl ⟨e, he, o.2, ho⟩
  · exact .inr ⟨v, hv, rfl⟩

theorem shifted_chain {m : GFile} (hfresh : ∀ n, m.IsVariable n → ¬ m.IsShiftName n) (R : RealPath) {b : GBlock} (hb : m.IsModelBlock b) :
    ChainHolds (pathOf m.assumptions (shifted m R)) (blockDeep b.toBlk) := by
  have ok := (blockDeep_spec b.toBlk).1
  constructor
  · intro p hp l _ _ t
    have hv := varNames_var hb (ok.lag2 p hp).2
    rw [shifted_lag R l hv]
    exact (shifted_other R (hfresh _ hv) _ _).symm
  · intro p hp l _ _ t
    have hv := varNames_var hb (ok.lead2 p hp).2
    rw [shifted_lead R l hv]
    exact (shifted_other R (hfresh _ hv) _ _).symm

theorem shifted_holds {m : GFile} (hfresh : ∀ n, m.IsVariable n → ¬ m.IsShiftName n) (R : RealPath) {b : GBlock} (hb : m.IsModelBlock b)
    {e : Eqn} (he : e ∈ b.toBlk.equations) (h : e.holdsOn m.assumptions R) : e.holdsOn m.assumptions (shifted m R) := by
  intro t
  have hc : ∀ o ∈ e.vars, pathOf m.assumptions R o.1 = pathOf m.assumptions (shifted m R) o.1 := by
    intro o ho
    funext k
    refine (shifted_other R (hfresh _ (varNames_var hb ?_)) _ _).symm
    exact List.mem_append_left _ (List.mem_map.2 ⟨o, List.mem_flatMap.2 ⟨e, he, ho⟩, rfl⟩)
  have := h t
  unfold Eqn.holds at this ⊢
  rw [eval_congr _ _ (pathOf m.assumptions (shifted m R)) t e.lhs fun o ho => hc o (by simp [Eqn.vars, ho]),
    eval_congr _ _ (pathOf m.assumptions (shifted m R)) t e.rhs fun o ho => hc o (by simp [Eqn.vars, ho])] at this
  exact this

end Pip
open Pip

/-- **C112**, conversely, for a file without optimisation problems: a path on which every equation of the file holds as written is a
solution of the loaded model, once the auxiliary variables the loader introduces for deep lags and leads are given their values; nothing
else of the path changes -/
theorem C112_complete (text : List Char) (ts : List Tok) (m : GFile) (P : Primitives) (hs : SpellsToks text ts) (hf : IsFile ts m)
    (hl : LoadGcn text P) (hn : m.DistinctNames) (hnear : m.NearDefinitions) (hctl : ∀ b, m.IsModelBlock b → b.controls = [])
    (hfresh : ∀ n, m.IsVariable n → ¬ m.IsShiftName n) (R : RealPath) (hd : m.DefinitionsHold R) (hR : m.EquationsHold R) :
    ∃ R' : RealPath, R'.par = R.par ∧ R'.ss = R.ss ∧ (∀ n, ¬ m.IsShiftName n → R'.path n = R.path n) ∧
      ∀ q ∈ P.equations, ∀ t, q.val R' t = 0 := by
  obtain ⟨ss, h1, h2⟩ := loaded_blocks hs hf hl hn
  refine ⟨shifted m R, rfl, rfl, fun n h => by funext a t; exact shifted_other R h a t, ?_⟩
  intro q hq t
  rw [h1, List.mem_flatMap] at hq
  obtain ⟨p, hp, hq⟩ := hq
  obtain ⟨b, hb, hc⟩ := (forall2_mem h2).2 p hp
  have hb := (modelBlock_iff m b).2 hb
  obtain ⟨plain, focs, h3, h4, h5⟩ := built_equations hc
  rw [h3, h4 (hctl b hb), List.append_nil] at hq
  refine (h5 (shifted m R) ?_ t).2 ?_ q hq
  · rw [defs_expand b.toBlk (hnear b hb)]
    intro t e he
    refine shifted_holds hfresh R hb ?_ (hd b hb e he) t
    simp only [Blk.equations, List.mem_append]
    exact .inl (.inl (.inl he))
  · refine (stated_expand_iff b.toBlk _ _).2 ⟨?_, shifted_chain hfresh R hb⟩ t
    intro t e he
    refine shifted_holds hfresh R hb ?_ (hR b hb e he) t
    simp only [stated, List.mem_append, List.mem_filter] at he
    simp only [Blk.equations, List.mem_append]
    tauto

namespace Pip

/-- a file with a lag of three periods -/
def exText : List Char := "block A { identities { Y[] = K[-3] + g; K[] = 2; }; };".toList
/-- its tokens -/
def exToks : List Tok := [.id "block".toList, .id "A".toList, .lbrace, .id "identities".toList, .lbrace, .id "Y".toList, .tix (.t 0), .eq,
  .id "K".toList, .tix (.t (-3)), .op .add, .id "g".toList, .semi, .id "K".toList, .tix (.t 0), .eq, .num 2, .semi, .rbrace, .semi, .rbrace, .semi]
/-- its block -/
def exBlock : GBlock where
  name := "A".toList
  identities := [{ lhs := .var "Y".toList (.t 0), rhs := .bin .add (.var "K".toList (.t (-3))) (.par "g".toList), lagrange := none, calibrating := none, tags := [] },
    { lhs := .var "K".toList (.t 0), rhs := .num 2, lagrange := none, calibrating := none, tags := [] }]
/-- the file it stands for -/
def exFile : GFile := { blocks := [exBlock] }

theorem exToks_eq : lexText exText = some exToks := by decide +kernel
theorem ex_file : IsFile exToks exFile := (C107_grammar _ _).1 ⟨20, rfl⟩
theorem ex_spells : SpellsToks exText exToks := (C106_reading _ _).1 exToks_eq
theorem ex_load : ∃ P, LoadGcn exText P ∧ P.equations.length = 4 := by
  obtain ⟨P, h1, h2⟩ := Ldr.loaded exFile.toMdl (fun P => P.equations.length) 4 (by decide +kernel)
  exact ⟨P, ⟨exFile, (C107_parse _ _).2 ⟨_, ex_spells, ex_file⟩, h1⟩, h2⟩

theorem ex_block (b : GBlock) (h : exFile.IsModelBlock b) : b = exBlock := by simpa [exFile] using h.1

theorem ex_model : exFile.IsModelBlock exBlock := by
  have h : ¬ (isSkippedName exBlock.name = true) := by decide
  rw [C53_skipped_names, not_or] at h
  exact ⟨by simp [exFile], h⟩

theorem ex_var (n : Str) (h : exFile.IsVariable n) : n = "Y".toList ∨ n = "K".toList := by
  obtain ⟨b, hb, h⟩ := h
  cases ex_block b hb
  rcases h with ⟨e, he, t, ht⟩ | ⟨v, hv, _⟩
  · simp only [exBlock, List.nil_append, List.mem_cons, List.not_mem_nil, or_false] at he
    rcases he with rfl | rfl
    · simp only [Eqn.vars, Expr.vars, List.append_nil, List.mem_append, List.mem_singleton, Prod.mk.injEq] at ht
      rcases ht with h | h
      · exact .inl h.1
      · exact .inr h.1
    · simp only [Eqn.vars, Expr.vars, List.append_nil, List.mem_singleton, Prod.mk.injEq] at ht
      exact .inr ht.1
  · simp [exBlock] at hv

theorem ex_fresh (n : Str) (h : exFile.IsVariable n) : ¬ exFile.IsShiftName n := by
  rintro ⟨y, _, k, e⟩
  have hl : n.length = 1 := by rcases ex_var n h with rfl | rfl <;> rfl
  rcases e with e | e <;>
  · have := congrArg List.length e
    rw [hl, List.length_append, List.length_append] at this
    have h5 : "__lag".toList.length = 5 := rfl
    have h6 : "__lead".toList.length = 6 := rfl
    omega

/-- capital is 2, income 2 + g -/
noncomputable def exPath : RealPath where
  par _ := 5
  path n _ _ := if n = "Y".toList then 7 else 2
  ss _ _ := 0

end Pip

/-- the hypotheses of both theorems are met: the file loads as four equations (two written, two for the lag), the path solves the file,
its extension solves the loaded model, and reading back gives the written equations -/
example : ∃ P, LoadGcn exText P ∧ P.equations.length = 4 ∧
    ∃ R' : RealPath, (∀ q ∈ P.equations, ∀ t, q.val R' t = 0) ∧ R'.path "Y".toList = exPath.path "Y".toList ∧ exFile.EquationsHold R' := by
  obtain ⟨P, h1, h2⟩ := ex_load
  have hn : exFile.DistinctNames := by simp [GFile.DistinctNames, exFile]
  have hnear : exFile.NearDefinitions := by
    intro b hb e he; cases ex_block b hb; simp [exBlock] at he
  have hd : ∀ R, exFile.DefinitionsHold R := by
    intro R b hb e he; cases ex_block b hb; simp [exBlock] at he
  obtain ⟨R', _, _, h5, h6⟩ := C112_complete exText exToks exFile P ex_spells ex_file h1 hn hnear
    (fun b hb => by cases ex_block b hb; rfl) ex_fresh exPath (hd _) (by
      intro b hb e he t
      cases ex_block b hb
      simp only [GBlock.stated, exBlock, List.filter_nil, List.append_nil, List.mem_cons, List.not_mem_nil, or_false] at he
      rcases he with rfl | rfl
      · have hK : ¬ ("K".toList = "Y".toList) := by decide
        simp [Eqn.holds, Expr.eval, realInterp, pathOf, exPath]
        norm_num
      · simp [Eqn.holds, Expr.eval, realInterp, pathOf, exPath])
  exact ⟨P, h1, h2, R', h6, h5 _ (ex_fresh _ ⟨exBlock, ex_model, .inl ⟨_, List.mem_cons_self .., .t 0, by simp [Eqn.vars, Expr.vars]⟩⟩),
    C112_written exText exToks exFile P ex_spells ex_file h1 hn hnear R' (hd R') h6⟩

end GE
