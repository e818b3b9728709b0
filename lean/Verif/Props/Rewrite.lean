import Verif.Model.RewriteSpec
import Verif.Props.FileCalibration
import Verif.Props.StationaryDefs
import Verif.Props.Timing
import Mathlib.Data.List.Perm.Basic
/-! # C148: files that say the same give the same model -/

namespace GE
namespace Lyt
open Gcn Pip Ldr FCal

theorem strLe_antisymm {a b : Str} (h1 : strLe a b = true) (h2 : strLe b a = true) : a = b := by
  simp only [strLe, decide_eq_true_eq] at h1 h2
  exact List.le_antisymm h1 h2

/-- two lists with the same entries, sorted by a key that tells them apart, are the same -/
theorem sorted_eq {α} (key : α → Str) {l l' : List α} (hp : l.Perm l') (h : l.Pairwise fun a b => strLe (key a) (key b) = true)
    (h' : l'.Pairwise fun a b => strLe (key a) (key b) = true) (hk : ∀ a ∈ l, ∀ b ∈ l, key a = key b → a = b) : l = l' :=
  hp.eq_of_pairwise (fun a b ha hb h1 h2 => hk a ha b (hp.mem_iff.2 hb) (strLe_antisymm h1 h2)) h h'

/-- merging does not depend on the order of the blocks -/
theorem merge_perm {ds ds' : List (List (Sym × SExpr))} (hp : ds.Perm ds') {r} (h : mergeParams ds = .ok r) (hn : ∀ d ∈ ds, (dkeys d).Nodup)
    (hpar : ∀ d ∈ ds, ∀ k ∈ dkeys d, ∃ n, k = .par n) : mergeParams ds' = .ok r := by
  cases h' : mergeParams ds' with
  | error e =>
    exfalso
    obtain ⟨k, hk⟩ := (C19_duplicates ds').1.1 ⟨e, h'⟩
    rw [← hp.countP_eq] at hk
    obtain ⟨e', he⟩ := (C19_duplicates ds).1.2 ⟨k, hk⟩
    rw [h] at he; cases he
  | ok r' =>
    obtain ⟨a1, a2, a3⟩ := C19_merge ds r h hn hpar
    obtain ⟨b1, b2, b3⟩ := C19_merge ds' r' h' (fun d hd => hn d (hp.mem_iff.2 hd)) fun d hd => hpar d (hp.mem_iff.2 hd)
    have hmem : ∀ x, x ∈ r ↔ x ∈ r' := by
      rintro ⟨n, v⟩
      rw [a1, b1]
      exact ⟨fun ⟨d, hd, h⟩ => ⟨d, hp.mem_iff.1 hd, h⟩, fun ⟨d, hd, h⟩ => ⟨d, hp.mem_iff.2 hd, h⟩⟩
    have hperm : r.Perm r' := (List.perm_ext_iff_of_nodup a2.of_map b2.of_map).2 hmem
    have := sorted_eq Prod.fst hperm (List.pairwise_map.1 a3) (List.pairwise_map.1 b3) (by
      intro a ha b hb hk
      exact List.inj_on_of_nodup_map a2 ha hb hk)
    rw [this]

/-- the loop succeeds when every block does -/
theorem loop_total {asm ss} : ∀ (bs : List Blk) (acc), (∀ b ∈ bs.filter fun b => !isSkippedName b.name, ∃ r, constructBlock asm ss b = .ok r) →
    ∃ bd, blockDictLoop asm ss bs acc = .ok bd
  | [], acc, _ => ⟨acc, rfl⟩
  | b :: bs, acc, h => by
    simp only [blockDictLoop]
    split
    · rename_i hs
      exact loop_total bs acc fun c hc => h c (by simpa [List.filter_cons, hs] using hc)
    · rename_i hs
      have hs' : isSkippedName b.name = false := by simpa using hs
      obtain ⟨r, hr⟩ := h b (by simp [List.filter_cons, hs'])
      rw [hr]
      exact loop_total bs _ fun c hc => h c (by
        rw [List.filter_cons, hs']
        exact List.mem_cons_of_mem _ hc)

/-- the built blocks are a permutation when the written ones are -/
theorem built_perm {asm ss} {l l' : List Blk} {u u' : List (Str × Built)} (hp : l.Perm l')
    (h : List.Forall₂ (fun (b : Blk) (p : Str × Built) => p.1 = b.name ∧ constructBlock asm ss b = .ok p.2) l u)
    (h' : List.Forall₂ (fun (b : Blk) (p : Str × Built) => p.1 = b.name ∧ constructBlock asm ss b = .ok p.2) l' u') : u.Perm u' := by
  obtain ⟨v, h1, h2⟩ := List.perm_comp_forall₂ hp.symm h
  have huniq : ∀ {l : List Blk} {v w : List (Str × Built)},
      List.Forall₂ (fun (b : Blk) (p : Str × Built) => p.1 = b.name ∧ constructBlock asm ss b = .ok p.2) l v →
      List.Forall₂ (fun (b : Blk) (p : Str × Built) => p.1 = b.name ∧ constructBlock asm ss b = .ok p.2) l w → v = w := by
    intro l v w hv
    induction hv generalizing w with
    | nil => intro hw; cases hw; rfl
    | cons a _ ih =>
      intro hw
      cases hw with
      | cons b hw =>
        rw [ih hw]
        congr 1
        refine Prod.ext (a.1.trans b.1.symm) ?_
        have := a.2.symm.trans b.2
        exact Except.ok.inj this
  rw [← huniq h1 h']
  exact h2.symm

/-- the equations of a block do not depend on the steady state -/
theorem same_equations {asm ss ss' b p p'} (h : constructBlock asm ss b = .ok p) (h' : constructBlock asm ss' b = .ok p') :
    p.equations = p'.equations := by
  obtain ⟨B0, B, vs0, d, s, h1, h2, h3, h4, h5, h6, h7, h8, h9, h10⟩ := build_ok h
  obtain ⟨B0', B', vs0', d', s', h1', h2', h3', h4', h5', h6', h7', h8', h9', h10'⟩ := build_ok h'
  rw [h1] at h1'; cases h1'
  rw [h3] at h3'; cases h3'
  rw [h6] at h6'; cases h6'
  rw [h9, h9']

/-- the equations of a plain block hold exactly when those built from it are zero -/
theorem plain_iff {asm ss} {b : GBlock} (hpl : b.Plain) {p : Built} (hc : constructBlock asm ss b.toBlk = .ok p) {R : RealPath}
    (hd : ∀ e ∈ b.definitions, e.holdsOn asm R) : (∀ q ∈ p.equations, ∀ t, q.val R t = 0) ↔ ∀ e ∈ b.stated, e.holdsOn asm R := by
  obtain ⟨pl, focs, h3, h4, h5⟩ := built_equations hc
  rw [h3, h4 hpl.1, List.append_nil]
  have hexp : expandBlock b.toBlk = b.toBlk :=
    C09_shallow_unchanged b.toBlk (by
      rintro e he ⟨n, i⟩ ho
      cases i with
      | ss => trivial
      | t k => exact hpl.2 e he n k ho) (fun v hv => by rw [show b.toBlk.controls = [] from hpl.1] at hv; cases hv)
  rw [hexp] at h5
  have h5 := h5 R fun t e he => hd e he t
  exact ⟨fun h e he t => (h5 t).1 (fun q hq => h q hq t) e he, fun h q hq t => (h5 t).2 (fun e he => h e he t) q hq⟩

/-- what solves the model of a file solves that of any file it includes -/
theorem carry {text text' ts ts' m m' P P'} (hs : SpellsToks text ts) (hf : IsFile ts m) (hl : LoadGcn text P) (hn : m.DistinctNames)
    (hs' : SpellsToks text' ts') (hf' : IsFile ts' m') (hl' : LoadGcn text' P') (hn' : m'.DistinctNames)
    (ha : m.assumptions = m'.assumptions) (hinc : m.Includes m') (hnear : m.NearDefinitions) (R : RealPath) (hd : m.DefinitionsHold R)
    (hd' : m'.DefinitionsHold R) (hR : ∀ q ∈ P.equations, ∀ t, q.val R t = 0) : ∀ q ∈ P'.equations, ∀ t, q.val R t = 0 := by
  obtain ⟨ss, h1, h2⟩ := loaded_blocks hs hf hl hn
  obtain ⟨ss', h1', h2'⟩ := loaded_blocks hs' hf' hl' hn'
  intro q hq
  rw [h1', List.mem_flatMap] at hq
  obtain ⟨p', hp', hq⟩ := hq
  obtain ⟨b', hb', hc'⟩ := (forall2_mem h2').2 p' hp'
  have hb' := (modelBlock_iff m' b').2 hb'
  rcases hinc b' hb' with hb | ⟨hpl, hst⟩
  · obtain ⟨p, hp, hc⟩ := (forall2_mem h2).1 b' ((modelBlock_iff m b').1 hb)
    refine hR q ?_
    rw [h1, List.mem_flatMap]
    refine ⟨p, hp, ?_⟩
    rw [ha] at hc
    rwa [same_equations hc hc']
  · refine (plain_iff hpl hc' (hd' b' hb')).2 (fun e he => ?_) q hq
    obtain ⟨b, hb, he⟩ := hst e he
    rw [← ha]
    exact C112_written text ts m P hs hf hl hn hnear R hd hR b hb e he

theorem sortByName_perm {xs ys : List TSym} (h : ∀ x, x ∈ xs ↔ x ∈ ys) : (sortByName xs).Perm (sortByName ys) :=
  (List.perm_ext_iff_of_nodup (sortByName_nodup _) (sortByName_nodup _)).2 fun x => by rw [mem_sortByName, mem_sortByName, h]

theorem names_now {a b : TSym} (ha : a.idx = .t 0) (hb : b.idx = .t 0) (h : createName a = createName b) : a.base = b.base := by
  rw [createName_eq, createName_eq, ha, hb] at h
  exact List.append_cancel_right h

/-- the model blocks of a file -/
theorem filter_blk (m : GFile) : (m.toMdl.blocks.filter fun b => !isSkippedName b.name) = (m.blocks.filter fun b => !isSkippedName b.name).map GBlock.toBlk := by
  simp only [GFile.toMdl, List.filter_map]; rfl

theorem filter_perm {m m' : GFile} (hp : m.blocks.Perm m'.blocks) :
    (m.toMdl.blocks.filter fun b => !isSkippedName b.name).Perm (m'.toMdl.blocks.filter fun b => !isSkippedName b.name) := by
  rw [filter_blk, filter_blk]; exact (hp.filter _).map _

theorem names_perm {m m' : GFile} (hp : m.blocks.Perm m'.blocks) (hn : m.DistinctNames) : m'.DistinctNames :=
  (hp.pairwise_iff (fun {a b} h e => by rw [e]; exact h e.symm)).1 hn

theorem distinct_filter (m : GFile) (hn : m.DistinctNames) : ((m.toMdl.blocks.filter fun b => !isSkippedName b.name).map Blk.name).Nodup := by
  rw [filter_blk, List.map_map]
  show List.Nodup ((m.blocks.filter fun b => !isSkippedName b.name).map fun b => b.name)
  rw [List.Nodup, List.pairwise_map, List.pairwise_filter]
  refine hn.imp ?_
  intro a b hab ha hb he
  have := (C53_skipped_names a.name).2 (hab he)
  rw [this] at ha
  cases ha

/-- the steady state read does not depend on the order of the blocks -/
theorem same_ss {m m' : GFile} (hone : m.OneSteady) (ha : m.assumptions = m'.assumptions) (hp : m.blocks.Perm m'.blocks) :
    extractSS m.assumptions m.toMdl = extractSS m'.assumptions m'.toMdl := by
  have : (m'.toMdl.blocks.find? fun b => isSSName b.name) = m.toMdl.blocks.find? fun b => isSSName b.name := by
    show (m'.blocks.map GBlock.toBlk).find? _ = (m.blocks.map GBlock.toBlk).find? _
    rw [List.find?_map, List.find?_map]
    congr 1
    show (m'.blocks.find? fun b => isSSName b.name) = m.blocks.find? fun b => isSSName b.name
    cases h1 : m.blocks.find? fun b => isSSName b.name with
    | none =>
      rw [List.find?_eq_none] at h1 ⊢
      exact fun b hb => h1 b (hp.mem_iff.2 hb)
    | some b =>
      have hb := List.mem_of_find?_eq_some h1
      have hbn : isSSName b.name = true := List.find?_some (p := fun b : GBlock => isSSName b.name) h1
      cases h2 : m'.blocks.find? fun b => isSSName b.name with
      | none =>
        rw [List.find?_eq_none] at h2
        exact absurd hbn (h2 b (hp.mem_iff.1 hb))
      | some c =>
        have hc := hp.mem_iff.2 (List.mem_of_find?_eq_some h2)
        have hcn : isSSName c.name = true := List.find?_some (p := fun b : GBlock => isSSName b.name) h2
        rw [hone b hb c hc ((C54_ss_names _).1 hbn) ((C54_ss_names _).1 hcn)]
  unfold extractSS
  rw [this, ← ha]

end Lyt
open Lyt Gcn Pip Ldr FCal

/-- **C148**: layout. Two texts that spell the same tokens - other line breaks, other spaces, other comments - give the same model and the
same priors, or are both rejected -/
theorem C148_layout (text text' : List Char) (ts : List Tok) (hs : SpellsToks text ts) (hs' : SpellsToks text' ts) :
    (∀ P, LoadGcn text P ↔ LoadGcn text' P) ∧ ∀ pz r, LoadGcnDists pz text r ↔ LoadGcnDists pz text' r := by
  have key : ∀ m, ParseGcn text m ↔ ParseGcn text' m := by
    intro m
    rw [C107_parse, C107_parse]
    constructor
    · rintro ⟨us, h1, h2⟩
      cases C106_unique _ _ _ h1 hs
      exact ⟨_, hs', h2⟩
    · rintro ⟨us, h1, h2⟩
      cases C106_unique _ _ _ h1 hs'
      exact ⟨_, hs, h2⟩
  exact ⟨fun P => exists_congr fun m => and_congr_left' (key m), fun pz r => exists_congr fun m => and_congr_left' (key m)⟩

/-- **C148**: where an equation is written does not matter. If each of two files says what the other says - blocks kept as they are in any
order, equations of plain blocks moved to other blocks, repeated or gathered in one - then on every path on which the definitions hold the
one model is solved exactly when the other is -/
theorem C148_equations (text text' : List Char) (ts ts' : List Tok) (m m' : GFile) (P P' : Primitives) (hs : SpellsToks text ts)
    (hf : IsFile ts m) (hl : LoadGcn text P) (hn : m.DistinctNames) (hs' : SpellsToks text' ts') (hf' : IsFile ts' m')
    (hl' : LoadGcn text' P') (hn' : m'.DistinctNames) (ha : m.assumptions = m'.assumptions) (hinc : m.Includes m') (hinc' : m'.Includes m)
    (hnear : m.NearDefinitions) (hnear' : m'.NearDefinitions) (R : RealPath) (hd : m.DefinitionsHold R) (hd' : m'.DefinitionsHold R) :
    (∀ q ∈ P.equations, ∀ t, q.val R t = 0) ↔ ∀ q ∈ P'.equations, ∀ t, q.val R t = 0 :=
  ⟨carry hs hf hl hn hs' hf' hl' hn' ha hinc hnear R hd hd', carry hs' hf' hl' hn' hs hf hl hn ha.symm hinc' hnear' R hd' hd⟩

/-- **C148**: two files with the same assumptions whose model blocks declare the same shocks, in whatever blocks, have the same shocks in
the same order -/
theorem C148_shocks (text text' : List Char) (ts ts' : List Tok) (m m' : GFile) (P P' : Primitives) (hs : SpellsToks text ts)
    (hf : IsFile ts m) (hl : LoadGcn text P) (hn : m.DistinctNames) (hs' : SpellsToks text' ts') (hf' : IsFile ts' m')
    (hl' : LoadGcn text' P') (hn' : m'.DistinctNames) (ha : m.assumptions = m'.assumptions)
    (hsh : ∀ n, (∃ b, m.IsModelBlock b ∧ ∃ v ∈ b.shocks, v.name = n) ↔ ∃ b, m'.IsModelBlock b ∧ ∃ v ∈ b.shocks, v.name = n) :
    P.shocks = P'.shocks := by
  have k1 := C120_shocks text ts m P hs hf hl hn
  have k2 := C120_shocks text' ts' m' P' hs' hf' hl' hn'
  obtain ⟨_, _, _, _, _, _, _, hm, _⟩ := load_ok (load_text hs hf hl hn).1
  obtain ⟨_, _, _, _, _, _, _, hm', _⟩ := load_ok (load_text hs' hf' hl' hn').1
  obtain ⟨_, _, _, hnd, _, hso⟩ := C52_merge ((P.blocks.map Prod.snd).map fun b => (b.variables, b.block.shocks.getD [])) ⟨[], .t 0, mergeAssumptions none⟩
  obtain ⟨_, _, _, hnd', _, hso'⟩ := C52_merge ((P'.blocks.map Prod.snd).map fun b => (b.variables, b.block.shocks.getD [])) ⟨[], .t 0, mergeAssumptions none⟩
  rw [← hm] at hnd hso
  rw [← hm'] at hnd' hso'
  have hmem : ∀ x, x ∈ P.shocks ↔ x ∈ P'.shocks := by
    intro x
    rw [k1, k2]
    constructor
    · rintro ⟨b, hb, v, hv, rfl⟩
      obtain ⟨c, hc, w, hw, e⟩ := (hsh v.name).1 ⟨b, hb, v, hv, rfl⟩
      exact ⟨c, hc, w, hw, by rw [e, ha]⟩
    · rintro ⟨b, hb, v, hv, rfl⟩
      obtain ⟨c, hc, w, hw, e⟩ := (hsh v.name).2 ⟨b, hb, v, hv, rfl⟩
      exact ⟨c, hc, w, hw, by rw [e, ha]⟩
  refine sorted_eq createName ((List.perm_ext_iff_of_nodup hnd hnd').2 hmem) hso hso' ?_
  intro a hA b hB hk
  obtain ⟨_, _, v, _, rfl⟩ := (k1 a).1 hA
  obtain ⟨_, _, w, _, rfl⟩ := (k1 b).1 hB
  have := names_now rfl rfl hk
  simp only at this
  rw [this]

/-- **C148**: the order of the blocks does not matter. If a file loads, so does any file with the same blocks in another order, with the
same blocks built, the same equations up to order, the same variables, shocks, parameters, calibrating equations, computed parameters and
steady-state values. (Variables and names to reduce are the same lists if no two variables share a name.) -/
theorem C148_order (text text' : List Char) (ts ts' : List Tok) (m m' : GFile) (P : Primitives) (hs : SpellsToks text ts)
    (hf : IsFile ts m) (hl : LoadGcn text P) (hn : m.DistinctNames) (hpar : m.ParametersOnly) (hone : m.OneSteady)
    (hs' : SpellsToks text' ts') (hf' : IsFile ts' m') (ha : m.assumptions = m'.assumptions) (htr : m.tryreduce = m'.tryreduce)
    (hp : m.blocks.Perm m'.blocks) :
    ∃ P', LoadGcn text' P' ∧ P.blocks.Perm P'.blocks ∧ P.equations.Perm P'.equations ∧ P.variables.Perm P'.variables ∧
      P.shocks = P'.shocks ∧ P.param = P'.param ∧ P.calib = P'.calib ∧ P.determ = P'.determ ∧ P.ss = P'.ss ∧
      ((P.variables.map TSym.base).Nodup → P.variables = P'.variables ∧ P.tryreduce = P'.tryreduce) := by
  obtain ⟨hload, _⟩ := load_text hs hf hl hn
  obtain ⟨ss, e1, e2, e3, e4, e5, e6, e7, e8, e9⟩ := load_ok hload
  have hn' : m'.DistinctNames := names_perm hp hn
  have hpf := filter_perm hp
  have hdist := distinct_filter
  have hfe := filter_blk
  have hss : extractSS m'.assumptions m'.toMdl = .ok ss := (same_ss hone ha hp).symm.trans e1
  obtain ⟨u, hu, hfu⟩ := loop_distinct _ _ _ e3 (by simpa [dkeys] using hdist m hn)
  rw [List.nil_append] at hu
  obtain ⟨bd', e3'⟩ : ∃ bd', blockDictLoop m'.toMdl.assumptions (ssSymbols ss) m'.toMdl.blocks [] = .ok bd' := by
    refine loop_total _ _ fun b hb => ?_
    obtain ⟨p, _, h⟩ := (forall2_mem hfu).1 b (hpf.mem_iff.2 hb)
    exact ⟨p.2, by rw [show m'.toMdl.assumptions = m.toMdl.assumptions from ha.symm]; exact h.2⟩
  obtain ⟨u', hu', hfu'⟩ := loop_distinct _ _ _ e3' (by simpa [dkeys] using hdist m' hn')
  rw [List.nil_append] at hu'
  have hbp : P.blocks.Perm bd' := by
    rw [hu, hu']
    refine built_perm hpf hfu ?_
    rw [show m.toMdl.assumptions = m'.toMdl.assumptions from ha]
    exact hfu'
  have hwrit : ∀ p ∈ P.blocks, ∃ b, m.IsModelBlock b ∧ constructBlock m.assumptions (ssSymbols ss) b.toBlk = .ok p.2 := by
    intro p hpm
    rw [hu] at hpm
    obtain ⟨b, hb, h⟩ := (forall2_mem hfu).2 p hpm
    rw [hfe, List.mem_map] at hb
    obtain ⟨c, hc, rfl⟩ := hb
    exact ⟨c, (modelBlock_iff m c).2 hc, h.2⟩
  have hsp := hbp.map Prod.snd
  have m1 := merge_perm (hsp.map fun b => b.dicts.param) e4 (by
      intro d hd
      simp only [List.mem_map] at hd
      obtain ⟨_, ⟨p, hp, rfl⟩, rfl⟩ := hd
      obtain ⟨c, _, hc⟩ := hwrit p hp
      exact (built_dicts hc).2.2.2.2.2.1) (by
      intro d hd k hk
      simp only [List.mem_map] at hd
      obtain ⟨_, ⟨p, hp, rfl⟩, rfl⟩ := hd
      obtain ⟨c, hcb, hc⟩ := hwrit p hp
      simp only [dkeys, List.mem_map] at hk
      obtain ⟨⟨x, v⟩, hxv, rfl⟩ := hk
      obtain ⟨_, _, hst, hx, _⟩ := ((built_dicts hc).1 x v).1 hxv
      exact stmt_par hpar hcb hst hx)
  have m2 := merge_perm (hsp.map fun b => b.dicts.calib) e5 (by
      intro d hd
      simp only [List.mem_map] at hd
      obtain ⟨_, ⟨p, hp, rfl⟩, rfl⟩ := hd
      obtain ⟨c, _, hc⟩ := hwrit p hp
      exact (built_dicts hc).2.2.2.2.2.2.1) (by
      intro d hd k hk
      simp only [List.mem_map] at hd
      obtain ⟨_, ⟨p, hp, rfl⟩, rfl⟩ := hd
      obtain ⟨c, hcb, hc⟩ := hwrit p hp
      simp only [dkeys, List.mem_map] at hk
      obtain ⟨⟨x, v⟩, hxv, rfl⟩ := hk
      obtain ⟨_, _, hst, hx, _⟩ := ((built_dicts hc).2.1 x v).1 hxv
      exact stmt_par hpar hcb hst hx)
  have m3 := merge_perm (hsp.map fun b => b.dicts.determ) e6 (by
      intro d hd
      simp only [List.mem_map] at hd
      obtain ⟨_, ⟨p, hp, rfl⟩, rfl⟩ := hd
      obtain ⟨c, _, hc⟩ := hwrit p hp
      exact (built_dicts hc).2.2.2.2.2.2.2) (by
      intro d hd k hk
      simp only [List.mem_map] at hd
      obtain ⟨_, ⟨p, hp, rfl⟩, rfl⟩ := hd
      obtain ⟨c, hcb, hc⟩ := hwrit p hp
      simp only [dkeys, List.mem_map] at hk
      obtain ⟨⟨x, v⟩, hxv, rfl⟩ := hk
      obtain ⟨_, _, hst, hx, _⟩ := (built_dicts hc).2.2.2.2.1 x v hxv
      exact stmt_par hpar hcb hst hx)
  set vs' := mergeVariables ((bd'.map Prod.snd).map fun b => (b.variables, b.block.shocks.getD [])) with hvs'
  let P' : Primitives :=
    ⟨(bd'.map Prod.snd).flatMap Built.equations, vs'.1, vs'.2, P.param, P.calib, P.determ, sortToString ss,
      extractTryreduce m'.toMdl.tryreduce vs'.1, bd'⟩
  have hl' : loadModel m'.toMdl = .ok P' := by
    unfold loadModel
    rw [show m'.toMdl.assumptions = m'.assumptions from rfl, hss]
    simp only [loadRest, e3', m1, m2, m3]
    rfl
  have hLG : LoadGcn text' P' := ⟨m', (C107_parse _ _).2 ⟨ts', hs', hf'⟩, hl'⟩
  have hpp := hsp.map fun b => (b.variables, b.block.shocks.getD [])
  have c1 := C52_merge ((P.blocks.map Prod.snd).map fun b => (b.variables, b.block.shocks.getD []))
  have c2 := C52_merge ((bd'.map Prod.snd).map fun b => (b.variables, b.block.shocks.getD []))
  rw [← e7] at c1
  rw [← hvs'] at c2
  have hmod : ∀ b, m.IsModelBlock b ↔ m'.IsModelBlock b := fun b => and_congr_left' hp.mem_iff
  have hshock : P.shocks = P'.shocks :=
    C148_shocks text text' ts ts' m m' P P' hs hf hl hn hs' hf' hLG hn' ha fun n =>
      exists_congr fun b => and_congr_left' (hmod b)
  have hvm : ∀ x, x ∈ P.variables ↔ x ∈ P'.variables := by
    intro x
    rw [(c1 x).2.1, (c2 x).2.1, show (P.variables, P.shocks).2 = vs'.2 from hshock]
    refine and_congr_left' ⟨?_, ?_⟩
    · rintro ⟨b, hb, h⟩; exact ⟨b, hpp.mem_iff.1 hb, h⟩
    · rintro ⟨b, hb, h⟩; exact ⟨b, hpp.mem_iff.2 hb, h⟩
  have hvp : P.variables.Perm P'.variables := (List.perm_ext_iff_of_nodup (c1 ⟨[], .t 0, mergeAssumptions none⟩).2.2.1 (c2 ⟨[], .t 0, mergeAssumptions none⟩).2.2.1).2 hvm
  refine ⟨P', hLG, hbp, ?_, hvp, hshock, rfl, rfl, rfl, e2, ?_⟩
  · rw [e8]; exact hsp.flatMap_right _
  · intro hnd
    have hnow : ∀ x ∈ P.variables, x.idx = .t 0 := by
      intro x hx
      obtain ⟨⟨_, _, y, _, rfl⟩, _⟩ := (c1 x).2.1.1 hx
      rfl
    have hv : P.variables = P'.variables := by
      refine sorted_eq createName hvp (c1 ⟨[], .t 0, mergeAssumptions none⟩).2.2.2.2.1 (c2 ⟨[], .t 0, mergeAssumptions none⟩).2.2.2.2.1 ?_
      intro a hA b hB hk
      exact List.inj_on_of_nodup_map hnd hA hB (names_now (hnow a hA) (hnow b hB) hk)
    refine ⟨hv, ?_⟩
    rw [e9, hv]
    show extractTryreduce m.tryreduce P'.variables = extractTryreduce m'.tryreduce vs'.1
    rw [htr]

namespace Lyt

/-- two blocks -/
def twoText : List Char :=
  "block A { identities { Y[] = K[-1] + g; }; shocks { e[]; }; }; block B { identities { K[] = e[]; }; calibration { g = 2; }; };".toList
/-- the same blocks the other way round -/
def swapText : List Char :=
  "block B { identities { K[] = e[]; }; calibration { g = 2; }; }; block A { identities { Y[] = K[-1] + g; }; shocks { e[]; }; };".toList
/-- the same equations in one block -/
def oneText : List Char :=
  "block C { identities { K[] = e[]; Y[] = K[-1] + g; }; shocks { e[]; }; calibration { g = 2; }; };".toList
/-- the first file laid out in another way, with a comment -/
def airyText : List Char :=
  "# two\nblock A\n{ identities{Y[]=K[-1]+g;}; shocks { e[]; }; };\n\nblock B { identities { K[] = e[]; };\n calibration { g = 2; }; };\n".toList

def tokY : List Tok := [.id "Y".toList, .tix (.t 0), .eq, .id "K".toList, .tix (.t (-1)), .op .add, .id "g".toList, .semi]
def tokK : List Tok := [.id "K".toList, .tix (.t 0), .eq, .id "e".toList, .tix (.t 0), .semi]
def tokE : List Tok := [.id "shocks".toList, .lbrace, .id "e".toList, .tix (.t 0), .semi, .rbrace, .semi]
def tokG : List Tok := [.id "calibration".toList, .lbrace, .id "g".toList, .eq, .num 2, .semi, .rbrace, .semi]
def tokA : List Tok := [.id "block".toList, .id "A".toList, .lbrace, .id "identities".toList, .lbrace] ++ tokY ++ [.rbrace, .semi] ++ tokE ++ [.rbrace, .semi]
def tokB : List Tok := [.id "block".toList, .id "B".toList, .lbrace, .id "identities".toList, .lbrace] ++ tokK ++ [.rbrace, .semi] ++ tokG ++ [.rbrace, .semi]
def tokC : List Tok := [.id "block".toList, .id "C".toList, .lbrace, .id "identities".toList, .lbrace] ++ tokK ++ tokY ++ [.rbrace, .semi] ++ tokE ++ tokG ++ [.rbrace, .semi]

def eqY : Eqn := { lhs := .var "Y".toList (.t 0), rhs := .bin .add (.var "K".toList (.t (-1))) (.par "g".toList), lagrange := none, calibrating := none, tags := [] }
def eqK : Eqn := { lhs := .var "K".toList (.t 0), rhs := .var "e".toList (.t 0), lagrange := none, calibrating := none, tags := [] }
def eqG : Eqn := { lhs := .par "g".toList, rhs := .num 2, lagrange := none, calibrating := none, tags := [] }
def blkA : GBlock := { name := "A".toList, identities := [eqY], shocks := [⟨"e".toList, .t 0⟩] }
def blkB : GBlock := { name := "B".toList, identities := [eqK], calibration := [.eq eqG] }
def blkC : GBlock := { name := "C".toList, identities := [eqK, eqY], shocks := [⟨"e".toList, .t 0⟩], calibration := [.eq eqG] }
def twoFile : GFile := { blocks := [blkA, blkB] }
def swapFile : GFile := { blocks := [blkB, blkA] }
def oneFile : GFile := { blocks := [blkC] }

theorem two_spells : SpellsToks twoText (tokA ++ tokB) := (C106_reading _ _).1 (by decide +kernel)
theorem airy_spells : SpellsToks airyText (tokA ++ tokB) := (C106_reading _ _).1 (by decide +kernel)
theorem swap_spells : SpellsToks swapText (tokB ++ tokA) := (C106_reading _ _).1 (by decide +kernel)
theorem one_spells : SpellsToks oneText tokC := (C106_reading _ _).1 (by decide +kernel)
theorem two_file : IsFile (tokA ++ tokB) twoFile := (C107_grammar _ _).1 ⟨40, rfl⟩
theorem swap_file : IsFile (tokB ++ tokA) swapFile := (C107_grammar _ _).1 ⟨40, rfl⟩
theorem one_file : IsFile tokC oneFile := (C107_grammar _ _).1 ⟨40, rfl⟩

/-- what is looked at in the examples -/
def summary (P : Primitives) : Bool :=
  decide (P.equations.length = 2) && decide (P.shocks.length = 1) && decide (P.param = [("g".toList, .num 2)]) &&
    decide (P.variables.map TSym.base = ["K".toList, "Y".toList])

theorem two_load : ∃ P, LoadGcn twoText P ∧ summary P = true := by
  obtain ⟨P, h1, h2⟩ := Ldr.loaded twoFile.toMdl summary true (by decide +kernel)
  exact ⟨P, ⟨twoFile, (C107_parse _ _).2 ⟨_, two_spells, two_file⟩, h1⟩, h2⟩
theorem one_load : ∃ P, LoadGcn oneText P ∧ P.equations.length = 2 := by
  obtain ⟨P, h1, h2⟩ := Ldr.loaded oneFile.toMdl (fun P => P.equations.length) 2 (by decide +kernel)
  exact ⟨P, ⟨oneFile, (C107_parse _ _).2 ⟨_, one_spells, one_file⟩, h1⟩, h2⟩

theorem two_blocks (b : GBlock) (h : twoFile.IsModelBlock b) : b = blkA ∨ b = blkB := by simpa [twoFile] using h.1
theorem one_block (b : GBlock) (h : oneFile.IsModelBlock b) : b = blkC := by simpa [oneFile] using h.1
theorem two_a : twoFile.IsModelBlock blkA := (modelBlock_iff _ _).2 (List.mem_filter.2 ⟨by simp [twoFile], by decide⟩)
theorem two_b : twoFile.IsModelBlock blkB := (modelBlock_iff _ _).2 (List.mem_filter.2 ⟨by simp [twoFile], by decide⟩)
theorem one_c : oneFile.IsModelBlock blkC := (modelBlock_iff _ _).2 (List.mem_filter.2 ⟨by simp [oneFile], by decide⟩)

theorem near_y : ∀ n k, (n, TIdx.t k) ∈ eqY.vars → -1 ≤ k ∧ k ≤ 1 := by
  intro n k h
  simp only [eqY, Eqn.vars, Expr.vars, List.append_nil, List.mem_append, List.mem_singleton, Prod.mk.injEq, TIdx.t.injEq] at h
  omega
theorem near_k : ∀ n k, (n, TIdx.t k) ∈ eqK.vars → -1 ≤ k ∧ k ≤ 1 := by
  intro n k h
  simp only [eqK, Eqn.vars, Expr.vars, List.mem_append, List.mem_singleton, Prod.mk.injEq, TIdx.t.injEq] at h
  omega
theorem two_plain (b : GBlock) (h : twoFile.IsModelBlock b) : b.Plain := by
  rcases two_blocks b h with rfl | rfl <;> refine ⟨rfl, fun e he => ?_⟩
  · have : e = eqY := by simpa [blkA] using he
    rw [this]; exact near_y
  · have : e = eqK := by simpa [blkB] using he
    rw [this]; exact near_k
theorem one_plain : blkC.Plain := by
  refine ⟨rfl, fun e he => ?_⟩
  have : e = eqK ∨ e = eqY := by simpa [blkC] using he
  rcases this with rfl | rfl
  · exact near_k
  · exact near_y

theorem two_one : twoFile.Includes oneFile := by
  intro b hb
  cases one_block b hb
  refine .inr ⟨one_plain, fun e he => ?_⟩
  have : e = eqK ∨ e = eqY := by simpa [blkC, GBlock.stated] using he
  rcases this with rfl | rfl
  · exact ⟨blkB, two_b, by simp [blkB, GBlock.stated]⟩
  · exact ⟨blkA, two_a, by simp [blkA, GBlock.stated]⟩
theorem one_two : oneFile.Includes twoFile := by
  intro b hb
  refine .inr ⟨two_plain b hb, fun e he => ⟨blkC, one_c, ?_⟩⟩
  rcases two_blocks b hb with rfl | rfl
  · have : e = eqY := by simpa [blkA, GBlock.stated] using he
    simp [this, blkC, GBlock.stated]
  · have : e = eqK := by simpa [blkB, GBlock.stated] using he
    simp [this, blkC, GBlock.stated]

theorem two_no_defs : ∀ b, twoFile.IsModelBlock b → b.definitions = [] := by
  intro b hb; rcases two_blocks b hb with rfl | rfl <;> rfl
theorem one_no_defs : ∀ b, oneFile.IsModelBlock b → b.definitions = [] := by
  intro b hb; cases one_block b hb; rfl
theorem two_names : twoFile.DistinctNames := by
  simp [GFile.DistinctNames, twoFile, blkA, blkB]
theorem one_names : oneFile.DistinctNames := by simp [GFile.DistinctNames, oneFile]
theorem two_pars : twoFile.ParametersOnly := by
  intro b hb e he _
  rcases two_blocks b hb with rfl | rfl
  · simp [blkA] at he
  · have : e = eqG := by simpa [blkB] using he
    exact ⟨_, by rw [this]; rfl⟩
theorem two_steady : twoFile.OneSteady := by
  intro b hb c _ h
  exfalso
  have hb : b = blkA ∨ b = blkB := by simpa [twoFile] using hb
  have : isSSName b.name = true := (C54_ss_names _).2 h
  rcases hb with rfl | rfl <;> revert this <;> decide

end Lyt

/-- the hypotheses of the theorems are met: a file of two blocks loads as two equations, one shock, one number; so does any other layout of
its text; with the blocks swapped it loads with the same shocks, numbers, variables; gathered in one block it has the same solutions -/
example : ∃ P, LoadGcn twoText P ∧ LoadGcn airyText P ∧ P.equations.length = 2 ∧ P.param = [("g".toList, SExpr.num 2)] ∧
    (∃ P', LoadGcn swapText P' ∧ P'.equations.length = 2 ∧ P'.param = [("g".toList, SExpr.num 2)] ∧ P'.variables = P.variables) ∧
    ∃ P'', LoadGcn oneText P'' ∧ P.shocks = P''.shocks ∧ ∀ R : RealPath,
      (∀ q ∈ P.equations, ∀ t, q.val R t = 0) ↔ ∀ q ∈ P''.equations, ∀ t, q.val R t = 0 := by
  obtain ⟨P, h1, h2⟩ := two_load
  simp only [summary, Bool.and_eq_true, decide_eq_true_eq] at h2
  obtain ⟨⟨⟨h2, _⟩, h3⟩, h4⟩ := h2
  obtain ⟨P'', k1, _⟩ := one_load
  obtain ⟨P', o1, _, o3, _, _, o4, _, _, _, o5⟩ := C148_order twoText swapText _ _ twoFile swapFile P two_spells two_file h1 two_names two_pars
    two_steady swap_spells swap_file rfl rfl (List.Perm.swap _ _ _)
  refine ⟨P, h1, ((C148_layout _ _ _ two_spells airy_spells).1 P).1 h1, h2, h3,
    ⟨P', o1, by rw [← o3.length_eq]; exact h2, by rw [← o4]; exact h3, (o5 (by rw [h4]; decide)).1.symm⟩, P'', k1, ?_, fun R => ?_⟩
  · refine C148_shocks twoText oneText _ _ twoFile oneFile P P'' two_spells two_file h1 two_names one_spells one_file k1 one_names rfl fun n => ?_
    constructor
    · rintro ⟨b, hb, v, hv, rfl⟩
      refine ⟨blkC, one_c, ⟨"e".toList, .t 0⟩, by simp [blkC], ?_⟩
      rcases two_blocks b hb with rfl | rfl
      · have : v = ⟨"e".toList, .t 0⟩ := by simpa [blkA] using hv
        rw [this]
      · simp [blkB] at hv
    · rintro ⟨b, hb, v, hv, rfl⟩
      cases one_block b hb
      exact ⟨blkA, two_a, v, by simpa [blkA, blkC] using hv, rfl⟩
  · exact C148_equations twoText oneText _ _ twoFile oneFile P P'' two_spells two_file h1 two_names one_spells one_file k1 one_names rfl
      two_one one_two (fun b hb e he => by rw [two_no_defs b hb] at he; cases he) (fun b hb e he => by rw [one_no_defs b hb] at he; cases he)
      R (fun b hb e he => by rw [two_no_defs b hb] at he; cases he) (fun b hb e he => by rw [one_no_defs b hb] at he; cases he)

end GE
