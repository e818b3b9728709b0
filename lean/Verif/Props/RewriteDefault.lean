import Verif.Props.Rewrite
import Verif.Props.LoadSimplified
/-! # C148: the order of the blocks does not matter to `load_gcn_file` -/

namespace GE
namespace Lyt
open Gcn Pip Ldr FCal

/-- what loading with simplified blocks gives -/
theorem loadS_ok {ops : SimpOps} {m : Mdl} {P : Primitives} {el : List (TSym × SExpr)} (h : loadModelS ops m = .ok (P, el)) :
    ∃ ss bd, extractSS m.assumptions m = .ok ss ∧ blockDictLoopS ops m.assumptions (ssSymbols ss) m.blocks [] = .ok bd ∧
      (P.variables, P.shocks) = mergeVariables ((bd.map fun p => p.2.built).map fun b => (b.variables, b.block.shocks.getD [])) ∧
      P.equations = (bd.map fun p => p.2.built).flatMap Built.equations ∧ P.tryreduce = extractTryreduce m.tryreduce P.variables ∧
      P.blocks = bd.map (fun p => (p.1, p.2.built)) ∧ el = bd.flatMap fun p => p.2.eliminated := by
  unfold loadModelS at h
  cases h1 : extractSS m.assumptions m with
  | error e => rw [h1] at h; cases h
  | ok ss =>
    simp only [h1, loadRestS] at h
    cases h2 : blockDictLoopS ops m.assumptions (ssSymbols ss) m.blocks [] with
    | error e => rw [h2] at h; cases h
    | ok bd =>
      simp only [h2] at h
      cases h3 : mergeParams ((bd.map fun p => p.2.built).map fun b => b.dicts.param) with
      | error e => rw [h3] at h; cases h
      | ok p1 =>
        simp only [h3] at h
        cases h4 : mergeParams ((bd.map fun p => p.2.built).map fun b => b.dicts.calib) with
        | error e => rw [h4] at h; cases h
        | ok p2 =>
          simp only [h4] at h
          cases h5 : mergeParams ((bd.map fun p => p.2.built).map fun b => b.dicts.determ) with
          | error e => rw [h5] at h; cases h
          | ok p3 =>
            simp only [h5] at h
            cases h
            exact ⟨ss, bd, rfl, h2, rfl, rfl, rfl, rfl, rfl⟩

/-- distinct names: one entry per block, in order -/
theorem loopS_distinct {ops asm ss} : ∀ (bs : List Blk) (acc bd : List (Str × BuiltS)), blockDictLoopS ops asm ss bs acc = .ok bd →
    (dkeys acc ++ (bs.filter fun b => !isSkippedName b.name).map Blk.name).Nodup →
    ∃ built, bd = acc ++ built ∧
      List.Forall₂ (fun (b : Blk) (p : Str × BuiltS) => p.1 = b.name ∧ constructBlockS ops asm ss b = .ok p.2) (bs.filter fun b => !isSkippedName b.name) built
  | [], acc, bd, h, _ => by simp only [blockDictLoopS] at h; cases h; exact ⟨[], by simp, by simp⟩
  | b :: bs, acc, bd, h, hn => by
    simp only [blockDictLoopS] at h
    split at h
    · rename_i hs
      obtain ⟨built, h1, h2⟩ := loopS_distinct bs acc bd h (by simpa [List.filter_cons, hs] using hn)
      exact ⟨built, h1, by simpa [List.filter_cons, hs] using h2⟩
    · rename_i hs
      cases hb : constructBlockS ops asm ss b with
      | error e => rw [hb] at h; cases h
      | ok r =>
        rw [hb] at h
        simp only [Bool.not_eq_true] at hs
        simp only [List.filter_cons, hs, Bool.not_false, if_true, List.map_cons] at hn
        obtain ⟨p, hp, hrp⟩ := LSm.build_simp hb
        have hnew : dset acc r.built.block.name r = acc ++ [(b.name, r)] := by
          rw [hrp.1, build_name hp]
          apply dset_new
          intro hm
          exact (List.nodup_append.mp hn).2.2 _ hm _ (by simp) rfl
        simp only [hnew] at h
        obtain ⟨built, h1, h2⟩ := loopS_distinct bs _ bd h (by simpa [dkeys] using hn)
        refine ⟨(b.name, r) :: built, by rw [h1]; simp, ?_⟩
        simp only [List.filter_cons, hs, Bool.not_false, if_true]
        exact .cons ⟨rfl, hb⟩ h2

theorem loopS_total {ops asm ss} : ∀ (bs : List Blk) (acc), (∀ b ∈ bs.filter fun b => !isSkippedName b.name, ∃ r, constructBlockS ops asm ss b = .ok r) →
    ∃ bd, blockDictLoopS ops asm ss bs acc = .ok bd
  | [], acc, _ => ⟨acc, rfl⟩
  | b :: bs, acc, h => by
    simp only [blockDictLoopS]
    split
    · rename_i hs
      exact loopS_total bs acc fun c hc => h c (by simpa [List.filter_cons, hs] using hc)
    · rename_i hs
      have hs' : isSkippedName b.name = false := by simpa using hs
      obtain ⟨r, hr⟩ := h b (by simp [List.filter_cons, hs'])
      rw [hr]
      exact loopS_total bs _ fun c hc => h c (by
        rw [List.filter_cons, hs']
        exact List.mem_cons_of_mem _ hc)

theorem builtS_perm {ops asm ss} {l l' : List Blk} {u u' : List (Str × BuiltS)} (hp : l.Perm l')
    (h : List.Forall₂ (fun (b : Blk) (p : Str × BuiltS) => p.1 = b.name ∧ constructBlockS ops asm ss b = .ok p.2) l u)
    (h' : List.Forall₂ (fun (b : Blk) (p : Str × BuiltS) => p.1 = b.name ∧ constructBlockS ops asm ss b = .ok p.2) l' u') : u.Perm u' := by
  obtain ⟨v, h1, h2⟩ := List.perm_comp_forall₂ hp.symm h
  have huniq : ∀ {l : List Blk} {v w : List (Str × BuiltS)},
      List.Forall₂ (fun (b : Blk) (p : Str × BuiltS) => p.1 = b.name ∧ constructBlockS ops asm ss b = .ok p.2) l v →
      List.Forall₂ (fun (b : Blk) (p : Str × BuiltS) => p.1 = b.name ∧ constructBlockS ops asm ss b = .ok p.2) l w → v = w := by
    intro l v w hv
    induction hv generalizing w with
    | nil => intro hw; cases hw; rfl
    | cons a _ ih =>
      intro hw
      cases hw with
      | cons b hw =>
        rw [ih hw]
        congr 1
        refine Prod.ext (a.1.trans b.1.symm) ?_
        have := a.2.symm.trans b.2
        exact Except.ok.inj this
  rw [← huniq h1 h']
  exact h2.symm

end Lyt
open Lyt Gcn Pip Ldr FCal

/-- **C148**: layout does not matter to `load_gcn_file` -/
theorem C148_default_layout (ops : SimpOps) (text text' : List Char) (ts : List Tok) (hs : SpellsToks text ts) (hs' : SpellsToks text' ts)
    (P : Primitives) (el : List (TSym × SExpr)) : LoadGcnFile ops text P el ↔ LoadGcnFile ops text' P el := by
  have key : ∀ m, ParseGcn text m ↔ ParseGcn text' m := by
    intro m
    rw [C107_parse, C107_parse]
    constructor
    · rintro ⟨us, h1, h2⟩
      cases C106_unique _ _ _ h1 hs
      exact ⟨_, hs', h2⟩
    · rintro ⟨us, h1, h2⟩
      cases C106_unique _ _ _ h1 hs'
      exact ⟨_, hs, h2⟩
  exact exists_congr fun m => and_congr_left' (key m)

/-- **C148**: nor does the order of the blocks to `load_gcn_file`, which simplifies the blocks: what it makes of a file, it makes of any file with the same blocks in
another order, up to the order of equations and of what is eliminated -/
theorem C148_default (ops : SimpOps) (text text' : List Char) (ts ts' : List Tok) (m m' : GFile) (P : Primitives) (el : List (TSym × SExpr))
    (hs : SpellsToks text ts) (hf : IsFile ts m) (hl : LoadGcnFile ops text P el) (hn : m.DistinctNames) (hpar : m.ParametersOnly) (hone : m.OneSteady)
    (hs' : SpellsToks text' ts') (hf' : IsFile ts' m') (ha : m.assumptions = m'.assumptions) (htr : m.tryreduce = m'.tryreduce)
    (hp : m.blocks.Perm m'.blocks) :
    ∃ P' el', LoadGcnFile ops text' P' el' ∧ P.blocks.Perm P'.blocks ∧ P.equations.Perm P'.equations ∧ el.Perm el' ∧ P.variables.Perm P'.variables ∧
      P.shocks = P'.shocks ∧ P.param = P'.param ∧ P.calib = P'.calib ∧ P.determ = P'.determ ∧ P.ss = P'.ss ∧
      ((P.variables.map TSym.base).Nodup → P.variables = P'.variables ∧ P.tryreduce = P'.tryreduce) := by
  have hpm : ParseGcn text m := (C107_parse _ _).2 ⟨ts, hs, hf⟩
  have hpm' : ParseGcn text' m' := (C107_parse _ _).2 ⟨ts', hs', hf'⟩
  obtain ⟨m0, h0, h⟩ := hl
  cases C107_unique text m m0 hpm h0
  obtain ⟨P0, bd0, g1, g2, g3, g4, g5, g6, g7, _⟩ := LSm.load_simp h
  obtain ⟨P0', ⟨m1, k0, k1⟩, _, _, _, k5, k6, k7, k8, k9, _⟩ :=
    C148_order text text' ts ts' m m' P0 hs hf ⟨m, hpm, g1⟩ hn hpar hone hs' hf' ha htr hp
  cases C107_unique text' m' m1 hpm' k0
  obtain ⟨ss, bd, e1, e2, e3, e4, e5, e6, e7⟩ := loadS_ok h
  have e1' : extractSS m'.assumptions m'.toMdl = .ok ss := (same_ss hone ha hp).symm.trans e1
  have hass : m'.toMdl.assumptions = m.toMdl.assumptions := ha.symm
  obtain ⟨u, hu, hfu⟩ := loopS_distinct _ _ _ e2 (by simpa [dkeys] using distinct_filter m hn)
  rw [List.nil_append] at hu
  obtain ⟨bd', e2'⟩ : ∃ bd', blockDictLoopS ops m'.toMdl.assumptions (ssSymbols ss) m'.toMdl.blocks [] = .ok bd' := by
    refine loopS_total _ _ fun b hb => ?_
    obtain ⟨p, _, h⟩ := (forall2_mem hfu).1 b ((filter_perm hp).mem_iff.2 hb)
    exact ⟨p.2, by rw [hass]; exact h.2⟩
  obtain ⟨u', hu', hfu'⟩ := loopS_distinct _ _ _ e2' (by simpa [dkeys] using distinct_filter m' (names_perm hp hn))
  rw [List.nil_append] at hu'
  have hbp : bd.Perm bd' := by
    rw [hu, hu']
    refine builtS_perm (filter_perm hp) hfu ?_
    rw [← hass]
    exact hfu'
  -- the merges succeed as they do without simplification
  obtain ⟨ss1, a1, _, a3, a4, a5, a6, _⟩ := load_ok k1
  rw [show m'.toMdl.assumptions = m'.assumptions from rfl, e1'] at a1
  cases a1
  obtain ⟨bd1, b1, hr⟩ := LSm.loop_simp m'.toMdl.blocks [] [] bd' e2' .nil
  rw [a3] at b1
  cases b1
  have m1 := LSm.rel_map (fun b => b.dicts.param) (fun r p hrp => by rw [hrp.2.1]) hr
  have m2 := LSm.rel_map (fun b => b.dicts.calib) (fun r p hrp => by rw [hrp.2.1]) hr
  have m3 := LSm.rel_map (fun b => b.dicts.determ) (fun r p hrp => by rw [hrp.2.1]) hr
  obtain ⟨P', el', h'⟩ : ∃ P' el', loadModelS ops m'.toMdl = .ok (P', el') := by
    unfold loadModelS
    rw [show m'.toMdl.assumptions = m'.assumptions from rfl, e1']
    simp only [loadRestS, e2', m1, m2, m3, a4, a5, a6]
    exact ⟨_, _, rfl⟩
  obtain ⟨P1, bd1', q1, _, q3, q4, q5, q6, q7, _⟩ := LSm.load_simp h'
  rw [k1] at q1
  cases q1
  obtain ⟨ss2, bd2, f1, f2, f3, f4, f5, f6, f7⟩ := loadS_ok h'
  rw [show m'.toMdl.assumptions = m'.assumptions from rfl, e1'] at f1
  cases f1
  rw [e2'] at f2
  cases f2
  have hsp := hbp.map fun p => p.2.built
  have hpp := hsp.map fun b => (b.variables, b.block.shocks.getD [])
  have c1 := C52_merge ((bd.map fun p => p.2.built).map fun b => (b.variables, b.block.shocks.getD []))
  have c2 := C52_merge ((bd'.map fun p => p.2.built).map fun b => (b.variables, b.block.shocks.getD []))
  rw [← e3] at c1
  rw [← f3] at c2
  have hshock : P.shocks = P'.shocks := by rw [g6, q6, k5]
  have hvm : ∀ x, x ∈ P.variables ↔ x ∈ P'.variables := by
    intro x
    rw [(c1 x).2.1, (c2 x).2.1, show (P.variables, P.shocks).2 = (P'.variables, P'.shocks).2 from hshock]
    refine and_congr_left' ⟨?_, ?_⟩
    · rintro ⟨b, hb, h⟩; exact ⟨b, hpp.mem_iff.1 hb, h⟩
    · rintro ⟨b, hb, h⟩; exact ⟨b, hpp.mem_iff.2 hb, h⟩
  have hvp : P.variables.Perm P'.variables :=
    (List.perm_ext_iff_of_nodup (c1 ⟨[], .t 0, mergeAssumptions none⟩).2.2.1 (c2 ⟨[], .t 0, mergeAssumptions none⟩).2.2.1).2 hvm
  refine ⟨P', el', ⟨m', hpm', h'⟩, ?_, ?_, ?_, hvp, hshock, ?_, ?_, ?_, ?_, ?_⟩
  · rw [e6, f6]; exact hbp.map _
  · rw [e4, f4]; exact hsp.flatMap_right _
  · rw [e7, f7]; exact hbp.flatMap_right _
  · rw [g3, q3, k6]
  · rw [g4, q4, k7]
  · rw [g5, q5, k8]
  · rw [g7, q7, k9]
  · intro hnd
    have hnow : ∀ x ∈ P.variables, x.idx = .t 0 := by
      intro x hx
      obtain ⟨⟨_, _, y, _, rfl⟩, _⟩ := (c1 x).2.1.1 hx
      rfl
    have hv : P.variables = P'.variables := by
      refine sorted_eq createName hvp (c1 ⟨[], .t 0, mergeAssumptions none⟩).2.2.2.2.1 (c2 ⟨[], .t 0, mergeAssumptions none⟩).2.2.2.2.1 ?_
      intro a hA b hB hk
      exact List.inj_on_of_nodup_map hnd hA hB (names_now (hnow a hA) (hnow b hB) hk)
    refine ⟨hv, ?_⟩
    rw [e5, f5, hv]
    show extractTryreduce m.tryreduce P'.variables = extractTryreduce m'.tryreduce P'.variables
    rw [htr]

/-! ## the hypotheses are met -/

namespace Lyt
open LSm

/-- the example of `C125`, and a block for income after it -/
def chooseText : List Char := LSm.exText ++ "\nblock Y { identities { y[] = w[] + e[]; }; shocks { e[]; }; };".toList
/-- the block for income first -/
def incomeText : List Char := "block Y { identities { y[] = w[] + e[]; }; shocks { e[]; }; };\n".toList ++ LSm.exText
def incomeToks : List Tok := [.id "block".toList, .id "Y".toList, .lbrace, .id "identities".toList, .lbrace, .id "y".toList, .tix (.t 0), .eq, .id "w".toList, .tix (.t 0),
  .op .add, .id "e".toList, .tix (.t 0), .semi, .rbrace, .semi, .id "shocks".toList, .lbrace, .id "e".toList, .tix (.t 0), .semi, .rbrace, .semi, .rbrace, .semi]
def incomeBlock : GBlock where
  name := "Y".toList
  identities := [⟨.var "y".toList (.t 0), .bin .add (.var "w".toList (.t 0)) (.var "e".toList (.t 0)), none, none, []⟩]
  shocks := [⟨"e".toList, .t 0⟩]
def chooseFile : GFile := { blocks := LSm.exFile.blocks ++ [incomeBlock] }
def incomeFile : GFile := { blocks := incomeBlock :: LSm.exFile.blocks }

theorem choose_spells : SpellsToks chooseText (LSm.exToks ++ incomeToks) := (C106_reading _ _).1 (by decide +kernel)
theorem income_spells : SpellsToks incomeText (incomeToks ++ LSm.exToks) := (C106_reading _ _).1 (by decide +kernel)
theorem choose_file : IsFile (LSm.exToks ++ incomeToks) chooseFile := (C107_grammar _ _).1 ⟨60, rfl⟩
theorem income_file : IsFile (incomeToks ++ LSm.exToks) incomeFile := (C107_grammar _ _).1 ⟨60, rfl⟩

end Lyt
open LSm in
/-- two files with the same two blocks in either order; the second one loads with a multiplier eliminated because the first one does -/
example : ∃ (P : Primitives) (el : List (TSym × SExpr)), LoadGcnFile exOps chooseText P el ∧ el.length = 1 ∧ P.equations.length = 3 ∧
    SpellsToks chooseText (LSm.exToks ++ incomeToks) ∧ IsFile (LSm.exToks ++ incomeToks) chooseFile ∧ chooseFile.DistinctNames ∧ chooseFile.ParametersOnly ∧
    chooseFile.OneSteady ∧ SpellsToks incomeText (incomeToks ++ LSm.exToks) ∧ IsFile (incomeToks ++ LSm.exToks) incomeFile ∧
    chooseFile.blocks.Perm incomeFile.blocks ∧ chooseFile.blocks ≠ incomeFile.blocks ∧
    ∃ (P' : Primitives) (el' : List (TSym × SExpr)), LoadGcnFile exOps incomeText P' el' ∧ el'.length = 1 ∧ P'.equations.length = 3 := by
  obtain ⟨⟨P, el⟩, h1, h2⟩ := loadedS chooseFile.toMdl (fun x => (x.1.equations.length, x.2.length)) (3, 1) (by decide +kernel)
  simp only [Prod.mk.injEq] at h2
  have hl : LoadGcnFile exOps chooseText P el := ⟨chooseFile, (C107_parse _ _).2 ⟨_, choose_spells, choose_file⟩, h1⟩
  have hn : chooseFile.DistinctNames := by simp [GFile.DistinctNames, chooseFile, LSm.exFile, incomeBlock]
  have hpar : chooseFile.ParametersOnly := by
    intro b hb e he _
    have := hb.1
    rw [chooseFile] at this
    simp only [LSm.exFile, List.cons_append, List.nil_append, List.mem_cons, List.not_mem_nil, or_false] at this
    rcases this with rfl | rfl <;> simp [incomeBlock] at he
  have hone : chooseFile.OneSteady := by
    intro b hb c _ h
    exfalso
    have : isSSName b.name = true := (C54_ss_names _).2 h
    simp only [chooseFile, LSm.exFile, List.cons_append, List.nil_append, List.mem_cons, List.not_mem_nil, or_false] at hb
    rcases hb with rfl | rfl <;> revert this <;> decide
  have hpp : chooseFile.blocks.Perm incomeFile.blocks := List.Perm.swap _ _ _
  refine ⟨P, el, hl, h2.2, h2.1, choose_spells, choose_file, hn, hpar, hone, income_spells, income_file, hpp, by simp [chooseFile, incomeFile, LSm.exFile, incomeBlock], ?_⟩
  obtain ⟨P', el', g1, _, g3, g4, _⟩ := C148_default exOps _ _ _ _ _ _ P el choose_spells choose_file hl hn hpar hone income_spells income_file rfl rfl hpp
  exact ⟨P', el', g1, by rw [← g4.length_eq]; exact h2.2, by rw [← g3.length_eq]; exact h2.1⟩

end GE
