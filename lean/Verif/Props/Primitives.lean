import Verif.Props.Loader
import Verif.Props.Solve
/-! # C19, C52–C56: what `load_gcn_file` hands to the model -/

namespace GE
namespace Ldr

/-- the stages of a successful load -/
theorem load_ok {m : Mdl} {P : Primitives} (h : loadModel m = .ok P) :
    ∃ ss, extractSS m.assumptions m = .ok ss ∧ P.ss = sortToString ss ∧
      blockDictLoop m.assumptions (ssSymbols ss) m.blocks [] = .ok P.blocks ∧
      mergeParams ((P.blocks.map Prod.snd).map fun b => b.dicts.param) = .ok P.param ∧
      mergeParams ((P.blocks.map Prod.snd).map fun b => b.dicts.calib) = .ok P.calib ∧
      mergeParams ((P.blocks.map Prod.snd).map fun b => b.dicts.determ) = .ok P.determ ∧
      (P.variables, P.shocks) = mergeVariables ((P.blocks.map Prod.snd).map fun b => (b.variables, b.block.shocks.getD [])) ∧
      P.equations = (P.blocks.map Prod.snd).flatMap Built.equations ∧
      P.tryreduce = extractTryreduce m.tryreduce P.variables := by
  unfold loadModel at h
  cases h1 : extractSS m.assumptions m with
  | error e => rw [h1] at h; cases h
  | ok ss =>
    simp only [h1, loadRest] at h
    cases h2 : blockDictLoop m.assumptions (ssSymbols ss) m.blocks [] with
    | error e => simp only [h2] at h; cases h
    | ok bd =>
      simp only [h2] at h
      cases h3 : mergeParams ((bd.map Prod.snd).map fun b => b.dicts.param) with
      | error e => rw [h3] at h; cases h
      | ok p1 =>
        rw [h3] at h
        cases h4 : mergeParams ((bd.map Prod.snd).map fun b => b.dicts.calib) with
        | error e => simp only [h4] at h; cases h
        | ok p2 =>
          simp only [h4] at h
          cases h5 : mergeParams ((bd.map Prod.snd).map fun b => b.dicts.determ) with
          | error e => simp only [h5] at h; cases h
          | ok p3 =>
            simp only [h5] at h
            cases h
            exact ⟨ss, rfl, rfl, h2, h3, h4, h5, rfl, rfl, rfl⟩

theorem expand_name (b : Blk) : (expandBlock b).name = b.name := by
  simp only [expandBlock]; split <;> rfl

theorem ast_name {asm b B} (h : astBlockToBlock asm b = .ok B) : B.name = b.name := by
  unfold astBlockToBlock at h
  repeat' (split at h)
  all_goals first | (cases h; done) | (cases h; rfl)

theorem consolidate_name {B B' : Block} (h : B.consolidate = .ok B') : B'.name = B.name := by
  unfold Block.consolidate at h
  repeat' (split at h)
  all_goals first | (cases h; done) | (cases h; rfl)

/-- the stages of a successful block conversion -/
theorem build_ok {asm ss b r} (h : constructBlock asm ss b = .ok r) :
    ∃ B0 B vs0 dicts s, astBlockToBlock asm (expandBlock b) = .ok B0 ∧ B0.validate = .ok () ∧ B0.consolidate = .ok B ∧
      B.variableList [] B.multipliers = some vs0 ∧ B.paramDicts ss = .ok dicts ∧ B.solve = .ok s ∧
      r.block = { B with multipliers := s.multipliers } ∧ r.dicts = dicts ∧ r.equations = s.equations ∧
      (if B.controls = none then r.variables = vs0 else B.variableList vs0 s.multipliers = some r.variables) := by
  unfold constructBlock at h
  cases h1 : astBlockToBlock asm (expandBlock b) with
  | error e => rw [h1] at h; cases h
  | ok B0 =>
    simp only [h1] at h
    cases h2 : B0.validate with
    | error e => simp only [h2] at h; cases h
    | ok u =>
      simp only [h2] at h
      cases h3 : B0.consolidate with
      | error e => simp only [h3] at h; cases h
      | ok B =>
        simp only [h3] at h
        cases h4 : B.variableList [] B.multipliers with
        | none => simp only [h4] at h; cases h
        | some vs0 =>
          simp only [h4] at h
          cases h5 : B.paramDicts ss with
          | error e => simp only [h5] at h; cases h
          | ok d =>
            simp only [h5] at h
            cases h6 : B.solve with
            | error e => simp only [h6] at h; cases h
            | ok s =>
              simp only [h6] at h
              cases h7 : B.controls with
              | none =>
                simp only [h7] at h; cases h
                exact ⟨B0, B, vs0, d, s, rfl, h2, h3, h4, h5, h6, by simp [h7], rfl, rfl, by simp [h7]⟩
              | some cs =>
                simp only [h7] at h
                cases h8 : B.variableList vs0 s.multipliers with
                | none => simp only [h8] at h; cases h
                | some vs =>
                  simp only [h8] at h; cases h
                  exact ⟨B0, B, vs0, d, s, rfl, h2, h3, h4, h5, h6, by simp [h7], rfl, rfl, by simp [h7, h8]⟩

theorem build_name {asm ss b r} (h : constructBlock asm ss b = .ok r) : r.block.name = b.name := by
  obtain ⟨B0, B, vs0, d, s, h1, _, h3, _, _, _, h7, _⟩ := build_ok h
  rw [h7]
  show B.name = b.name
  rw [consolidate_name h3, ast_name h1, expand_name]

/-- every entry of the block dictionary was built from a block of the model -/
theorem loop_from {asm ss} : ∀ (bs : List Blk) (acc bd : List (Str × Built)), blockDictLoop asm ss bs acc = .ok bd →
    ∀ p ∈ bd, p ∈ acc ∨ ∃ b ∈ bs, isSkippedName b.name = false ∧ p.1 = b.name ∧ constructBlock asm ss b = .ok p.2
  | [], acc, bd, h, p, hp => by simp only [blockDictLoop] at h; cases h; exact .inl hp
  | b :: bs, acc, bd, h, p, hp => by
    simp only [blockDictLoop] at h
    split at h
    · rcases loop_from bs acc bd h p hp with h1 | ⟨c, hc, h1⟩
      · exact .inl h1
      · exact .inr ⟨c, by simp [hc], h1⟩
    · rename_i hs
      cases hb : constructBlock asm ss b with
      | error e => rw [hb] at h; cases h
      | ok r =>
        rw [hb] at h
        rcases loop_from bs _ bd h p hp with h1 | ⟨c, hc, h1⟩
        · have : ∀ (d : List (Str × Built)) k v, p ∈ dset d k v → p ∈ d ∨ p = (k, v) := by
            intro d k v
            induction d with
            | nil => simp [dset]
            | cons q d ih =>
              simp only [dset]
              split
              · rename_i hq
                simp only [List.mem_cons]; rintro (h | h)
                · right; rw [h, hq]
                · exact .inl (.inr h)
              · simp only [List.mem_cons]; rintro (h | h)
                · exact .inl (.inl h)
                · rcases ih h with h | h
                  · exact .inl (.inr h)
                  · exact .inr h
          rcases this _ _ _ h1 with h2 | h2
          · exact .inl h2
          · refine .inr ⟨b, by simp, by simpa using hs, ?_, ?_⟩
            · rw [h2]; exact build_name hb
            · rw [h2]; exact hb
        · exact .inr ⟨c, by simp [hc], h1⟩

theorem loop_distinct {asm ss} : ∀ (bs : List Blk) (acc bd : List (Str × Built)), blockDictLoop asm ss bs acc = .ok bd →
    (dkeys acc ++ (bs.filter fun b => !isSkippedName b.name).map Blk.name).Nodup →
    ∃ built, bd = acc ++ built ∧
      List.Forall₂ (fun (b : Blk) (p : Str × Built) => p.1 = b.name ∧ constructBlock asm ss b = .ok p.2) (bs.filter fun b => !isSkippedName b.name) built
  | [], acc, bd, h, _ => by simp only [blockDictLoop] at h; cases h; exact ⟨[], by simp, by simp⟩
  | b :: bs, acc, bd, h, hn => by
    simp only [blockDictLoop] at h
    split at h
    · rename_i hs
      obtain ⟨built, h1, h2⟩ := loop_distinct bs acc bd h (by simpa [List.filter_cons, hs] using hn)
      exact ⟨built, h1, by simpa [List.filter_cons, hs] using h2⟩
    · rename_i hs
      cases hb : constructBlock asm ss b with
      | error e => rw [hb] at h; cases h
      | ok r =>
        rw [hb] at h
        simp only [Bool.not_eq_true] at hs
        simp only [List.filter_cons, hs, Bool.not_false, if_true, List.map_cons] at hn
        have hnew : dset acc r.block.name r = acc ++ [(b.name, r)] := by
          rw [build_name hb]
          apply dset_new
          intro hm
          exact (List.nodup_append.mp hn).2.2 _ hm _ (by simp) rfl
        simp only [hnew] at h
        obtain ⟨built, h1, h2⟩ := loop_distinct bs _ bd h (by simpa [dkeys] using hn)
        refine ⟨(b.name, r) :: built, by simp [h1], ?_⟩
        simp only [List.filter_cons, hs, Bool.not_false, if_true]
        exact List.Forall₂.cons ⟨rfl, hb⟩ h2

end Ldr

open Ldr Vld

/-- **C19** for a loaded model: each of the three parameter dictionaries of the model contains exactly the entries of the corresponding
dictionaries of its blocks. What is missing from the full claim: a parameter may be in two of the three dictionaries
(`C19_cross_class_violated`), and a block may be lost (`C19_same_name_violated`). -/
theorem C19_load_partial (m : Mdl) (P : Primitives) (h : loadModel m = .ok P)
    (hn : ∀ b ∈ P.blocks, (dkeys b.2.dicts.param).Nodup ∧ (dkeys b.2.dicts.calib).Nodup ∧ (dkeys b.2.dicts.determ).Nodup)
    (hp : ∀ b ∈ P.blocks, ∀ k, k ∈ dkeys b.2.dicts.param ∨ k ∈ dkeys b.2.dicts.calib ∨ k ∈ dkeys b.2.dicts.determ → ∃ n, k = .par n) (n : Str) (v : SExpr) :
    ((n, v) ∈ P.param ↔ ∃ b ∈ P.blocks, (Sym.par n, v) ∈ b.2.dicts.param) ∧
    ((n, v) ∈ P.calib ↔ ∃ b ∈ P.blocks, (Sym.par n, v) ∈ b.2.dicts.calib) ∧
    ((n, v) ∈ P.determ ↔ ∃ b ∈ P.blocks, (Sym.par n, v) ∈ b.2.dicts.determ) := by
  obtain ⟨ss, _, _, _, h1, h2, h3, _⟩ := load_ok h
  have gen : ∀ (f : ParamDicts → List (Sym × SExpr)) r, mergeParams ((P.blocks.map Prod.snd).map fun b => f b.dicts) = .ok r →
      (∀ b ∈ P.blocks, (dkeys (f b.2.dicts)).Nodup) → (∀ b ∈ P.blocks, ∀ k ∈ dkeys (f b.2.dicts), ∃ n, k = .par n) →
      ((n, v) ∈ r ↔ ∃ b ∈ P.blocks, (Sym.par n, v) ∈ f b.2.dicts) := by
    intro f r hr hn hp
    rw [(C19_merge _ r hr ?_ ?_).1]
    · simp only [List.mem_map]
      constructor
      · rintro ⟨d, ⟨b, ⟨p, hp, rfl⟩, rfl⟩, hd⟩; exact ⟨p, hp, hd⟩
      · rintro ⟨p, hp, hd⟩; exact ⟨_, ⟨_, ⟨p, hp, rfl⟩, rfl⟩, hd⟩
    · simp only [List.mem_map]; rintro d ⟨b, ⟨p, hp1, rfl⟩, rfl⟩; exact hn p hp1
    · simp only [List.mem_map]; rintro d ⟨b, ⟨p, hp1, rfl⟩, rfl⟩; exact hp p hp1
  exact ⟨gen ParamDicts.param _ h1 (fun b hb => (hn b hb).1) fun b hb k hk => hp b hb k (.inl hk),
    gen ParamDicts.calib _ h2 (fun b hb => (hn b hb).2.1) fun b hb k hk => hp b hb k (.inr (.inl hk)),
    gen ParamDicts.determ _ h3 (fun b hb => (hn b hb).2.2) fun b hb k hk => hp b hb k (.inr (.inr hk))⟩

/-! ## C52: variables and shocks -/

namespace Ldr

theorem mem_sortByName (xs : List TSym) (x : TSym) : x ∈ sortByName xs ↔ x ∈ xs := by
  unfold sortByName; rw [(sortBy_perm _ _).mem_iff]; simp

theorem nodup_eraseDups' : ∀ (k : Nat) (l : List TSym), l.length ≤ k → l.eraseDups.Nodup
  | _, [], _ => by simp
  | 0, _ :: _, h => by simp at h
  | k + 1, a :: l, h => by
    rw [List.eraseDups_cons, List.nodup_cons]
    refine ⟨by simp, nodup_eraseDups' k _ ?_⟩
    have := List.length_filter_le (fun b => !b == a) l
    simp at h; omega

theorem sortByName_nodup (xs : List TSym) : (sortByName xs).Nodup := by
  unfold sortByName; rw [(sortBy_perm _ _).nodup_iff]; exact nodup_eraseDups' _ _ (Nat.le_refl _)

theorem sortByName_sorted (xs : List TSym) : (sortByName xs).Pairwise fun a b => strLe (createName a) (createName b) = true :=
  sortBy_sorted (fun a b => strLe (createName a) (createName b)) (fun a b c => strLe_trans (createName a) (createName b) (createName c))
    (fun a b => strLe_total (createName a) (createName b)) _

end Ldr

/-- **C52** merging: the variables and shocks of the model are those of its blocks, moved to date `t`, each listed once, sorted by name,
and no variable is a shock. -/
theorem C52_merge (blocks : List (List TSym × List TSym)) (x : TSym) :
    (x ∈ (mergeVariables blocks).2 ↔ ∃ b ∈ blocks, ∃ y ∈ b.2, x = { y with idx := .t 0 }) ∧
    (x ∈ (mergeVariables blocks).1 ↔ (∃ b ∈ blocks, ∃ y ∈ b.1, x = { y with idx := .t 0 }) ∧ x ∉ (mergeVariables blocks).2) ∧
    (mergeVariables blocks).1.Nodup ∧ (mergeVariables blocks).2.Nodup ∧
    (mergeVariables blocks).1.Pairwise (fun a b => strLe (createName a) (createName b) = true) ∧
    (mergeVariables blocks).2.Pairwise (fun a b => strLe (createName a) (createName b) = true) := by
  refine ⟨?_, ?_, sortByName_nodup _, sortByName_nodup _, sortByName_sorted _, sortByName_sorted _⟩
  · simp only [mergeVariables, mem_sortByName, List.mem_map, List.mem_flatMap, TSym.now]
    constructor
    · rintro ⟨y, ⟨b, hb, hy⟩, rfl⟩; exact ⟨b, hb, y, hy, rfl⟩
    · rintro ⟨b, hb, y, hy, rfl⟩; exact ⟨y, ⟨b, hb, hy⟩, rfl⟩
  · simp only [mergeVariables]
    rw [mem_sortByName, List.mem_filter, decide_eq_true_eq]
    refine and_congr_left fun _ => ?_
    simp only [List.mem_map, List.mem_flatMap, TSym.now]
    constructor
    · rintro ⟨y, ⟨b, hb, hy⟩, rfl⟩; exact ⟨b, hb, y, hy, rfl⟩
    · rintro ⟨b, hb, y, hy, rfl⟩; exact ⟨y, ⟨b, hb, hy⟩, rfl⟩

/-! ## C53: blocks -/

/-- **C53** (partial) if the blocks that are not skipped have different names, every one of them is converted and the model's equations
are theirs, in the order in which the blocks are written. Blocks with equal names, and steady-state blocks named `STEADY`, break the claim: see
`C53_same_name_violated` and `C53_steady_violated`. -/
theorem C53_blocks_partial (m : Mdl) (P : Primitives) (h : loadModel m = .ok P)
    (hn : ((m.blocks.filter fun b => !isSkippedName b.name).map Blk.name).Nodup) :
    P.equations = P.blocks.flatMap (fun p => p.2.equations) ∧
    ∃ ss, extractSS m.assumptions m = .ok ss ∧
      List.Forall₂ (fun (b : Blk) (p : Str × Built) => p.1 = b.name ∧ constructBlock m.assumptions (ssSymbols ss) b = .ok p.2)
        (m.blocks.filter fun b => !isSkippedName b.name) P.blocks := by
  obtain ⟨ss, h0, _, h1, _, _, _, _, h2, _⟩ := load_ok h
  obtain ⟨built, h3, h4⟩ := loop_distinct _ _ _ h1 (by simpa [dkeys] using hn)
  refine ⟨by rw [h2, List.flatMap_map], ss, h0, ?_⟩
  rw [List.nil_append] at h3
  rw [h3]; exact h4

/-- a block consisting of identities -/
def identBlock (name : Str) (es : List (Expr × Expr)) : Blk := { name := name, identities := es.map fun p => { lhs := p.1, rhs := p.2 } }

/-- **C53** is violated for blocks sharing a name: the equations of the first one are lost. -/
theorem C53_same_name_violated :
    ∃ P, loadModel { blocks := [identBlock ['A'] [(.var ['x'] (.t 0), .num 1)], identBlock ['A'] [(.var ['y'] (.t 0), .num 2)]] } = .ok P ∧
      P.equations.length = 1 ∧ (∀ e ∈ P.equations, ∀ s ∈ e.tsyms, s.base ≠ ['x']) := by
  obtain ⟨P, h1, h2⟩ := loaded { blocks := [identBlock ['A'] [(.var ['x'] (.t 0), .num 1)], identBlock ['A'] [(.var ['y'] (.t 0), .num 2)]] }
    (fun P => (P.equations.length, P.equations.all fun e => e.tsyms.all fun s => s.base ≠ ['x'])) (1, true) (by decide +kernel)
  simp only [Prod.mk.injEq, List.all_eq_true, decide_eq_true_eq] at h2
  exact ⟨P, h1, h2.1, h2.2⟩

/-- **C53** is violated for a steady-state block named `STEADY`: it is used as the steady-state block (its value for `x` is recorded) and
its equation also becomes a model equation. -/
theorem C53_steady_violated :
    ∃ P, loadModel { blocks := [identBlock ['S','T','E','A','D','Y'] [(.var ['x'] .ss, .num 1)]] } = .ok P ∧ P.equations.length = 1 ∧
      P.ss = [(['x', '_', 's', 's'], .num 1)] := by
  have hx : extractSS [] { blocks := [identBlock ['S','T','E','A','D','Y'] [(.var ['x'] .ss, .num 1)]] } =
      .ok [(.tv ⟨['x'], .ss, mergeAssumptions none⟩, .num 1)] := by
    simp [extractSS, identBlock, isSSName, normName, Char.toUpper, ssEquations, eqnToSympy, toSympy, List.mapM_cons, bind, Except.bind, pure, Except.pure,
      defDict, dset, SEq.lhsSym, flattenSubs, resolveLoop, resolve, dkeys, flatDeps, dget, SExpr.syms, SExpr.subsSeq, convVar]
  have hb : (loadRest { blocks := [identBlock ['S','T','E','A','D','Y'] [(.var ['x'] .ss, .num 1)]] } [(.tv ⟨['x'], .ss, mergeAssumptions none⟩, .num 1)]).toOption.map
      (fun P => (P.equations.length, P.ss)) = some (1, [(['x', '_', 's', 's'], .num 1)]) := by decide +kernel
  have hl : loadModel { blocks := [identBlock ['S','T','E','A','D','Y'] [(.var ['x'] .ss, .num 1)]] } =
      loadRest { blocks := [identBlock ['S','T','E','A','D','Y'] [(.var ['x'] .ss, .num 1)]] } [(.tv ⟨['x'], .ss, mergeAssumptions none⟩, .num 1)] := by
    unfold loadModel; rw [show extractSS _ _ = _ from hx]
  rw [← hl] at hb
  obtain ⟨P, h1, h2⟩ := loaded _ _ _ hb
  simp only [Prod.mk.injEq] at h2
  exact ⟨P, h1, h2⟩


/-! ## C54: the steady-state block -/

/-- **C54** values: one entry for each identity of the (first) steady-state block, and wherever the block's equations hold the recorded
value is the value of the variable. -/
theorem C54_values (asm : List (Str × Asm)) (m : Mdl) (b : Blk) (ds is : List SEq) (d : List (Sym × SExpr))
    (hb : m.blocks.find? (fun b => isSSName b.name) = some b) (he : ssEquations asm b = .ok (ds, is)) (h : extractSS asm m = .ok d) :
    (∀ k, k ∈ dkeys d ↔ ∃ e ∈ is, e.lhs = .sym k) ∧
    ∀ {K : Type} (V : Valuation K) (t : Int), (∀ e ∈ ds ++ is, e.lhs.at V t = e.rhs.at V t) → ∀ k v, (k, v) ∈ d → v.at V t = V.symAt t k := by
  simp only [extractSS, hb, he] at h
  cases hf : flattenSubs (defDict (ds ++ is)) with
  | none => rw [hf] at h; cases h
  | some o =>
    cases o with
    | none => rw [hf] at h; cases h
    | some flat =>
      simp only [hf] at h
      cases h
      have hkeys := (C15_keys (defDict (ds ++ is)) hf).2
      have hdk : ∀ e ∈ ds ++ is, ∀ k, e.lhs = .sym k → k ∈ dkeys (defDict (ds ++ is)) := by
        have gen : ∀ (l : List SEq) (acc : List (Sym × SExpr)) k, (k ∈ dkeys acc ∨ ∃ e ∈ l, e.lhs = .sym k) →
            k ∈ dkeys (l.foldl (fun d e => match e.lhs with | .sym s => dset d s e.rhs | _ => d) acc) := by
          intro l
          induction l with
          | nil => intro acc k h; simpa using h
          | cons e l ih =>
            intro acc k h
            rw [List.foldl_cons]
            apply ih
            rcases h with h | ⟨w, hw, h⟩
            · left
              split
              · rw [mem_dkeys_dset]; exact .inr h
              · exact h
            · rcases List.mem_cons.mp hw with rfl | hw
              · left; simp only [h]; rw [mem_dkeys_dset]; exact .inl rfl
              · exact .inr ⟨w, hw, h⟩
        intro e he k hk
        exact gen _ _ _ (.inr ⟨e, he, hk⟩)
      have loop : ∀ (ks : List Sym) (acc : List (Sym × SExpr)), (∀ k ∈ ks, k ∈ dkeys flat) → (∀ p ∈ acc, p ∈ flat) →
          (∀ k, k ∈ dkeys (ks.foldl (fun d k => match dget flat k with | some v => dset d k v | none => d) acc) ↔ k ∈ dkeys acc ∨ k ∈ ks) ∧
          ∀ p ∈ ks.foldl (fun d k => match dget flat k with | some v => dset d k v | none => d) acc, p ∈ flat := by
        intro ks
        induction ks with
        | nil => intro acc _ h; exact ⟨by simp, h⟩
        | cons a ks ih =>
          intro acc h1 h2
          have ha : a ∈ dkeys flat := h1 a (by simp)
          rw [← dget_isSome, Option.isSome_iff_exists] at ha
          obtain ⟨v, hv⟩ := ha
          rw [List.foldl_cons]
          simp only [hv]
          have := ih (dset acc a v) (fun k hk => h1 k (by simp [hk])) (by
            intro p hp
            have : ∀ (d : List (Sym × SExpr)), p ∈ dset d a v → p ∈ d ∨ p = (a, v) := by
              intro d
              induction d with
              | nil => simp [dset]
              | cons q d ih =>
                simp only [dset]
                split
                · rename_i hq
                  simp only [List.mem_cons]; rintro (h | h)
                  · right; rw [h, hq]
                  · exact .inl (.inr h)
                · simp only [List.mem_cons]; rintro (h | h)
                  · exact .inl (.inl h)
                  · rcases ih h with h | h
                    · exact .inl (.inr h)
                    · exact .inr h
            rcases this _ hp with h | h
            · exact h2 _ h
            · rw [h]; exact mem_of_dget _ _ _ hv)
          refine ⟨fun k => ?_, this.2⟩
          rw [this.1, mem_dkeys_dset, List.mem_cons]; tauto
      have hsym : ∀ k, k ∈ is.filterMap SEq.lhsSym ↔ ∃ e ∈ is, e.lhs = .sym k := by
        intro k
        simp only [List.mem_filterMap, SEq.lhsSym]
        refine exists_congr fun e => and_congr_right fun _ => ?_
        split <;> simp_all
      have hl := loop (is.filterMap SEq.lhsSym) [] (by
        intro k hk
        obtain ⟨e, he, h1⟩ := (hsym k).mp hk
        rw [hkeys]; exact hdk e (by simp [he]) k h1) (by simp)
      refine ⟨fun k => ?_, ?_⟩
      · refine (hl.1 k).trans ?_; rw [hsym]; simp [dkeys]
      · intro K V t hV k v hkv
        refine C15_same_values (defDict (ds ++ is)) hf V t ?_ k v (hl.2 _ hkv)
        intro k v hk
        obtain ⟨e, he, h1, h2⟩ := Slv.defDict_mem _ _ (mem_of_dget _ _ _ hk)
        have := hV e he
        simp only at h1 h2
        rw [h1] at this
        rw [h2]; exact this

/-- **C54** only the first steady-state block counts: whatever other blocks are added after it, the recorded values are the same. A
second steady-state block is therefore ignored without a message. -/
theorem C54_first_block_only (asm : List (Str × Asm)) (m m' : Mdl) (pre rest rest' : List Blk) (b : Blk)
    (hpre : ∀ c ∈ pre, isSSName c.name = false) (hb : isSSName b.name = true)
    (hm : m.blocks = pre ++ b :: rest) (hm' : m'.blocks = pre ++ b :: rest') : extractSS asm m = extractSS asm m' := by
  have gen : ∀ r, (pre ++ b :: r).find? (fun b => isSSName b.name) = some b := by
    intro r
    rw [List.find?_append, List.find?_eq_none.mpr (by intro c hc; simp [hpre c hc])]
    simp [hb]
  unfold extractSS
  rw [hm, hm', gen, gen]

/-- non-vacuity: a second steady-state block under another accepted name -/
example : isSSName "STEADY_STATE".toList = true ∧ isSSName "ss".toList = true ∧ isSSName "HOUSEHOLD".toList = false := by decide +kernel

/-! ## C55: hyper-priors of shocks -/

namespace Ldr

theorem shockLoop_spec (priors : List (Str × Dist)) : ∀ (kw : List (Str × (Rat ⊕ Str))) (s : ShockDist), (dkeys kw).Nodup →
    (∀ k, k ∈ dkeys kw → dget s.fixed k = none ∧ dget s.hyper k = none ∧ dget s.names k = none) →
    let r := shockLoop priors kw s
    r.name = s.name ∧
    (∀ k q, (k, .inl q) ∈ kw → dget r.fixed k = some q ∧ dget r.hyper k = none ∧ dget r.names k = none) ∧
    (∀ k n, (k, .inr n) ∈ kw → dget r.names k = some n ∧ dget r.hyper k = dget priors n ∧ dget r.fixed k = none) ∧
    (∀ k, k ∉ dkeys kw → dget r.fixed k = dget s.fixed k ∧ dget r.hyper k = dget s.hyper k ∧ dget r.names k = dget s.names k)
  | [], s, _, _ => by simp [shockLoop]
  | (k0, v0) :: kw, s, hn, hs => by
    simp only [dkeys, List.map_cons, List.nodup_cons] at hn
    have hk0 := hs k0 (by simp [dkeys])
    have key : ∀ s' : ShockDist, s'.name = s.name →
        (∀ k, k ≠ k0 → dget s'.fixed k = dget s.fixed k ∧ dget s'.hyper k = dget s.hyper k ∧ dget s'.names k = dget s.names k) →
        (∀ q, v0 = .inl q → dget s'.fixed k0 = some q ∧ dget s'.hyper k0 = none ∧ dget s'.names k0 = none) →
        (∀ n, v0 = .inr n → dget s'.names k0 = some n ∧ dget s'.hyper k0 = dget priors n ∧ dget s'.fixed k0 = none) →
        let r := shockLoop priors kw s'
        r.name = s.name ∧
        (∀ k q, (k, .inl q) ∈ (k0, v0) :: kw → dget r.fixed k = some q ∧ dget r.hyper k = none ∧ dget r.names k = none) ∧
        (∀ k n, (k, .inr n) ∈ (k0, v0) :: kw → dget r.names k = some n ∧ dget r.hyper k = dget priors n ∧ dget r.fixed k = none) ∧
        (∀ k, k ∉ dkeys ((k0, v0) :: kw) → dget r.fixed k = dget s.fixed k ∧ dget r.hyper k = dget s.hyper k ∧ dget r.names k = dget s.names k) := by
      intro s' e0 e1 e2 e3
      obtain ⟨i0, i1, i2, i3⟩ := shockLoop_spec priors kw s' hn.2 (by
        intro k hk
        have hne : k ≠ k0 := by rintro rfl; exact hn.1 hk
        have := hs k (by simp only [dkeys, List.map_cons, List.mem_cons]; exact .inr hk)
        rw [(e1 k hne).1, (e1 k hne).2.1, (e1 k hne).2.2]; exact this)
      have i30 := i3 k0 hn.1
      refine ⟨i0.trans e0, ?_, ?_, ?_⟩
      · intro k q hkq
        rcases List.mem_cons.mp hkq with h | h
        · simp only [Prod.mk.injEq] at h
          obtain ⟨rfl, h⟩ := h
          rw [i30.1, i30.2.1, i30.2.2]; exact e2 q h.symm
        · exact i1 k q h
      · intro k n hkn
        rcases List.mem_cons.mp hkn with h | h
        · simp only [Prod.mk.injEq] at h
          obtain ⟨rfl, h⟩ := h
          rw [i30.1, i30.2.1, i30.2.2]; exact e3 n h.symm
        · exact i2 k n h
      · intro k hk
        simp only [dkeys, List.map_cons, List.mem_cons, not_or] at hk
        have := i3 k hk.2
        rw [this.1, this.2.1, this.2.2]; exact e1 k hk.1
    cases v0 with
    | inl q =>
      refine key _ rfl ?_ ?_ (by simp)
      · intro k hk; simp [dget_dset, Ne.symm hk]
      · intro q' hq; cases hq; simp [hk0]
    | inr n =>
      simp only [shockLoop]
      cases hp : dget priors n with
      | none =>
        refine key _ rfl ?_ (by simp) ?_
        · intro k hk; simp [dget_dset, Ne.symm hk]
        · intro n' hn'; cases hn'; simp [hk0, hp]
      | some d =>
        refine key _ rfl ?_ (by simp) ?_
        · intro k hk; simp [dget_dset, Ne.symm hk]
        · intro n' hn'; cases hn'; simp [hk0, hp]

end Ldr

/-- **C55** one shock: a `Normal` shock that refers to a parameter gets a distribution in which each numeric keyword is kept and each keyword
that names a parameter is linked to that parameter's prior — if the table of priors at hand has one. -/
theorem C55_shock (priors : List (Str × Dist)) (i : Dist) (hd : i.dist = ['N','o','r','m','a','l']) (hk : (dkeys i.kwargs).Nodup) (k0 n0 : Str)
    (h0 : (k0, .inr n0) ∈ i.kwargs) :
    ∃ s, createShockDist i priors = some s ∧ s.name = i.param ∧
      (∀ k q, (k, .inl q) ∈ i.kwargs → dget s.fixed k = some q ∧ dget s.hyper k = none) ∧
      (∀ k n, (k, .inr n) ∈ i.kwargs → dget s.names k = some n ∧ dget s.hyper k = dget priors n) := by
  obtain ⟨e0, e1, e2, _⟩ := shockLoop_spec priors i.kwargs { name := i.param } hk (by simp [dget])
  refine ⟨_, ?_, e0, fun k q h => ⟨(e1 k q h).1, (e1 k q h).2.1⟩, fun k n h => ⟨(e2 k n h).1, (e2 k n h).2.1⟩⟩
  simp only [createShockDist, hd, ne_eq, not_true_eq_false, if_false]
  rw [if_neg]
  intro he
  have := (e2 k0 n0 h0).1
  rw [List.isEmpty_iff] at he
  rw [he] at this; simp [dget] at this

/-- **C55** is violated for the order of blocks: a shock whose standard deviation has its prior in a *later* block is not linked to it,
although the prior is declared (and listed among the model's priors). -/
theorem C55_later_prior_violated (ok : Dist → Bool) (hok : ∀ d, ok d = true) :
    let shock : Dist := { param := ['e'], dist := ['N','o','r','m','a','l'], kwargs := [(['m','u'], .inl 0), (['s','i','g','m','a'], .inr ['s'])] }
    let prior : Dist := { param := ['s'], dist := ['H','a','l','f','N','o','r','m','a','l'], kwargs := [(['s','i','g','m','a'], .inl 1)] }
    let a : Blk := { name := ['A'], shockDists := [shock] }
    let b : Blk := { name := ['B'], calibration := [.dist prior] }
    (dget (loadDists ok [a, b] [] []).1 ['s'] = some prior ∧
      ((dget (loadDists ok [a, b] [] []).2 ['e']).map fun s => dget s.hyper ['s','i','g','m','a']) = some none) ∧
    ((dget (loadDists ok [b, a] [] []).2 ['e']).map fun s => dget s.hyper ['s','i','g','m','a']) = some (some prior) := by
  simp [loadDists, blockPriors, blockShockDists, createShockDist, shockLoop, dget, dset, hok]

namespace Ldr

theorem priors_after (ok : Dist → Bool) : ∀ (bs : List Blk) (ps sd), (loadDists ok bs ps sd).1 = bs.foldl (fun ps b => blockPriors ok b ps) ps
  | [], _, _ => rfl
  | b :: bs, ps, sd => by simp only [loadDists, List.foldl_cons]; exact priors_after ok bs _ _

theorem dists_append (ok : Dist → Bool) : ∀ (l1 l2 : List Blk) (ps sd),
    loadDists ok (l1 ++ l2) ps sd = loadDists ok l2 (loadDists ok l1 ps sd).1 (loadDists ok l1 ps sd).2
  | [], _, _, _ => rfl
  | b :: l1, l2, ps, sd => by simp only [List.cons_append, loadDists]; exact dists_append ok l1 l2 _ _

theorem block_other (priors : List (Str × Dist)) (n : Str) : ∀ (is : List Dist) (sd : List (Str × ShockDist)), (∀ i ∈ is, i.param ≠ n) →
    dget (is.foldl (fun sd i => match createShockDist i priors with | some s => dset sd i.param s | none => sd) sd) n = dget sd n
  | [], _, _ => rfl
  | i :: is, sd, h => by
    rw [List.foldl_cons, block_other priors n is _ fun j hj => h j (by simp [hj])]
    split
    · rw [dget_dset, if_neg (h i (by simp))]
    · rfl

theorem dists_other (ok : Dist → Bool) (n : Str) : ∀ (bs : List Blk) (ps sd), (∀ b ∈ bs, ∀ i ∈ b.shockDists, i.param ≠ n) →
    dget (loadDists ok bs ps sd).2 n = dget sd n
  | [], _, _, _ => rfl
  | b :: bs, ps, sd, h => by
    simp only [loadDists]
    rw [dists_other ok n bs _ _ fun c hc => h c (by simp [hc])]
    exact block_other _ n _ _ (h b (by simp))

end Ldr

/-- **C55** (partial) a shock is linked to every hyper-prior declared in its own block or in an *earlier* one. -/
theorem C55_linked_partial (ok : Dist → Bool) (l1 l2 : List Blk) (b : Blk) (j1 j2 : List Dist) (i : Dist)
    (hb : b.shockDists = j1 ++ i :: j2) (huniq : ∀ j ∈ j2, j.param ≠ i.param) (huniq2 : ∀ c ∈ l2, ∀ j ∈ c.shockDists, j.param ≠ i.param)
    (hd : i.dist = ['N','o','r','m','a','l']) (hk : (dkeys i.kwargs).Nodup) (k n : Str) (h0 : (k, .inr n) ∈ i.kwargs) :
    ∃ s, dget (loadDists ok (l1 ++ b :: l2) [] []).2 i.param = some s ∧ dget s.names k = some n ∧
      dget s.hyper k = dget (loadDists ok (l1 ++ [b]) [] []).1 n := by
  obtain ⟨s, h1, _, _, h3⟩ := C55_shock (blockPriors ok b (loadDists ok l1 [] []).1) i hd hk k n h0
  refine ⟨s, ?_, (h3 k n h0).1, ?_⟩
  · rw [dists_append]
    simp only [loadDists]
    rw [dists_other ok _ _ _ _ huniq2]
    unfold blockShockDists
    rw [hb, List.foldl_append, List.foldl_cons]
    refine (block_other _ _ _ _ huniq).trans ?_
    simp only [h1, dget_dset_self]
  · rw [(h3 k n h0).2, dists_append]; rfl

/-! ## C56: `tryreduce` -/

/-- **C56** the vars marked for elimination are exactly the model vars whose name is listed, in the order of the list (base names
of model vars being distinct); names that are no model variable are dropped without a message. -/
theorem C56_tryreduce (names : List Str) (vars : List TSym) (hu : (vars.map TSym.base).Nodup) (v : TSym) :
    (v ∈ extractTryreduce names vars ↔ v ∈ vars ∧ v.base ∈ names) ∧
    ((extractTryreduce names vars).map TSym.base = names.filter fun n => n ∈ vars.map TSym.base) := by
  constructor
  · simp only [extractTryreduce, List.mem_filterMap]
    constructor
    · rintro ⟨n, hn, h⟩
      have h1 := List.mem_of_find?_eq_some h
      have h2 := List.find?_some h
      simp at h2; exact ⟨h1, by rw [h2]; exact hn⟩
    · rintro ⟨hv, hn⟩
      refine ⟨v.base, hn, ?_⟩
      cases hf : vars.find? (fun w => decide (w.base = v.base)) with
      | none => rw [List.find?_eq_none] at hf; exact absurd (by simp) (hf v hv)
      | some w =>
        have h1 := List.mem_of_find?_eq_some hf
        have h2 := List.find?_some hf
        simp at h2
        rw [List.inj_on_of_nodup_map hu h1 hv h2]
  · simp only [extractTryreduce]
    induction names with
    | nil => rfl
    | cons n ns ih =>
      rw [List.filterMap_cons, List.filter_cons]
      cases hf : vars.find? (fun w => decide (w.base = n)) with
      | none =>
        rw [List.find?_eq_none] at hf
        rw [if_neg]
        · exact ih
        · simp only [decide_eq_true_eq, List.mem_map, not_exists, not_and]; intro w hw; simpa using hf w hw
      | some w =>
        have h1 := List.mem_of_find?_eq_some hf
        have h2 := List.find?_some hf
        simp at h2
        rw [if_pos]
        · simp only [List.map_cons, ih, h2]
        · simp only [decide_eq_true_eq, List.mem_map]; exact ⟨w, h1, h2⟩

/-- non-vacuity -/
example : extractTryreduce [['U'], ['Z']] [⟨['C'], .t 0, []⟩, ⟨['U'], .t 0, []⟩] = [⟨['U'], .t 0, []⟩] := by decide

end GE
