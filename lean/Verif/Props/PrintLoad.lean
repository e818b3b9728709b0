import Verif.Model.PrintLoadSpec
import Verif.Props.PrintFile
import Verif.Props.Flags
import Verif.Props.Pipeline
import Verif.Props.ParseDists
import Verif.Model.LoadSimplified
/-! # C149: printing a model and loading the text gives the same model -/

namespace GE
namespace PLd
open Gcn Prt

/-! ### the loader looks at assumptions only through the symbols it makes -/

section
variable {asm asm' : List (Str × Asm)} (h : convVar asm = convVar asm')
include h

mutual
theorem sympy_congr : ∀ e : Expr, toSympy asm e = toSympy asm' e
  | .num v => by simp only [toSympy]
  | .par n => by simp only [toSympy]
  | .var n t => by simp only [toSympy, h]
  | .bin op l r => by simp only [toSympy, sympy_congr l, sympy_congr r]
  | .neg e => by simp only [toSympy, sympy_congr e]
  | .call f as => by simp only [toSympy, args_congr as]
  | .expect e => by simp only [toSympy, sympy_congr e]
theorem args_congr : ∀ as : List Expr, toSympyArgs asm as = toSympyArgs asm' as
  | [] => by simp only [toSympyArgs]
  | a :: as => by simp only [toSympyArgs, sympy_congr a, args_congr as]
end

theorem eqn_congr (e : Eqn) : eqnToSympy asm e = eqnToSympy asm' e := by
  simp only [eqnToSympy, sympy_congr h]

theorem mult_congr (e : Eqn) : extractMultiplier asm e = extractMultiplier asm' e := by
  simp only [extractMultiplier, h]

theorem list_congr : ∀ (es : List Eqn) (st : ConvSt) (acc : List (Nat × SEq)), convertList asm es st acc = convertList asm' es st acc
  | [], _, _ => rfl
  | e :: es, st, acc => by simp only [convertList, eqn_congr h, mult_congr h, list_congr es]

theorem component_congr (es : List Eqn) (st : ConvSt) : convertComponent asm es st = convertComponent asm' es st := by
  cases es with
  | nil => rfl
  | cons e es => simp only [convertComponent, list_congr h]

theorem items_congr : ∀ cs : List Calib, calibItems asm cs = calibItems asm' cs
  | [] => rfl
  | .eq e :: cs => by simp only [calibItems, eqn_congr h, items_congr cs]
  | .dist d :: cs => by simp only [calibItems, items_congr cs]

theorem number_congr : ∀ (cs : List (Option Eqn × SEq)) (st : ConvSt) (acc : List (Nat × SEq)), numberCalib asm cs st acc = numberCalib asm' cs st acc
  | [], _, _ => rfl
  | (none, s) :: cs, st, acc => by simp only [numberCalib, number_congr cs]
  | (some e, s) :: cs, st, acc => by simp only [numberCalib, mult_congr h, number_congr cs]

theorem calibration_congr (cs : List Calib) (st : ConvSt) : convertCalibration asm cs st = convertCalibration asm' cs st := by
  simp only [convertCalibration, items_congr h, number_congr h]

theorem vars_congr (vs : List VarRef) : convertVars asm vs = convertVars asm' vs := by
  cases vs with
  | nil => rfl
  | cons v vs => simp only [convertVars, h]

theorem toBlock_congr (b : Blk) : astBlockToBlock asm b = astBlockToBlock asm' b := by
  simp only [astBlockToBlock, component_congr h, calibration_congr h, vars_congr h]

theorem construct_congr (ss : List (TSym × SExpr)) (b : Blk) : constructBlock asm ss b = constructBlock asm' ss b := by
  simp only [constructBlock, toBlock_congr h]

theorem loop_congr (ss : List (TSym × SExpr)) : ∀ (bs : List Blk) (acc : List (Str × Built)), blockDictLoop asm ss bs acc = blockDictLoop asm' ss bs acc
  | [], _ => rfl
  | b :: bs, acc => by simp only [blockDictLoop, construct_congr h, loop_congr ss bs]

theorem ssEquations_congr (b : Blk) : ssEquations asm b = ssEquations asm' b := by
  have : eqnToSympy asm = eqnToSympy asm' := funext (eqn_congr h)
  simp only [ssEquations, this]

theorem ss_congr (m : Mdl) : extractSS asm m = extractSS asm' m := by
  simp only [extractSS, ssEquations_congr h]

/-- the loader's result depends on the assumptions through `convVar` only -/
theorem load_congr (m : Mdl) : loadModel { m with assumptions := asm } = loadModel { m with assumptions := asm' } := by
  have e : ∀ a : List (Str × Asm), extractSS asm' { m with assumptions := a } = extractSS asm' m := fun _ => rfl
  simp only [loadModel, loadRest, ss_congr h, loop_congr h, e]

theorem constructS_congr (ops : SimpOps) (ss : List (TSym × SExpr)) (b : Blk) : constructBlockS ops asm ss b = constructBlockS ops asm' ss b := by
  simp only [constructBlockS, toBlock_congr h]

theorem loopS_congr (ops : SimpOps) (ss : List (TSym × SExpr)) : ∀ (bs : List Blk) (acc : List (Str × BuiltS)),
    blockDictLoopS ops asm ss bs acc = blockDictLoopS ops asm' ss bs acc
  | [], _ => rfl
  | b :: bs, acc => by simp only [blockDictLoopS, constructS_congr h, loopS_congr ops ss bs]

theorem loadS_congr (ops : SimpOps) (m : Mdl) : loadModelS ops { m with assumptions := asm } = loadModelS ops { m with assumptions := asm' } := by
  have e : ∀ a : List (Str × Asm), extractSS asm' { m with assumptions := a } = extractSS asm' m := fun _ => rfl
  simp only [loadModelS, loadRestS, ss_congr h, loopS_congr h, e]

end

/-! ### nor at the distributions of shocks -/

/-- a block without the distributions of its shocks -/
def noDists (b : Blk) : Blk := { b with shockDists := [] }

theorem toBlock_noDists (asm : List (Str × Asm)) (b : Blk) : astBlockToBlock asm (expandBlock (noDists b)) = astBlockToBlock asm (expandBlock b) := by
  unfold expandBlock
  have : blockDeep (noDists b) = blockDeep b := rfl
  rw [this]
  by_cases hc : (blockDeep b).lags.isEmpty ∧ (blockDeep b).leads.isEmpty
  · simp only [if_pos hc]; rfl
  · simp only [if_neg hc]; rfl

theorem construct_noDists (asm : List (Str × Asm)) (ss : List (TSym × SExpr)) (b : Blk) : constructBlock asm ss (noDists b) = constructBlock asm ss b := by
  simp only [constructBlock, toBlock_noDists]

theorem loop_noDists (asm : List (Str × Asm)) (ss : List (TSym × SExpr)) : ∀ (bs : List Blk) (acc : List (Str × Built)),
    blockDictLoop asm ss (bs.map noDists) acc = blockDictLoop asm ss bs acc
  | [], _ => rfl
  | b :: bs, acc => by
    have hn : (noDists b).name = b.name := rfl
    simp only [List.map_cons, blockDictLoop, construct_noDists, loop_noDists asm ss bs, hn]

theorem ss_noDists (asm : List (Str × Asm)) (m : Mdl) : extractSS asm { m with blocks := m.blocks.map noDists } = extractSS asm m := by
  have e : (m.blocks.map noDists).find? (fun b => isSSName b.name) = (m.blocks.find? fun b => isSSName b.name).map noDists := by
    rw [List.find?_map]; rfl
  simp only [extractSS, e]
  cases m.blocks.find? fun b => isSSName b.name <;> rfl

theorem load_noDists (m : Mdl) : loadModel { m with blocks := m.blocks.map noDists } = loadModel m := by
  have e := ss_noDists m.assumptions m
  simp only [loadModel, loadRest, loop_noDists, e]

theorem constructS_noDists (ops : SimpOps) (asm : List (Str × Asm)) (ss : List (TSym × SExpr)) (b : Blk) :
    constructBlockS ops asm ss (noDists b) = constructBlockS ops asm ss b := by
  simp only [constructBlockS, toBlock_noDists]

theorem loopS_noDists (ops : SimpOps) (asm : List (Str × Asm)) (ss : List (TSym × SExpr)) : ∀ (bs : List Blk) (acc : List (Str × BuiltS)),
    blockDictLoopS ops asm ss (bs.map noDists) acc = blockDictLoopS ops asm ss bs acc
  | [], _ => rfl
  | b :: bs, acc => by
    have hn : (noDists b).name = b.name := rfl
    simp only [List.map_cons, blockDictLoopS, constructS_noDists, loopS_noDists ops asm ss bs, hn]

theorem loadS_noDists (ops : SimpOps) (m : Mdl) : loadModelS ops { m with blocks := m.blocks.map noDists } = loadModelS ops m := by
  have e := ss_noDists m.assumptions m
  simp only [loadModelS, loadRestS, loopS_noDists, e]

/-! ### assumptions as lists -/

/-- adding to a dictionary keeps the order of the keys there are -/
theorem dupdate_form {κ ν : Type} [DecidableEq κ] : ∀ (u p r : List (κ × ν)), ∃ p' r', dupdate (p ++ r) u = p' ++ r' ∧ dkeys p' = dkeys p
  | [], p, r => ⟨p, r, rfl, rfl⟩
  | (k, v) :: u, p, r => by
    have step : ∀ (p r : List (κ × ν)), ∃ p' r', dset (p ++ r) k v = p' ++ r' ∧ dkeys p' = dkeys p := by
      intro p
      induction p with
      | nil => intro r; exact ⟨[], dset r k v, rfl, rfl⟩
      | cons a p ih =>
        intro r
        by_cases ha : a.1 = k
        · refine ⟨(k, v) :: p, r, ?_, ?_⟩
          · simp [dset, ha]
          · simp [dkeys, ha]
        · obtain ⟨p', r', h1, h2⟩ := ih r
          refine ⟨a :: p', r', ?_, ?_⟩
          · simp only [List.cons_append, dset, if_neg ha, h1]
          · simpa [dkeys] using h2
    obtain ⟨p', r', h1, h2⟩ := step p r
    obtain ⟨p'', r'', h3, h4⟩ := dupdate_form u p' r'
    refine ⟨p'', r'', ?_, h4.trans h2⟩
    have : dupdate (p ++ r) ((k, v) :: u) = dupdate (dset (p ++ r) k v) u := rfl
    rw [this, h1, h3]

theorem merge_nodup (u : Option Asm) : (dkeys (mergeAssumptions u)).Nodup := dupdate_nodup _ _ (by decide)

/-- `real`, `finite`, then the rest -/
theorem merge_form (u : Option Asm) : ∃ a b r, mergeAssumptions u = ("real".toList, a) :: ("finite".toList, b) :: r := by
  obtain ⟨p, r, h1, h2⟩ := dupdate_form (u.getD []) defaultAssumptions []
  rw [List.append_nil] at h1
  match p, h2 with
  | [(x, a), (y, b)], h2 =>
    simp only [dkeys, List.map_cons, List.map_nil, defaultAssumptions, List.cons.injEq, and_true] at h2
    exact ⟨a, b, r, by rw [mergeAssumptions, h1, h2.1, h2.2]; rfl⟩

theorem tail_keys {a b : Bool} {r : Asm} (h : (dkeys (("real".toList, a) :: ("finite".toList, b) :: r)).Nodup) {k : Str × Bool} (hk : k ∈ r) :
    k.1 ∉ ["real".toList, "finite".toList] := by
  have hm : k.1 ∈ dkeys r := List.mem_map.2 ⟨k, hk, rfl⟩
  simp only [dkeys, List.map_cons, List.nodup_cons, List.mem_cons, not_or] at h
  simp only [List.mem_cons, List.not_mem_nil, or_false]
  rintro (e | e)
  · rw [e] at hm; exact h.1.2 hm
  · rw [e] at hm; exact h.2.1 hm

/-- two such lists with the same content and at most one more key are equal -/
theorem list_unique {M M' : Asm} (hf : ∃ a b r, M = ("real".toList, a) :: ("finite".toList, b) :: r)
    (hf' : ∃ a b r, M' = ("real".toList, a) :: ("finite".toList, b) :: r) (hn : (dkeys M).Nodup) (hn' : (dkeys M').Nodup)
    (hg : ∀ k, dget M k = dget M' k)
    (ho : ∀ k ∈ M, ∀ k' ∈ M, k.1 ∉ ["real".toList, "finite".toList] → k'.1 ∉ ["real".toList, "finite".toList] → k.1 = k'.1) : M = M' := by
  obtain ⟨a, b, r, rfl⟩ := hf
  obtain ⟨a', b', r', rfl⟩ := hf'
  have e1 := hg "real".toList
  have e2 := hg "finite".toList
  have hne : ¬ "real".toList = "finite".toList := by decide
  simp only [dget, if_neg hne, if_true, Option.some.injEq] at e1 e2
  subst e1 e2
  have hmem : ∀ {M M' : Asm}, (dkeys M).Nodup → (∀ k, dget M k = dget M' k) → ∀ p ∈ M, p ∈ M' := by
    intro M M' hn hg p hp
    have : dget M p.1 = some p.2 := dget_of_mem _ hn _ _ hp
    rw [hg] at this
    exact mem_of_dget _ _ _ this
  have h1 : ∀ p ∈ r, p ∈ r' := fun p hp => by
    have := hmem hn hg p (by simp [hp])
    have hk := tail_keys hn hp
    simp only [List.mem_cons, List.not_mem_nil, or_false, not_or] at hk this
    rcases this with rfl | rfl | h
    · exact absurd rfl hk.1
    · exact absurd rfl hk.2
    · exact h
  have h2 : ∀ p ∈ r', p ∈ r := fun p hp => by
    have := hmem hn' (fun k => (hg k).symm) p (by simp [hp])
    have hk := tail_keys hn' hp
    simp only [List.mem_cons, List.not_mem_nil, or_false, not_or] at hk this
    rcases this with rfl | rfl | h
    · exact absurd rfl hk.1
    · exact absurd rfl hk.2
    · exact h
  have one : ∀ p ∈ r, ∀ q ∈ r, p.1 = q.1 := fun p hp q hq => ho p (by simp [hp]) q (by simp [hq]) (tail_keys hn hp) (tail_keys hn hq)
  have short : ∀ s : Asm, (dkeys s).Nodup → (∀ p ∈ s, ∀ q ∈ s, p.1 = q.1) → s = [] ∨ ∃ p, s = [p] := by
    intro s hs h
    match s with
    | [] => exact .inl rfl
    | [p] => exact .inr ⟨p, rfl⟩
    | p :: q :: s =>
      simp only [dkeys, List.map_cons, List.nodup_cons, List.mem_cons, not_or] at hs
      exact absurd (h p (by simp) q (by simp)) hs.1.1
  have tl : ∀ {s : Asm}, (dkeys (("real".toList, a) :: ("finite".toList, b) :: s)).Nodup → (dkeys s).Nodup := fun h => by
    simp only [dkeys, List.map_cons, List.nodup_cons] at h
    exact h.2.2
  rcases short r (tl hn) one with rfl | ⟨p, rfl⟩
  · cases r' with
    | nil => rfl
    | cons q r' => exact absurd (h2 q (by simp)) (by simp)
  · rcases short r' (tl hn') fun x hx y hy => one x (h2 x hx) y (h2 y hy) with rfl | ⟨q, rfl⟩
    · exact absurd (h1 p (by simp)) (by simp)
    · have := h1 p (by simp)
      rw [List.mem_singleton.1 this]

/-- the same assumptions make the same symbols -/
theorem convVar_congr {d d' : List (Str × Asm)} (hs : SameAsm d' d) (hn : ∀ p ∈ d, (dkeys p.2).Nodup) (hn' : ∀ p ∈ d', (dkeys p.2).Nodup)
    (ho : ∀ p ∈ d, ∀ k ∈ p.2, ∀ k' ∈ p.2, k.1 ∉ ["real".toList, "finite".toList] → k'.1 ∉ ["real".toList, "finite".toList] → k.1 = k'.1) :
    convVar d' = convVar d := by
  funext n t
  have key : mergeAssumptions (dget d n) = mergeAssumptions (dget d' n) := by
    refine list_unique (merge_form _) (merge_form _) (merge_nodup _) (merge_nodup _) (fun k => ?_) fun k hk k' hk' h1 h2 => ?_
    · have c1 := C44_symbol d hn n t k
      have c2 := C44_symbol d' hn' n t k
      simp only [convVar] at c1 c2
      rw [c1, c2, (hs n).2 k]
    · have src : ∀ k ∈ mergeAssumptions (dget d n), k.1 ∉ ["real".toList, "finite".toList] → ∃ p ∈ d, n = p.1 ∧ dget d n = some p.2 ∧ k ∈ p.2 := by
        intro k hk hx
        rcases Lag.mem_dupdate _ _ _ hk with h | h
        · exact absurd (by revert h; simp only [defaultAssumptions, List.mem_cons, List.not_mem_nil, or_false]; rintro (rfl | rfl) <;> decide) hx
        · cases hd : dget d n with
          | none => rw [hd] at h; simp at h
          | some a => rw [hd] at h; exact ⟨(n, a), mem_of_dget _ _ _ hd, rfl, rfl, h⟩
      obtain ⟨p, hp, e1, e2, h3⟩ := src k hk h1
      obtain ⟨q, hq, e3, e4, h4⟩ := src k' hk' h2
      have : p.2 = q.2 := Option.some.inj (e2.symm.trans e4)
      rw [← this] at h4
      exact ho p hp k h3 k' h4 h1 h2
  simp only [convVar, key]

theorem last_asm (Q : List (Str × Asm) → Prop) (h0 : Q []) (ss : List Special) (h : ∀ l, Special.assumptions l ∈ ss → Q l) :
    Q (lastOr (fun | .assumptions l => some l | _ => none) [] ss) := by
  unfold lastOr
  cases hg : (ss.filterMap fun (x : Special) => match x with | .assumptions l => some l | _ => none).getLast? with
  | none => exact h0
  | some l =>
    obtain ⟨s, hs, e⟩ := List.mem_filterMap.1 (List.mem_of_getLast? hg)
    cases s with
    | assumptions l' => cases e; exact h l hs
    | options _ => cases e
    | tryreduce _ => cases e

theorem specials_asm {ts : List Tok} {ss : List Special} (hs : Seq IsSpecial ts ss) :
    ∀ l, Special.assumptions l ∈ ss → ∀ p ∈ l, (dkeys p.2).Nodup := by
  induction hs with
  | nil => intro l hl; cases hl
  | cons hw _ ih =>
    intro l hl
    rcases List.mem_cons.1 hl with rfl | hl
    · cases hw; exact Flg.asm_nodup _
    · exact ih l hl

/-- the assumptions a file states -/
theorem file_asm {ts : List Tok} {m : GFile} (h : IsFile ts m) : ∀ p ∈ m.assumptions, (dkeys p.2).Nodup := by
  obtain ⟨h1, -, -, -, -, -, h2⟩ := h
  rw [h2]
  exact last_asm (fun d => ∀ p ∈ d, (dkeys p.2).Nodup) (by simp) _ (specials_asm h1)

/-! ### what printing keeps -/

theorem bare_same {e : Eqn} (h : e.tags = []) : bare e = e := by
  cases e; simp only at h; subst h; rfl

theorem bare_block {b : GBlock} (h : ∀ e, b.everyEqn e → e.tags = []) : (bareBlock b).toBlk = noDists b.toBlk := by
  have m : ∀ l : List Eqn, (∀ e ∈ l, e.tags = []) → l.map bare = l := fun l hl => by
    conv => rhs; rw [← List.map_id l]
    exact List.map_congr_left fun e he => bare_same (hl e he)
  have e1 := m b.definitions fun e he => h e (.inl he)
  have e2 := m b.objective fun e he => h e (.inr (.inl he))
  have e3 := m b.constraints fun e he => h e (.inr (.inr (.inl he)))
  have e4 := m b.identities fun e he => h e (.inr (.inr (.inr (.inl he))))
  have e5 : (bareBlock b).calibration = b.calibration := by
    show b.calibration.map _ = b.calibration
    conv => rhs; rw [← List.map_id b.calibration]
    refine List.map_congr_left fun c hc => ?_
    cases c with
    | eq e => exact congrArg GCal.eq (bare_same (h e (.inr (.inr (.inr (.inr hc))))))
    | prior d => rfl
  unfold GBlock.toBlk noDists
  rw [e5]
  simp only [bareBlock, e1, e2, e3, e4, List.map_nil]

end PLd
open Gcn Prt PLd

theorem PLd.printed {num : Rat → Str} {ind : Str} {m : GFile} (hi : Layout ind) (hm : Printable num m) (hr : m.tryreduce = []) (ht : m.Untagged)
    (ho : m.OneExtra) : ∃ m', ParseGcn (modelText num ind m) m' ∧ loadModel m'.toMdl = loadModel m.toMdl ∧
      (∀ ops, loadModelS ops m'.toMdl = loadModelS ops m.toMdl) ∧ m'.toMdl.blocks = m.toMdl.blocks.map noDists := by
  obtain ⟨m', h1, h2, -, h4, h5⟩ := C108_print_parse_partial num ind m hi hm hr
  have hb : m'.toMdl.blocks = m.toMdl.blocks.map noDists := by
    show m'.blocks.map GBlock.toBlk = (m.blocks.map GBlock.toBlk).map noDists
    rw [h2, List.map_map, List.map_map]
    exact List.map_congr_left fun b hb => bare_block (ht b hb)
  have hcv : convVar m'.assumptions = convVar m.assumptions := by
    refine convVar_congr h5 (fun p hp => (hm.assumptions p hp).nodup) ?_ ho
    obtain ⟨ts, _, hf⟩ := (C107_parse _ _).1 h1
    exact file_asm hf
  have e1 : m'.toMdl = { { m.toMdl with blocks := m.toMdl.blocks.map noDists } with assumptions := m'.assumptions } := by
    rw [← hb]
    simp only [GFile.toMdl, h4, hr]
  refine ⟨m', h1, ?_, fun ops => ?_, hb⟩
  · rw [e1, load_congr hcv]
    exact load_noDists m.toMdl
  · rw [e1, loadS_congr hcv]
    exact loadS_noDists ops m.toMdl

/-- **C149**: the text `print_model` writes for a parsed file loads exactly when the file does, as the same model: the same equations, variables,
shocks, parameters, calibrating equations, computed parameters and steady-state values, in the same order -/
theorem C149_same (num : Rat → Str) (ind : Str) (text : List Char) (m : GFile) (hp : ParseGcn text m) (hi : Layout ind) (hm : Printable num m)
    (hr : m.tryreduce = []) (ht : m.Untagged) (ho : m.OneExtra) (P : Primitives) : LoadGcn (modelText num ind m) P ↔ LoadGcn text P := by
  obtain ⟨m', h1, h2, -⟩ := PLd.printed hi hm hr ht ho
  constructor
  · rintro ⟨x, hx, hl⟩
    cases C107_unique _ _ _ h1 hx
    exact ⟨m, hp, by rw [← h2]; exact hl⟩
  · rintro ⟨x, hx, hl⟩
    cases C107_unique _ _ _ hp hx
    exact ⟨m', h1, by rw [h2]; exact hl⟩

/-- **C149**: the same of `load_gcn_file`, which simplifies the blocks: the same model, with the same multipliers eliminated -/
theorem C149_default (ops : SimpOps) (num : Rat → Str) (ind : Str) (text : List Char) (m : GFile) (hp : ParseGcn text m) (hi : Layout ind)
    (hm : Printable num m) (hr : m.tryreduce = []) (ht : m.Untagged) (ho : m.OneExtra) (P : Primitives) (el : List (TSym × SExpr)) :
    LoadGcnFile ops (modelText num ind m) P el ↔ LoadGcnFile ops text P el := by
  obtain ⟨m', h1, -, h2, -⟩ := PLd.printed hi hm hr ht ho
  constructor
  · rintro ⟨x, hx, hl⟩
    cases C107_unique _ _ _ h1 hx
    exact ⟨m, hp, by rw [← h2]; exact hl⟩
  · rintro ⟨x, hx, hl⟩
    cases C107_unique _ _ _ hp hx
    exact ⟨m', h1, by rw [h2]; exact hl⟩

/-- **C149**: and with the same priors, when no shock has a distribution -/
theorem C149_priors (num : Rat → Str) (ind : Str) (text : List Char) (m : GFile) (hp : ParseGcn text m) (hi : Layout ind) (hm : Printable num m)
    (hr : m.tryreduce = []) (ht : m.Untagged) (ho : m.OneExtra) (hd : ∀ b ∈ m.blocks, b.shockDists = []) (pz : PzCall → Bool)
    (r : List (Str × Dist) × List (Str × ShockDist)) : LoadGcnDists pz (modelText num ind m) r ↔ LoadGcnDists pz text r := by
  obtain ⟨m', h1, -, -, h3⟩ := PLd.printed hi hm hr ht ho
  have e : m'.toMdl.blocks = m.toMdl.blocks := by
    rw [h3]
    show (m.blocks.map GBlock.toBlk).map noDists = m.blocks.map GBlock.toBlk
    rw [List.map_map]
    refine List.map_congr_left fun b hb => ?_
    show ({ b.toBlk with shockDists := [] } : Blk) = b.toBlk
    unfold GBlock.toBlk
    rw [hd b hb]; rfl
  constructor
  · rintro ⟨x, hx, hl⟩
    cases C107_unique _ _ _ h1 hx
    exact ⟨m, hp, by rw [← e]; exact hl⟩
  · rintro ⟨x, hx, hl⟩
    cases C107_unique _ _ _ hp hx
    exact ⟨m', h1, by rw [e]; exact hl⟩

/-- no distributions of shocks, no shock priors -/
theorem PLd.dists_none (ok : Dist → Bool) : ∀ (bs : List Blk) (ps : List (Str × Dist)), (∀ b ∈ bs, b.shockDists = []) → (loadDists ok bs ps []).2 = []
  | [], _, _ => rfl
  | b :: bs, ps, h => by
    have : blockShockDists (blockPriors ok b ps) b [] = [] := by rw [blockShockDists, h b (by simp)]; rfl
    rw [loadDists, this]
    exact PLd.dists_none ok bs _ fun x hx => h x (by simp [hx])

/-- **C149 is false for priors on shocks**: whatever the file says, the printed text loads without any -/
theorem C149_shock_priors_violated (num : Rat → Str) (ind : Str) (m : GFile) (hi : Layout ind) (hm : Printable num m) (hr : m.tryreduce = [])
    (pz : PzCall → Bool) : ∃ ps, LoadGcnDists pz (modelText num ind m) (ps, []) := by
  obtain ⟨m', h1, h2, -⟩ := C108_print_parse_partial num ind m hi hm hr
  refine ⟨_, m', h1, Prod.ext rfl ?_⟩
  symm
  refine PLd.dists_none _ _ _ fun b hb => ?_
  change b ∈ m'.blocks.map GBlock.toBlk at hb
  rw [h2, List.map_map] at hb
  obtain ⟨x, -, rfl⟩ := List.mem_map.1 hb
  rfl

/-- **C149 is false for a file with a `tryreduce` list**: its printed text never loads -/
theorem C149_tryreduce_violated (num : Rat → Str) (ind : Str) (m : GFile) (hi : Layout ind) (hm : Printable num m)
    (ht : m.tryreduce ≠ []) (hw : ∀ v ∈ m.tryreduce, IsWord v) (P : Primitives) : ¬ LoadGcn (modelText num ind m) P := by
  rintro ⟨m', h, _⟩
  exact C108_tryreduce_violated num ind m hi hm ht hw ⟨m', h⟩

/-! ## examples -/

namespace PLd

def noNum : Rat → Str := fun _ => []
def plText : List Char := "assumptions { positive { x; }; }; block A { identities { x[] = 2*x[-1] + e[]; }; shocks { e[]; }; };".toList
def plEq : Eqn where
  lhs := .var "x".toList (.t 0)
  rhs := .bin .add (.bin .mul (.num 2) (.var "x".toList (.t (-1)))) (.var "e".toList (.t 0))
  lagrange := none
  calibrating := none
  tags := []
def plFile : GFile where
  assumptions := [("x".toList, [("real".toList, true), ("positive".toList, true)])]
  blocks := [{ name := "A".toList, identities := [plEq], shocks := [⟨"e".toList, .t 0⟩] }]
def plToks : List Tok := [.id "assumptions".toList, .lbrace, .id "positive".toList, .lbrace, .id "x".toList, .semi, .rbrace, .semi, .rbrace, .semi,
  .id "block".toList, .id "A".toList, .lbrace, .id "identities".toList, .lbrace, .id "x".toList, .tix (.t 0), .eq, .num 2, .op .mul, .id "x".toList,
  .tix (.t (-1)), .op .add, .id "e".toList, .tix (.t 0), .semi, .rbrace, .semi, .id "shocks".toList, .lbrace, .id "e".toList, .tix (.t 0), .semi, .rbrace, .semi,
  .rbrace, .semi]
theorem pl_spells : SpellsToks plText plToks := (C106_reading _ _).1 (by decide +kernel)
theorem pl_file : IsFile plToks plFile := (C107_grammar _ _).1 ⟨30, rfl⟩
theorem pl_parse : ParseGcn plText plFile := (C107_parse _ _).2 ⟨_, pl_spells, pl_file⟩
theorem pl_ok : Printable noNum plFile where
  blocks := by
    intro b hb
    simp only [plFile, List.mem_singleton] at hb
    subst hb
    refine ⟨isWordB_ok (by decide), by simp, by simp, by simp, by simp, ?_, ?_, by simp⟩
    · intro e he
      simp only [List.mem_cons, List.not_mem_nil, or_false] at he
      subst he
      exact ⟨⟨by simp [plEq, Expr.Stable], by simp only [plEq, ExprOk]; exact isWordB_ok (by decide)⟩,
        ⟨by simp [plEq, Expr.Stable, Expr.rootPrec, prec], by
          simp only [plEq, ExprOk]; exact ⟨⟨.inl rfl, isWordB_ok (by decide)⟩, isWordB_ok (by decide)⟩⟩, by simp [plEq], by simp [plEq]⟩
    · intro v hv
      simp only [List.mem_cons, List.not_mem_nil, or_false] at hv
      subst hv; exact isWordB_ok (by decide)
  some_block := by simp [plFile]
  options := by simp [plFile]
  options_dict := by decide
  assumptions := by
    intro p hp
    simp only [plFile, List.mem_cons, List.not_mem_nil, or_false] at hp
    subst hp
    exact ⟨isWordB_ok (by decide), by
      intro k v h
      simp only [List.mem_cons, Prod.mk.injEq, List.not_mem_nil, or_false] at h
      rcases h with ⟨rfl, rfl⟩ | ⟨rfl, rfl⟩ <;> exact ⟨rfl, by decide⟩, by decide, by simp, by simp⟩
  assumptions_dict := by decide
theorem pl_untagged : plFile.Untagged := by
  intro b hb e he
  simp only [plFile, List.mem_singleton] at hb
  subst hb
  have : e = plEq := by simpa [GBlock.everyEqn] using he
  rw [this]; rfl
theorem pl_extra : plFile.OneExtra := by
  intro p hp k hk k' hk' h h'
  simp only [plFile, List.mem_singleton] at hp
  subst hp
  simp only [List.mem_cons, List.not_mem_nil, or_false] at hk hk'
  rcases hk with rfl | rfl
  · exact absurd (by simp) h
  · rcases hk' with rfl | rfl
    · exact absurd (by simp) h'
    · rfl
theorem pl_load : ∃ P, LoadGcn plText P ∧ P.equations.length = 1 := by
  obtain ⟨P, h1, h2⟩ := Ldr.loaded plFile.toMdl (fun P => P.equations.length) 1 (by decide +kernel)
  exact ⟨P, ⟨plFile, pl_parse, h1⟩, h2⟩

/-- a file whose constraint is excluded from the equations -/
def tgText : List Char := "block A { identities { x[] = 2; }; constraints { @exclude x[] = y[]; }; };".toList
def tgEq1 : Eqn := { lhs := .var "x".toList (.t 0), rhs := .num 2, lagrange := none, calibrating := none, tags := [] }
def tgEq2 : Eqn := { lhs := .var "x".toList (.t 0), rhs := .var "y".toList (.t 0), lagrange := none, calibrating := none, tags := [.exclude] }
def tgFile : GFile := { blocks := [{ name := "A".toList, identities := [tgEq1], constraints := [tgEq2] }] }
def tgBare : GFile := { blocks := [{ name := "A".toList, identities := [tgEq1], constraints := [bare tgEq2] }] }
def tgToks (tag : List Tok) : List Tok := [.id "block".toList, .id "A".toList, .lbrace, .id "identities".toList, .lbrace, .id "x".toList, .tix (.t 0), .eq, .num 2,
  .semi, .rbrace, .semi, .id "constraints".toList, .lbrace] ++ tag ++ [.id "x".toList, .tix (.t 0), .eq, .id "y".toList, .tix (.t 0), .semi, .rbrace, .semi,
  .rbrace, .semi]
def tgToks' : List Tok := [.id "block".toList, .id "A".toList, .lbrace, .id "constraints".toList, .lbrace, .id "x".toList, .tix (.t 0), .eq, .id "y".toList, .tix (.t 0),
  .semi, .rbrace, .semi, .id "identities".toList, .lbrace, .id "x".toList, .tix (.t 0), .eq, .num 2, .semi, .rbrace, .semi, .rbrace, .semi]
theorem tg_spells : SpellsToks tgText (tgToks [.tag .exclude]) := (C106_reading _ _).1 (by decide +kernel)
theorem tg_file : IsFile (tgToks [.tag .exclude]) tgFile := (C107_grammar _ _).1 ⟨30, rfl⟩
theorem tg_parse : ParseGcn tgText tgFile := (C107_parse _ _).2 ⟨_, tg_spells, tg_file⟩
theorem tg_parse' : ParseGcn (modelText noNum [' '] tgFile) tgBare :=
  (C107_parse _ _).2 ⟨tgToks', (C106_reading _ _).1 (by decide +kernel), (C107_grammar _ _).1 ⟨30, rfl⟩⟩
theorem tg_load : ∃ P, LoadGcn tgText P ∧ P.equations.length = 1 := by
  obtain ⟨P, h1, h2⟩ := Ldr.loaded tgFile.toMdl (fun P => P.equations.length) 1 (by decide +kernel)
  exact ⟨P, ⟨tgFile, tg_parse, h1⟩, h2⟩
theorem tg_load' : ∃ P, LoadGcn (modelText noNum [' '] tgFile) P ∧ P.equations.length = 2 := by
  obtain ⟨P, h1, h2⟩ := Ldr.loaded tgBare.toMdl (fun P => P.equations.length) 2 (by decide +kernel)
  exact ⟨P, ⟨tgBare, tg_parse', h1⟩, h2⟩

end PLd

/-- **C149 is false for tagged equations**: `@exclude` is not printed, so the printed text loads with an equation more -/
theorem C149_tags_violated : ∃ (text : List Char) (m : GFile) (P P' : Primitives), ParseGcn text m ∧ m.tryreduce = [] ∧ m.assumptions = [] ∧
    LoadGcn text P ∧ LoadGcn (modelText (fun _ => []) [' '] m) P' ∧ P.equations.length = 1 ∧ P'.equations.length = 2 := by
  obtain ⟨P, h1, h2⟩ := tg_load
  obtain ⟨P', h3, h4⟩ := tg_load'
  exact ⟨_, _, P, P', tg_parse, rfl, rfl, h1, h3, h2, h4⟩

/-- the hypotheses of `C149_same` and `C149_priors` are met: a file with a positive variable, printed with an indent of two spaces -/
example : ∃ P, P.equations.length = 1 ∧ LoadGcn plText P ∧ LoadGcn (modelText noNum [' ', ' '] plFile) P ∧
    ∀ pz r, LoadGcnDists pz (modelText noNum [' ', ' '] plFile) r ↔ LoadGcnDists pz plText r := by
  have hi : Layout [' ', ' '] := .white (by simp) (.white (by simp) .nil)
  obtain ⟨P, h1, h2⟩ := pl_load
  refine ⟨P, h2, h1, (C149_same _ _ _ _ pl_parse hi pl_ok rfl pl_untagged pl_extra P).2 h1, fun pz r => ?_⟩
  exact C149_priors _ _ _ _ pl_parse hi pl_ok rfl pl_untagged pl_extra (by simp [plFile]) pz r

end GE
