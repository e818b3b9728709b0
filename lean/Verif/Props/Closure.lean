import Verif.Props.Primitives
/-! # C52: every dated symbol of a model equation is a model variable or a shock -/

namespace GE
namespace Cls

open Lag Slv Ldr

theorem now_shift (k : Int) (s : TSym) : (shiftSym k s).now = s.now := by
  unfold shiftSym TSym.now; split <;> rfl

/-- `e` mentions only symbols whose date-free form is in `S` -/
def Within (S : TSym → Prop) (e : SExpr) : Prop := ∀ s ∈ e.tsyms, S s.now

theorem within_shift {S e} (k : Int) (h : Within S e) : Within S (shiftE k e) := by
  intro s hs
  rw [mem_tsyms, shiftE, syms_replace] at hs
  obtain ⟨q, hq, h1⟩ := hs
  cases q with
  | par n => simp [SExpr.syms] at h1
  | tv q =>
    simp only [SExpr.syms, List.mem_singleton, Sym.tv.injEq] at h1
    rw [h1, now_shift]; exact h q (mem_tsyms.mpr hq)

theorem within_add {S a b} : Within S (.add a b) ↔ Within S a ∧ Within S b := by
  simp only [Within, mem_tsyms, SExpr.syms, List.mem_append]
  constructor
  · intro h; exact ⟨fun s hs => h s (.inl hs), fun s hs => h s (.inr hs)⟩
  · rintro ⟨h1, h2⟩ s (hs | hs); exacts [h1 s hs, h2 s hs]

theorem within_mul {S a b} : Within S (.mul a b) ↔ Within S a ∧ Within S b := by
  simp only [Within, mem_tsyms, SExpr.syms, List.mem_append]
  constructor
  · intro h; exact ⟨fun s hs => h s (.inl hs), fun s hs => h s (.inr hs)⟩
  · rintro ⟨h1, h2⟩ s (hs | hs); exacts [h1 s hs, h2 s hs]

theorem within_pow {S a b} : Within S (.pow a b) ↔ Within S a ∧ Within S b := by
  simp only [Within, mem_tsyms, SExpr.syms, List.mem_append]
  constructor
  · intro h; exact ⟨fun s hs => h s (.inl hs), fun s hs => h s (.inr hs)⟩
  · rintro ⟨h1, h2⟩ s (hs | hs); exacts [h1 s hs, h2 s hs]

theorem within_exp {S a} : Within S (.exp a) ↔ Within S a := by simp [Within, mem_tsyms, SExpr.syms]
theorem within_log {S a} : Within S (.log a) ↔ Within S a := by simp [Within, mem_tsyms, SExpr.syms]
theorem within_num {S q} : Within S (.num q) := by simp [Within, SExpr.tsyms, SExpr.syms]

theorem within_diff {S e} (x : Sym) (h : Within S e) : Within S (e.diff x) := by
  induction e with
  | num q => exact within_num
  | sym s => simp only [SExpr.diff]; split <;> exact within_num
  | add a b iha ihb =>
    rw [within_add] at h
    exact within_add.mpr ⟨iha h.1, ihb h.2⟩
  | mul a b iha ihb =>
    rw [within_mul] at h
    exact within_add.mpr ⟨within_mul.mpr ⟨iha h.1, h.2⟩, within_mul.mpr ⟨h.1, ihb h.2⟩⟩
  | pow a b iha ihb =>
    rw [within_pow] at h
    refine within_mul.mpr ⟨within_pow.mpr h, within_add.mpr ⟨within_mul.mpr ⟨ihb h.2, within_log.mpr h.1⟩, within_mul.mpr ⟨iha h.1, ?_⟩⟩⟩
    exact within_mul.mpr ⟨h.2, within_pow.mpr ⟨h.1, within_num⟩⟩
  | exp a ih =>
    rw [within_exp] at h
    exact within_mul.mpr ⟨within_exp.mpr h, ih h⟩
  | log a ih =>
    rw [within_log] at h
    exact within_mul.mpr ⟨ih h, within_pow.mpr ⟨h, within_num⟩⟩

theorem within_loop {S} (x : TSym) : ∀ (n : Nat) (e b total r : SExpr), Within S e → Within S b → Within S total →
    dttLoop x n e (.expr b) total = .ok r → Within S r
  | 0, e, b, total, r, _, _, ht, h => by simp only [dttLoop] at h; cases h; exact ht
  | n + 1, e, b, total, r, he, hb, ht, h => by
    simp only [dttLoop] at h
    cases h1 : stepFwd e with
    | error er => rw [h1] at h; cases h
    | ok e' =>
      rw [h1] at h
      simp only [Disc.step] at h
      cases h2 : stepFwd b with
      | error er => rw [h2] at h; cases h
      | ok b' =>
        rw [h2] at h
        simp only [Disc.times] at h
        refine within_loop x n _ _ _ r ?_ ?_ ?_ h
        · rw [(stepFwd_ok h1).2]; exact within_mul.mpr ⟨within_shift 1 he, hb⟩
        · rw [(stepFwd_ok h2).2]; exact within_shift 1 hb
        · exact within_add.mpr ⟨ht, within_diff _ he⟩

theorem within_dtt {S} (x : TSym) (e b r : SExpr) (he : Within S e) (hb : Within S b) (h : diffThroughTime e x (.expr b) = .ok r) :
    Within S r := by
  unfold diffThroughTime at h
  split at h
  · cases h; exact within_num
  · split at h
    · exact within_loop x _ _ _ _ r he hb within_num h
    · cases h

theorem summands_within {S} : ∀ e : SExpr, Within S e → ∀ a ∈ e.summands, Within S a
  | .add a b, h, x, hx => by
    rw [within_add] at h
    simp only [SExpr.summands, List.mem_append] at hx
    rcases hx with hx | hx
    · exact summands_within a h.1 x hx
    · exact summands_within b h.2 x hx
  | .num _, h, x, hx => by simp [SExpr.summands] at hx; rw [hx]; exact h
  | .sym _, h, x, hx => by simp [SExpr.summands] at hx; rw [hx]; exact h
  | .mul _ _, h, x, hx => by simp [SExpr.summands] at hx; rw [hx]; exact h
  | .pow _ _, h, x, hx => by simp [SExpr.summands] at hx; rw [hx]; exact h
  | .exp _, h, x, hx => by simp [SExpr.summands] at hx; rw [hx]; exact h
  | .log _, h, x, hx => by simp [SExpr.summands] at hx; rw [hx]; exact h

theorem factors_within {S} : ∀ e : SExpr, Within S e → ∀ a ∈ e.factors, Within S a
  | .mul a b, h, x, hx => by
    rw [within_mul] at h
    simp only [SExpr.factors, List.mem_append] at hx
    rcases hx with hx | hx
    · exact factors_within a h.1 x hx
    · exact factors_within b h.2 x hx
  | .num _, h, x, hx => by simp [SExpr.factors] at hx; rw [hx]; exact h
  | .sym _, h, x, hx => by simp [SExpr.factors] at hx; rw [hx]; exact h
  | .add _ _, h, x, hx => by simp [SExpr.factors] at hx; rw [hx]; exact h
  | .pow _ _, h, x, hx => by simp [SExpr.factors] at hx; rw [hx]; exact h
  | .exp _, h, x, hx => by simp [SExpr.factors] at hx; rw [hx]; exact h
  | .log _, h, x, hx => by simp [SExpr.factors] at hx; rw [hx]; exact h

theorem args_within {S} (e : SExpr) (h : Within S e) : ∀ a ∈ e.args, Within S a := by
  intro x hx
  cases e with
  | num q => simp [SExpr.args] at hx
  | sym s => simp [SExpr.args] at hx
  | add a b => exact summands_within _ h x hx
  | mul a b => exact factors_within _ h x hx
  | pow a b =>
    rw [within_pow] at h
    simp only [SExpr.args, List.mem_cons, List.not_mem_nil, or_false] at hx
    rcases hx with rfl | rfl
    exacts [h.1, h.2]
  | exp a => rw [within_exp] at h; simp [SExpr.args] at hx; rw [hx]; exact h
  | log a => rw [within_log] at h; simp [SExpr.args] at hx; rw [hx]; exact h

theorem within_subs1 {S} (e : SExpr) (v : Sym) (w : SExpr) (he : Within S e) (hw : Within S w) : Within S (e.subs1 v w) := by
  intro s hs
  rw [mem_tsyms, SExpr.subs1, syms_replace] at hs
  obtain ⟨q, hq, h1⟩ := hs
  split at h1
  · exact hw s (mem_tsyms.mpr h1)
  · simp only [SExpr.syms, List.mem_singleton] at h1; subst h1; exact he s (mem_tsyms.mpr hq)

theorem within_discount {S} (obj : SEq) (df : SExpr) (h : discountFactor obj = .ok df) (hr : Within S obj.rhs) : Within S df := by
  unfold discountFactor at h
  split at h
  · cases h; exact within_num
  · split at h
    · simp only at h
      split at h
      · cases h
      · rename_i x xs hx
        cases h
        have : x ∈ obj.rhs.args := (List.mem_filter.mp (hx ▸ List.mem_cons_self)).1
        exact within_subs1 _ _ _ (args_within _ hr x this) within_num
    · cases h

theorem loop_keeps (short : Str) (sub) : ∀ (cs : List (Nat × SEq)) (L L' : SExpr) (i : Nat) (ms ms'), lagrangianLoop short sub cs L i ms = .ok (L', ms') →
    ∀ j, j < i → dget ms' j = dget ms j
  | [], L, L', i, ms, ms', h, j, _ => by simp only [lagrangianLoop] at h; cases h; rfl
  | (key, c) :: cs, L, L', i, ms, ms', h, j, hj => by
    simp only [lagrangianLoop] at h
    split at h
    · cases h
    · exact loop_keeps short sub cs _ _ i ms ms' h j hj
    · rw [loop_keeps short sub cs _ _ (i + 1) _ ms' h j (by omega), dget_dset, if_neg (by omega)]

/-- the multipliers of a record -/
def recorded (ms : List (Nat × Option TSym)) (s : TSym) : Prop := s ∈ ms.filterMap Prod.snd

theorem recorded_of_dget {ms : List (Nat × Option TSym)} {k s} (h : dget ms k = some (some s)) : recorded ms s := by
  have := mem_of_dget _ _ _ h
  simp only [recorded, List.mem_filterMap]; exact ⟨_, this, rfl⟩

theorem loop_within {S : TSym → Prop} (short : Str) (sub : List (Sym × SExpr)) :
    ∀ (cs : List (Nat × SEq)) (L L' : SExpr) (i : Nat) (ms ms'), lagrangianLoop short sub cs L i ms = .ok (L', ms') →
    Within S L → (∀ c ∈ cs, Within S (c.2.lhs.subsSeq sub) ∧ Within S (c.2.rhs.subsSeq sub)) →
    (∀ s, recorded ms s → S s.now) → (∀ s, recorded ms' s → S s.now) → Within S L'
  | [], L, L', i, ms, ms', h, hL, _, _, _ => by simp only [lagrangianLoop] at h; cases h; exact hL
  | (key, c) :: cs, L, L', i, ms, ms', h, hL, hcs, h1, h2 => by
    have hc := hcs (key, c) (by simp)
    have term : ∀ lm : TSym, S lm.now → Within S (L.sub (.mul (.sym (.tv lm)) ((c.lhs.subsSeq sub).sub (c.rhs.subsSeq sub)))) := by
      intro lm hlm
      refine within_add.mpr ⟨hL, within_mul.mpr ⟨within_num, within_mul.mpr ⟨?_, within_add.mpr ⟨hc.1, within_mul.mpr ⟨within_num, hc.2⟩⟩⟩⟩⟩
      intro s hs
      simp [SExpr.tsyms, SExpr.syms] at hs; rw [hs]; exact hlm
    simp only [lagrangianLoop] at h
    split at h
    · cases h
    · rename_i lm hd
      exact loop_within short sub cs _ _ i ms ms' h (term lm (h1 lm (recorded_of_dget hd))) (fun c hc => hcs c (by simp [hc])) h1 h2
    · rename_i hd
      have hk : dget ms' i = some (some (autoMultiplier short i)) := by
        rw [loop_keeps short sub cs _ _ (i + 1) _ ms' h i (by omega), dget_dset_self]
      have hauto := h2 _ (recorded_of_dget hk)
      refine loop_within short sub cs _ _ (i + 1) _ ms' h (term _ hauto) (fun c hc => hcs c (by simp [hc])) ?_ h2
      intro s hs
      simp only [recorded, List.mem_filterMap] at hs
      obtain ⟨p, hp, hs⟩ := hs
      rcases mem_dset _ _ _ _ hp with hp | hp
      · exact h1 s (by simp only [recorded, List.mem_filterMap]; exact ⟨p, hp, hs⟩)
      · rw [hp] at hs; simp only [Option.some.injEq] at hs; rw [← hs]; exact hauto

theorem defs_none {asm b B0 B} (h : astBlockToBlock asm (expandBlock b) = .ok B0) (hc : B0.consolidate = .ok B) (hd : b.definitions = []) :
    B.definitions = none ∧ B = B0 := by
  have he : (expandBlock b).definitions = [] := by simp only [expandBlock]; split <;> simp [hd]
  have h0 : B0.definitions = none := by
    unfold astBlockToBlock at h
    simp only [he, convertComponent] at h
    repeat' (split at h)
    all_goals first | (cases h; done) | (cases h; rfl)
  unfold Block.consolidate at hc
  rw [h0] at hc
  cases hc
  exact ⟨h0, rfl⟩

theorem now_toSS (s : TSym) : (toSS s).now = s.now := rfl
theorem now_now (s : TSym) : s.now.now = s.now := rfl

/-- the symbols a block makes known to the model -/
def known (r : Built) (s : TSym) : Prop := (∃ y ∈ r.variables, y.now = s) ∨ ∃ y ∈ r.block.shocks.getD [], y.now = s

theorem subsSeq_nil (e : SEq) : e.subsSeq [] = e := rfl

theorem list_known {B : Block} {prev ms vs} (hd : B.definitions = none) (h : B.variableList prev ms = some vs) :
    ∀ x, (x ∈ prev ∨ recorded ms x ∨ ∃ e ∈ dvals B.objective ++ dvals B.constraints ++ dvals B.identities, ∃ s ∈ e.lhs.tsyms ++ e.rhs.tsyms, x = toSS s) →
      x ∈ vs ∨ x.now ∈ B.shocks.getD [] := by
  intro x hx
  have e0 : defDict (dvals B.definitions) = [] := by rw [hd]; rfl
  simp only [Block.variableList, e0, flattenOrEmpty] at h
  cases h
  by_cases hs : x.now ∈ B.shocks.getD []
  · exact .inr hs
  · left
    rw [mem_sortByName, List.mem_filter]
    refine ⟨?_, by simpa using hs⟩
    simp only [List.mem_append, List.mem_flatMap, List.mem_map]
    rcases hx with hx | hx | ⟨e, he, s, hse, rfl⟩
    · exact .inl (.inl hx)
    · exact .inr hx
    · refine .inl (.inr ⟨e, by simpa [or_assoc] using he, s, ?_, rfl⟩)
      simpa [subsSeq_nil] using hse

theorem construct_within {asm ss b r} (h : constructBlock asm ss b = .ok r) (hd : b.definitions = []) : ∀ e ∈ r.equations, Within (known r) e := by
  obtain ⟨B0, B, vs0, d, s, h1, _, h3, h4, _, h6, h7, _, h9, h10⟩ := build_ok h
  obtain ⟨hdn, rfl⟩ := defs_none h1 h3 hd
  have hsh : r.block.shocks = B.shocks := by rw [h7]
  -- what the final variable list contains
  have key : ∀ x, (x ∈ vs0 ∨ recorded s.multipliers x ∨ ∃ e ∈ dvals B.objective ++ dvals B.constraints ++ dvals B.identities, ∃ q ∈ e.lhs.tsyms ++ e.rhs.tsyms, x = toSS q) →
      B.controls ≠ none → known r x.now := by
    intro x hx hc
    rw [if_neg hc] at h10
    rcases list_known hdn h10 x hx with h | h
    · exact .inl ⟨x, h, rfl⟩
    · exact .inr ⟨x.now, by rw [hsh]; exact h, rfl⟩
  have key0 : ∀ x, (recorded B.multipliers x ∨ ∃ e ∈ dvals B.objective ++ dvals B.constraints ++ dvals B.identities, ∃ q ∈ e.lhs.tsyms ++ e.rhs.tsyms, x = toSS q) →
      known r x.now := by
    intro x hx
    by_cases hc : B.controls = none
    · rw [if_pos hc] at h10
      rcases list_known hdn h4 x (.inr hx) with h | h
      · exact .inl ⟨x, by rw [h10]; exact h, rfl⟩
      · exact .inr ⟨x.now, by rw [hsh]; exact h, rfl⟩
    · rcases list_known hdn h4 x (.inr hx) with h | h
      · exact key x (.inl h) hc
      · exact .inr ⟨x.now, by rw [hsh]; exact h, rfl⟩
  have wthn : ∀ e ∈ dvals B.objective ++ dvals B.constraints ++ dvals B.identities, Within (known r) e.lhs ∧ Within (known r) e.rhs := by
    intro e he
    constructor
    · intro q hq; have := key0 (toSS q) (.inr ⟨e, he, q, by simp [hq], rfl⟩); rwa [now_toSS] at this
    · intro q hq; have := key0 (toSS q) (.inr ⟨e, he, q, by simp [hq], rfl⟩); rwa [now_toSS] at this
  have hz : ∀ e : SEq, Within (known r) e.lhs ∧ Within (known r) e.rhs → Within (known r) e.zero := fun e he =>
    within_add.mpr ⟨he.2, within_mul.mpr ⟨within_num, he.1⟩⟩
  have e0 : defDict (dvals B.definitions) = [] := by rw [hdn]; rfl
  have hplain : ∀ eqs, B.plainEquations = .ok eqs → ∀ e ∈ eqs, Within (known r) e := by
    intro eqs hp e he
    rw [plain_eq hp, e0] at he
    simp only [List.mem_map, List.mem_append] at he
    obtain ⟨w, hw, rfl⟩ := he
    rw [subsSeq_nil]
    apply hz
    apply wthn
    rcases hw with hw | hw
    · simp [hw]
    · simp only [Block.keptConstraints, List.mem_map, List.mem_filter] at hw
      obtain ⟨p, hp, rfl⟩ := hw
      simp only [List.mem_append]
      refine .inl (.inr ?_)
      exact List.mem_map_of_mem hp.1
  rw [h9]
  unfold Block.solve at h6
  cases hp : B.plainEquations with
  | error e => rw [hp] at h6; cases h6
  | ok eqs =>
    simp only [hp] at h6
    cases ho : B.objective with
    | none =>
      cases hc : B.controls with
      | none => simp only [ho, hc] at h6; cases h6; exact hplain eqs hp
      | some cs => simp only [ho, hc] at h6; cases h6
    | some ob =>
      cases hc : B.controls with
      | none => simp only [ho, hc] at h6; cases h6
      | some cs =>
        cases ob with
        | nil => simp only [ho, hc] at h6; cases h6
        | cons o rest =>
          obtain ⟨okey, obj⟩ := o
          simp only [ho, hc] at h6
          have hobj : Within (known r) obj.lhs ∧ Within (known r) obj.rhs := wthn obj (by simp [dvals, ho])
          cases hdf : discountFactor obj with
          | error e => rw [hdf] at h6; cases h6
          | ok df =>
            rw [hdf] at h6
            simp only at h6
            cases hl : B.lagrangian with
            | error e => rw [hl] at h6; cases h6
            | ok Lm =>
              obtain ⟨L, ms⟩ := Lm
              rw [hl] at h6
              simp only at h6
              split at h6
              · cases h6
              · cases h6
              · split at h6
                · cases h6
                · rename_i focs hf
                  cases h6
                  have hL : Within (known r) L := by
                    unfold Block.lagrangian at hl
                    simp only [ho] at hl
                    split at hl
                    · cases hl
                    · rename_i fl _
                      rw [hdn] at hl
                      simp only [dvals, Option.getD_none, List.map_nil, lagrangianSubs] at hl
                      split at hl
                      · cases hl
                      · rename_i cns hcns
                        split at hl
                        · cases hl
                        · refine loop_within _ _ _ _ _ _ _ _ hl ?_ ?_ ?_ ?_
                          · split
                            · exact within_mul.mpr ⟨within_num, hobj.2⟩
                            · exact hobj.2
                          · intro c hc'
                            refine wthn c.2 ?_
                            simp only [List.mem_append]
                            refine .inl (.inr ?_)
                            simp only [dvals, hcns, Option.getD_some]; exact List.mem_map_of_mem hc'
                          · intro x hx; exact key0 x (.inl hx)
                          · intro x hx; exact key x (.inr (.inl hx)) (by simp [hc])
                  have hfocs := mapM_focs L df cs focs hf
                  intro e he
                  simp only [List.mem_append, List.mem_singleton] at he
                  rcases he with (he | he) | he
                  · exact hplain eqs hp e he
                  · rw [he, e0, subsSeq_nil]; exact hz obj hobj
                  · have : ∀ (cs : List TSym) (focs : List SExpr), List.Forall₂ (fun c r => diffThroughTime L c (.expr df) = .ok r) cs focs →
                        ∀ e ∈ focs, ∃ c, diffThroughTime L c (.expr df) = .ok e := by
                      intro cs focs hff
                      induction hff with
                      | nil => simp
                      | cons h _ ih =>
                        intro e he
                        rcases List.mem_cons.mp he with rfl | he
                        · exact ⟨_, h⟩
                        · exact ih e he
                    obtain ⟨c, hc⟩ := this cs focs hfocs e he
                    exact within_dtt c L df e hL (within_discount obj df hdf hobj.2) hc

end Cls

open Cls Ldr

/-- **C52** (partial) closure: in a loaded model whose blocks have no `definitions` component, every dated symbol of every model
equation — including the first-order conditions with their multipliers — is, up to its date, one of the model's variables or shocks.
With definitions this can fail, because a definition used at another date than it is written is substituted in the Lagrangian but not in
the equations (C49). -/
theorem C52_closed_partial (m : Mdl) (P : Primitives) (h : loadModel m = .ok P) (hd : ∀ b ∈ m.blocks, b.definitions = []) :
    ∀ e ∈ P.equations, ∀ s ∈ e.tsyms, { s with idx := .t 0 } ∈ P.variables ∨ { s with idx := .t 0 } ∈ P.shocks := by
  obtain ⟨ss, _, _, h1, _, _, _, h2, h3, _⟩ := load_ok h
  intro e he s hs
  rw [h3] at he
  simp only [List.mem_flatMap, List.mem_map] at he
  obtain ⟨r, ⟨p, hp, rfl⟩, her⟩ := he
  rcases loop_from _ _ _ h1 p hp with h4 | ⟨b, hb, _, _, hbld⟩
  · simp at h4
  · have hk := construct_within hbld (hd b hb) e her s hs
    have hv : P.variables = (mergeVariables ((P.blocks.map Prod.snd).map fun b => (b.variables, b.block.shocks.getD []))).1 := congrArg Prod.fst h2
    have hsh : P.shocks = (mergeVariables ((P.blocks.map Prod.snd).map fun b => (b.variables, b.block.shocks.getD []))).2 := congrArg Prod.snd h2
    obtain ⟨m1, m2, _⟩ := C52_merge ((P.blocks.map Prod.snd).map fun b => (b.variables, b.block.shocks.getD [])) { s with idx := .t 0 }
    rw [← hv, ← hsh] at m2
    rw [← hsh] at m1
    have hmem : (p.2.variables, p.2.block.shocks.getD []) ∈ (P.blocks.map Prod.snd).map fun b => (b.variables, b.block.shocks.getD []) :=
      List.mem_map.mpr ⟨p.2, List.mem_map_of_mem hp, rfl⟩
    by_cases hin : { s with idx := .t 0 } ∈ P.shocks
    · exact .inr hin
    · left
      rw [m2]
      refine ⟨?_, hin⟩
      rcases hk with ⟨y, hy, h5⟩ | ⟨y, hy, h5⟩
      · exact ⟨_, hmem, y, hy, h5.symm⟩
      · exact absurd (m1.mpr ⟨_, hmem, y, hy, h5.symm⟩) hin

/-- non-vacuity: a model with a lag and a shock loads, and its equation mentions both -/
example : ∃ P, loadModel { blocks := [{ name := ['A'], shocks := [⟨['e'], .t 0⟩]
                                        identities := [{ lhs := .var ['x'] (.t 0), rhs := .bin .add (.var ['x'] (.t (-1))) (.var ['e'] (.t 0)) }] }] } = .ok P ∧
    (P.variables.map TSym.base, P.shocks.map TSym.base, P.equations.length) = ([['x']], [['e']], 1) :=
  loaded _ (fun P => (P.variables.map TSym.base, P.shocks.map TSym.base, P.equations.length)) _ (by decide +kernel)

end GE
