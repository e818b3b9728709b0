import Verif.Model.CalibrationSpec
import Verif.Model.ToDistribution
import Verif.Props.Primitives
import Verif.Props.Stationary
import Verif.Props.Calibration
/-! # C120: what the calibration, the shocks and the priors of a GCN file say reaches the model -/

namespace GE
namespace FCal
open Gcn Pip Ldr Num

theorem syms_bin (op : BinOp) (a b : SExpr) : (convBin op a b).syms = [] ↔ a.syms = [] ∧ b.syms = [] := by
  cases op <;> simp [convBin, SExpr.sub, SExpr.div, SExpr.syms]

mutual
theorem closed_conv (asm) (e : Expr) (s : SExpr) (h : toSympy asm e = .ok s) : s.syms = [] ↔ e.vars = [] ∧ e.pars = [] := by
  cases e with
  | num v => simp only [toSympy] at h; cases h; simp [SExpr.syms, Expr.vars, Expr.pars]
  | par n => simp only [toSympy] at h; cases h; simp [SExpr.syms, Expr.vars, Expr.pars]
  | var n i => simp only [toSympy] at h; cases h; simp [SExpr.syms, Expr.vars, Expr.pars]
  | expect e => simp only [toSympy] at h; simpa only [Expr.vars, Expr.pars] using closed_conv asm e s h
  | neg e =>
    simp only [toSympy] at h
    split at h
    · cases h
    · rename_i a ha
      cases h
      have := closed_conv asm e a ha
      simpa only [SExpr.neg, SExpr.syms, List.nil_append, Expr.vars, Expr.pars] using this
  | bin op l r =>
    simp only [toSympy] at h
    split at h
    · cases h
    · rename_i a ha
      split at h
      · cases h
      · rename_i b hb
        cases h
        rw [syms_bin, closed_conv asm l a ha, closed_conv asm r b hb]
        simp only [Expr.vars, Expr.pars, List.append_eq_nil_iff]
        tauto
  | call f as =>
    simp only [toSympy] at h
    split at h
    · cases h
    · rename_i as' has
      have hx' : s.syms = [] ↔ ∀ a ∈ as', a.syms = [] := by
        unfold convCall at h
        split at h
        · split at h <;> cases h
          · simp [SExpr.syms]
          · simp [SExpr.div, SExpr.syms]
        · split at h
          · split at h <;> cases h
            simp [SExpr.syms]
          · split at h
            · split at h <;> cases h
              simp [SExpr.syms]
            · split at h <;> cases h
      rw [hx', closedArgs_conv asm as as' has]
      simp only [Expr.vars, Expr.pars]
theorem closedArgs_conv (asm) (as : List Expr) (ss : List SExpr) (h : toSympyArgs asm as = .ok ss) :
    (∀ s ∈ ss, s.syms = []) ↔ Expr.varsArgs as = [] ∧ Expr.parsArgs as = [] := by
  cases as with
  | nil => simp only [toSympyArgs] at h; cases h; simp [Expr.varsArgs, Expr.parsArgs]
  | cons a as =>
    simp only [toSympyArgs] at h
    split at h
    · cases h
    · rename_i a' ha
      split at h
      · cases h
      · rename_i as' has
        cases h
        simp only [List.mem_cons, forall_eq_or_imp, Expr.varsArgs, Expr.parsArgs, List.append_eq_nil_iff]
        rw [closed_conv asm a a' ha, closedArgs_conv asm as as' has]
        tauto
end

theorem expand_calibration (b : Blk) : (expandBlock b).calibration = b.calibration := by
  simp only [expandBlock]; split <;> rfl

theorem expand_shocks (b : Blk) : (expandBlock b).shocks = b.shocks := by
  simp only [expandBlock]; split <;> rfl

theorem forall2_get {α β} {R : α → β → Prop} {l : List α} {m : List β} (h : List.Forall₂ R l m) (j : Nat) (a : α) (ha : l[j]? = some a) :
    ∃ b, m[j]? = some b ∧ R a b := by
  induction h generalizing j with
  | nil => simp at ha
  | @cons x y l m h1 _ ih =>
    cases j with
    | zero => simp only [List.getElem?_cons_zero, Option.some.injEq] at ha; subst ha; exact ⟨y, rfl, h1⟩
    | succ j => simpa using ih j (by simpa using ha)

theorem forall2_get' {α β} {R : α → β → Prop} {l : List α} {m : List β} (h : List.Forall₂ R l m) (j : Nat) (b : β) (hb : m[j]? = some b) :
    ∃ a, l[j]? = some a ∧ R a b := by
  induction h generalizing j with
  | nil => simp at hb
  | @cons x y l m h1 _ ih =>
    cases j with
    | zero => simp only [List.getElem?_cons_zero, Option.some.injEq] at hb; subst hb; exact ⟨x, rfl, h1⟩
    | succ j => simpa using ih j (by simpa using hb)

theorem mem_numbered_iff {α} {l : List α} {n : Nat} {p : Nat × α} : p ∈ numbered n l ↔ ∃ j, l[j]? = some p.2 ∧ p.1 = n + j := by
  constructor
  · intro h
    unfold numbered at h
    obtain ⟨i, hi⟩ := List.mem_iff_getElem?.1 h
    rw [List.getElem?_zip_eq_some] at hi
    refine ⟨i, hi.2, ?_⟩
    have := hi.1
    rw [List.getElem?_range' (List.getElem?_eq_some_iff.1 hi.2).1] at this
    simpa [eq_comm] using this
  · rintro ⟨j, h1, h2⟩
    have := mem_numbered (n := n) h1
    rw [← h2] at this
    exact this

/-- a calibration statement of the block and the equation it becomes -/
def Stmt (asm : List (Str × Asm)) (b : Blk) (c : Calib) (s : SEq) : Prop := c ∈ keptCalib b.calibration ∧ calibBecomes asm c s

/-- what the dictionaries of a built block contain -/
theorem built_dicts {asm ss b r} (h : constructBlock asm ss b = .ok r) :
    (∀ x v, (x, v) ∈ r.dicts.param ↔ ∃ c s, Stmt asm b c s ∧ s.lhs = .sym x ∧ v = s.rhs ∧ s.rhs.syms = []) ∧
    (∀ x v, (x, v) ∈ r.dicts.calib ↔ ∃ c s, Stmt asm b c s ∧ s.lhs = .sym x ∧ v = s.rhs ∧ s.rhs.syms ≠ [] ∧
      (calibFlags c).isCalibrating = true) ∧
    (∀ x v, (x, v) ∈ r.dicts.calib → ∀ y ∈ v.tsyms, y.idx = .ss) ∧
    (∀ c s, Stmt asm b c s → s.rhs.syms ≠ [] → (calibFlags c).isCalibrating = false →
      ∃ x v, s.lhs = .sym x ∧ (x, v) ∈ r.dicts.determ ∧ computedFrom ss s v) ∧
    (∀ x v, (x, v) ∈ r.dicts.determ → ∃ c s, Stmt asm b c s ∧ s.lhs = .sym x ∧ computedFrom ss s v ∧ s.rhs.syms ≠ [] ∧
      (calibFlags c).isCalibrating = false) ∧
    (dkeys r.dicts.param).Nodup ∧ (dkeys r.dicts.calib).Nodup ∧ (dkeys r.dicts.determ).Nodup := by
  obtain ⟨B0, B, vs0, dicts, s, h1, _, h3, _, h5, _, _, h8, _⟩ := build_ok h
  rw [h8]
  obtain ⟨⟨ds, os, cs, is, ks, hds, _, hos, _, hcs, _, his, _, hks, ek⟩, hf, _⟩ := C20_numbering asm _ B0 h1
  rw [expand_calibration] at hks hf
  obtain ⟨dd, hB⟩ : ∃ ds, B = { B0 with definitions := ds } := by
    unfold Block.consolidate at h3
    split at h3
    · exact ⟨B0.definitions, by cases h3; rfl⟩
    · split at h3
      · cases h3; exact ⟨_, rfl⟩
      · cases h3
  have e1 : B.calibration = B0.calibration := by rw [hB]
  have e2 : B.flags = B0.flags := by rw [hB]
  by_cases hk : ks = []
  · subst hk
    have hkept : keptCalib b.calibration = [] := by simpa using hks
    have hd : dicts = {} := by
      unfold Block.paramDicts at h5
      rw [e1, ek] at h5
      simp only [component, if_true] at h5
      cases h5; rfl
    have hno : ∀ c s, ¬ Stmt asm b c s := by intro c s hc; rw [Stmt, hkept] at hc; exact absurd hc.1 (by simp)
    subst hd
    refine ⟨?_, ?_, ?_, fun c s hc => absurd hc (hno c s), ?_, by simp [dkeys], by simp [dkeys], by simp [dkeys]⟩
    · intro x v; simp only [List.not_mem_nil, false_iff]; rintro ⟨c, s, hc, _⟩; exact hno c s hc
    · intro x v; simp only [List.not_mem_nil, false_iff]; rintro ⟨c, s, hc, _⟩; exact hno c s hc
    · intro x v hh; simp at hh
    · intro x v hh; simp at hh
  · set ni := (expandBlock b).definitions.length + (expandBlock b).objective.length + (expandBlock b).constraints.length
      + (expandBlock b).identities.length with hni
    have hcal : B.calibration = some (numbered ni ks) := by
      rw [e1, ek, component, if_neg hk]
    obtain ⟨c1, c2, c3, n1, n2, n3, _⟩ := C21_classes ss B _ hcal dicts h5
    have hflag : ∀ j c, (keptCalib b.calibration)[j]? = some c → dget B.flags (ni + j) = some (calibFlags c) := by
      intro j c hc
      rw [e2, hf]
      have hl : ((expandBlock b).equations.map extractFlags).length = ni := by
        simp only [List.length_map, Blk.equations, List.length_append, hni]
      have := dget_numbered ((expandBlock b).equations.map extractFlags ++ (keptCalib b.calibration).map calibFlags) 0 (ni + j)
      rw [Nat.zero_add] at this
      rw [this, List.getElem?_append_right (by omega), hl, Nat.add_sub_cancel_left, List.getElem?_map, hc]
      rfl
    have hclass : ∀ j c s, (keptCalib b.calibration)[j]? = some c → (classOf B.flags (ni + j, s) = .numeric ↔ s.rhs.syms = []) ∧
        (classOf B.flags (ni + j, s) = .calibrating ↔ s.rhs.syms ≠ [] ∧ (calibFlags c).isCalibrating = true) ∧
        (classOf B.flags (ni + j, s) = .computed ↔ s.rhs.syms ≠ [] ∧ (calibFlags c).isCalibrating = false) := by
      intro j c s hc
      have hh := hflag j c hc
      unfold classOf
      simp only [hh]
      by_cases a : s.rhs.syms = []
      · simp [a]
      · cases hb : (calibFlags c).isCalibrating <;> simp [a, hb]
    have hst : ∀ c s, Stmt asm b c s → ∃ j : Nat, (keptCalib b.calibration)[j]? = some c ∧ ks[j]? = some s := by
      rintro c s ⟨hc, hs⟩
      obtain ⟨j, hj⟩ := List.mem_iff_getElem?.1 hc
      obtain ⟨s', h1, h2⟩ := forall2_get hks j c hj
      have : s' = s := by
        cases c with
        | eq e => simp only [calibBecomes] at hs h2; rw [hs] at h2; cases h2; rfl
        | dist d =>
          obtain ⟨v, a1, a2⟩ := hs
          obtain ⟨v', b1, b2⟩ := h2
          rw [a1] at b1; cases b1; rw [a2, b2]
      exact ⟨j, hj, this ▸ h1⟩
    have hts : ∀ j c s, (keptCalib b.calibration)[j]? = some c → calibBecomes asm c s → Stmt asm b c s := fun j c s hc hs =>
      ⟨List.mem_of_getElem? hc, hs⟩
    refine ⟨?_, ?_, ?_, ?_, ?_, n1, n2, n3⟩
    · intro x v
      constructor
      · intro hv
        obtain ⟨p, hp, a1, a2⟩ := (forall2_mem c1).2 _ hv
        rw [List.mem_filter, mem_numbered_iff] at hp
        obtain ⟨⟨j, hj, hpj⟩, hcl⟩ := hp
        obtain ⟨c, hc, hcs⟩ := forall2_get' hks j _ hj
        have hcl' := ((hclass j c p.2 hc).1.1 (by rw [← hpj]; simpa using hcl))
        exact ⟨c, p.2, hts j c _ hc hcs, a1, a2, hcl'⟩
      · rintro ⟨c, s, hcs, a1, rfl, a3⟩
        obtain ⟨j, hj, hs⟩ := hst c s hcs
        obtain ⟨q, hq, b1, b2⟩ := (forall2_mem c1).1 (ni + j, s) (by
          rw [List.mem_filter, mem_numbered_iff]
          exact ⟨⟨j, hs, rfl⟩, by simpa using (hclass j c s hj).1.2 a3⟩)
        rw [a1] at b1
        obtain ⟨x', v'⟩ := q
        simp only [SExpr.sym.injEq] at b1 b2
        rw [b1, ← b2]; exact hq
    · intro x v
      constructor
      · intro hv
        obtain ⟨p, hp, a1, a2, _⟩ := (forall2_mem c2).2 _ hv
        rw [List.mem_filter, mem_numbered_iff] at hp
        obtain ⟨⟨j, hj, hpj⟩, hcl⟩ := hp
        obtain ⟨c, hc, hcs⟩ := forall2_get' hks j _ hj
        have hcl' := ((hclass j c p.2 hc).2.1.1 (by rw [← hpj]; simpa using hcl))
        exact ⟨c, p.2, hts j c _ hc hcs, a1, a2, hcl'⟩
      · rintro ⟨c, s, hcs, a1, rfl, a3⟩
        obtain ⟨j, hj, hs⟩ := hst c s hcs
        obtain ⟨q, hq, b1, b2, _⟩ := (forall2_mem c2).1 (ni + j, s) (by
          rw [List.mem_filter, mem_numbered_iff]
          exact ⟨⟨j, hs, rfl⟩, by simpa using (hclass j c s hj).2.1.2 a3⟩)
        rw [a1] at b1
        obtain ⟨x', v'⟩ := q
        simp only [SExpr.sym.injEq] at b1 b2
        rw [b1, ← b2]; exact hq
    · intro x v hv
      obtain ⟨p, _, _, a2, a3⟩ := (forall2_mem c2).2 _ hv
      simp only at a2
      rw [a2]; exact a3
    · intro c s hcs a2 a3
      obtain ⟨j, hj, hs⟩ := hst c s hcs
      obtain ⟨q, hq, b1, b2⟩ := (forall2_mem c3).1 (ni + j, s) (by
        rw [List.mem_filter, mem_numbered_iff]
        exact ⟨⟨j, hs, rfl⟩, by simpa using (hclass j c s hj).2.2.2 ⟨a2, a3⟩⟩)
      exact ⟨q.1, q.2, b1, hq, b2⟩
    · intro x v hv
      obtain ⟨p, hp, a1, a2⟩ := (forall2_mem c3).2 _ hv
      rw [List.mem_filter, mem_numbered_iff] at hp
      obtain ⟨⟨j, hj, hpj⟩, hcl⟩ := hp
      obtain ⟨c, hc, hcs⟩ := forall2_get' hks j _ hj
      have hcl' := ((hclass j c p.2 hc).2.2.1 (by rw [← hpj]; simpa using hcl))
      exact ⟨c, p.2, hts j c _ hc hcs, a1, a2, hcl'⟩

theorem kept_iff (b : GBlock) (c : Calib) : c ∈ keptCalib b.toBlk.calibration ↔
    (∃ e, GCal.eq e ∈ b.calibration ∧ c = .eq e) ∨ (∃ d, GCal.prior d ∈ b.calibration ∧ c = .dist d.toDist ∧ d.initial.isSome = true) := by
  simp only [keptCalib, GBlock.toBlk, List.mem_filter, List.mem_map]
  constructor
  · rintro ⟨⟨g, hg, rfl⟩, h⟩
    cases g with
    | eq e => exact .inl ⟨e, hg, rfl⟩
    | prior d => exact .inr ⟨d, hg, rfl, h⟩
  · rintro (⟨e, he, rfl⟩ | ⟨d, hd, rfl, h⟩)
    · exact ⟨⟨_, he, rfl⟩, rfl⟩
    · exact ⟨⟨_, hd, rfl⟩, h⟩

/-- no arrow -/
theorem plain_conv {asm e s} (h : eqnToSympy asm e = .ok s) (hc : e.calibrating = none ∨ e.calibrating = some []) :
    toSympy asm e.lhs = .ok s.lhs ∧ toSympy asm e.rhs = .ok s.rhs := by
  unfold eqnToSympy at h
  split at h
  · cases h
  · rename_i l hl
    split at h
    · cases h
    · rename_i r hr
      split at h
      · rename_i c p hcal; rcases hc with hc | hc <;> rw [hcal] at hc <;> cases hc
      · cases h; exact ⟨hl, hr⟩

/-- an arrow -/
theorem arrow_conv {asm e s n} (h : eqnToSympy asm e = .ok s) (hc : e.calibrating = some n) (hn : n ≠ []) :
    s.lhs = .sym (.par n) ∧ ∃ l r, toSympy asm e.lhs = .ok l ∧ toSympy asm e.rhs = .ok r ∧ s.rhs = r.sub l := by
  unfold eqnToSympy at h
  split at h
  · cases h
  · rename_i l hl
    split at h
    · cases h
    · rename_i r hr
      split at h
      · rename_i c p hcal
        rw [hcal] at hc
        cases hc; cases h
        exact ⟨rfl, l, r, hl, hr, rfl⟩
      · rename_i hno
        cases n with
        | nil => exact absurd rfl hn
        | cons c p => exact absurd hc (hno c p)

theorem flag_arrow (e : Eqn) : (extractFlags e).isCalibrating = true ↔ ∃ n, e.calibrating = some n ∧ n ≠ [] := (C20_flags [] e).2.2.2.1

theorem arrow_or (e : Eqn) : (e.calibrating = none ∨ e.calibrating = some []) ∨ ∃ n, e.calibrating = some n ∧ n ≠ [] := by
  rcases hc : e.calibrating with _ | _ | ⟨c, p⟩
  · exact .inl (.inl rfl)
  · exact .inl (.inr rfl)
  · exact .inr ⟨c :: p, rfl, by simp⟩

/-- the calibration statements of a built block did convert -/
theorem calib_converts {asm ss b r} (h : constructBlock asm ss b = .ok r) {c} (hc : c ∈ keptCalib b.calibration) : ∃ s, calibBecomes asm c s := by
  obtain ⟨B0, _, _, _, _, h1, _⟩ := build_ok h
  obtain ⟨⟨_, _, _, _, ks, _, _, _, _, _, _, _, _, hks, _⟩, _⟩ := C20_numbering asm _ B0 h1
  rw [expand_calibration] at hks
  obtain ⟨s, _, hs⟩ := (forall2_mem hks).1 c hc
  exact ⟨s, hs⟩

theorem same_value {asm e s} (h : toSympy asm e = .ok s) : SameValue asm s e := fun R t => C51_same_value asm e s h R t

theorem syms_sub (a b : SExpr) : (a.sub b).syms = [] ↔ a.syms = [] ∧ b.syms = [] := by simp [SExpr.sub, SExpr.syms]

/-- the stages of loading the text of a file -/
theorem load_text {text ts m P} (hs : SpellsToks text ts) (hf : IsFile ts m) (hl : LoadGcn text P) (hn : m.DistinctNames) :
    loadModel m.toMdl = .ok P ∧ ∃ ss, (∀ b, m.IsModelBlock b → ∃ p ∈ P.blocks, constructBlock m.assumptions ss b.toBlk = .ok p.2) ∧
      ∀ p ∈ P.blocks, ∃ b, m.IsModelBlock b ∧ constructBlock m.assumptions ss b.toBlk = .ok p.2 := by
  obtain ⟨ss, _, h2⟩ := loaded_blocks hs hf hl hn
  obtain ⟨m', hp, hl⟩ := hl
  cases C107_unique text m m' ((C107_parse text m).2 ⟨ts, hs, hf⟩) hp
  refine ⟨hl, ss, ?_, ?_⟩
  · intro b hb; exact (forall2_mem h2).1 b ((modelBlock_iff m b).1 hb)
  · intro p hp
    obtain ⟨b, hb, h⟩ := (forall2_mem h2).2 p hp
    exact ⟨b, (modelBlock_iff m b).2 hb, h⟩

/-- the statements of a model block name parameters -/
theorem stmt_par {m : GFile} (hpar : m.ParametersOnly) {b : GBlock} (hb : m.IsModelBlock b) {c s}
    (h : Stmt m.assumptions b.toBlk c s) {x : Sym} (hx : s.lhs = .sym x) : ∃ n, x = .par n := by
  obtain ⟨hc, hs⟩ := h
  rcases (kept_iff b c).1 hc with ⟨e, he, rfl⟩ | ⟨d, _, rfl, _⟩
  · rcases arrow_or e with ha | ⟨n, ha, hn⟩
    · obtain ⟨n, hn⟩ := hpar b hb e he ha
      have h1 := (plain_conv hs ha).1
      rw [hn] at h1
      simp only [toSympy] at h1
      rw [hx] at h1
      cases h1
      exact ⟨n, rfl⟩
    · have h1 := (arrow_conv hs ha hn).1
      rw [hx] at h1
      cases h1
      exact ⟨n, rfl⟩
  · obtain ⟨v, _, rfl⟩ := hs
    cases hx
    exact ⟨_, rfl⟩

end FCal
open FCal Gcn Pip Ldr

/-- **C120**: numbers. Every `n = rhs;` of a model block with a right side made of numbers, and every prior with a starting value, gives
the model's parameter that value -/
theorem C120_numbers (text : List Char) (ts : List Tok) (m : GFile) (P : Primitives) (hs : SpellsToks text ts) (hf : IsFile ts m)
    (hl : LoadGcn text P) (hn : m.DistinctNames) (hpar : m.ParametersOnly) (b : GBlock) (hb : m.IsModelBlock b) :
    (∀ n rhs, b.Sets n rhs → Closed rhs → ∃ v, (n, v) ∈ P.param ∧ SameValue m.assumptions v rhs) ∧
    (∀ n q, b.Starts n q → (n, SExpr.num q) ∈ P.param) ∧ (dkeys P.param).Nodup := by
  obtain ⟨hload, ss, h1, h2⟩ := load_text hs hf hl hn
  obtain ⟨_, _, _, _, hm, _⟩ := load_ok hload
  have hmerge := C19_merge _ _ hm (by
      intro d hd
      simp only [List.mem_map] at hd
      obtain ⟨_, ⟨p, hp, rfl⟩, rfl⟩ := hd
      obtain ⟨c, _, hc⟩ := h2 p hp
      exact (built_dicts hc).2.2.2.2.2.1) (by
      intro d hd k hk
      simp only [List.mem_map] at hd
      obtain ⟨_, ⟨p, hp, rfl⟩, rfl⟩ := hd
      obtain ⟨c, hcb, hc⟩ := h2 p hp
      simp only [dkeys, List.mem_map] at hk
      obtain ⟨⟨x, v⟩, hxv, rfl⟩ := hk
      obtain ⟨_, _, hst, hx, _⟩ := ((built_dicts hc).1 x v).1 hxv
      exact stmt_par hpar hcb hst hx)
  obtain ⟨p, hp, hc⟩ := h1 b hb
  have key : ∀ n v, (Sym.par n, v) ∈ p.2.dicts.param → (n, v) ∈ P.param := fun n v h =>
    (hmerge.1 n v).2 ⟨_, List.mem_map.2 ⟨p.2, List.mem_map.2 ⟨p, hp, rfl⟩, rfl⟩, h⟩
  have hconv := built_dicts hc
  refine ⟨?_, ?_, hmerge.2.1⟩
  · rintro n rhs ⟨e, he, ha, hlhs, rfl⟩ hcl
    have hk : Calib.eq e ∈ keptCalib b.toBlk.calibration := (kept_iff b _).2 (.inl ⟨e, he, rfl⟩)
    obtain ⟨s, hs'⟩ := calib_converts hc hk
    obtain ⟨t1, t2⟩ := plain_conv hs' ha
    rw [hlhs] at t1
    simp only [toSympy, Except.ok.injEq] at t1
    exact ⟨s.rhs, key _ _ ((hconv.1 _ _).2 ⟨_, s, ⟨hk, hs'⟩, t1.symm, rfl, (closed_conv _ _ _ t2).2 hcl⟩), same_value t2⟩
  · rintro n q ⟨d, hd, rfl, hq⟩
    have hk : Calib.dist d.toDist ∈ keptCalib b.toBlk.calibration := (kept_iff b _).2 (.inr ⟨d, hd, rfl, by rw [hq]; rfl⟩)
    exact key _ _ ((hconv.1 _ _).2 ⟨_, ⟨.sym (.par d.param), .num q⟩, ⟨hk, q, hq, rfl⟩, rfl, rfl, by simp [SExpr.syms]⟩)


/-- **C120**: and the model's numeric parameters come from nowhere else (an equation `l = r -> n;` between numbers counts as `n = r - l`) -/
theorem C120_numbers_only (text : List Char) (ts : List Tok) (m : GFile) (P : Primitives) (hs : SpellsToks text ts) (hf : IsFile ts m)
    (hl : LoadGcn text P) (hn : m.DistinctNames) (hpar : m.ParametersOnly) (n : Str) (v : SExpr) (hv : (n, v) ∈ P.param) :
    ∃ b, m.IsModelBlock b ∧ ((∃ rhs, b.Sets n rhs ∧ Closed rhs ∧ SameValue m.assumptions v rhs) ∨ (∃ q, b.Starts n q ∧ v = .num q) ∨
      ∃ l r, b.Calibrates n l r ∧ Closed l ∧ Closed r ∧ ∀ R t, v.val R t =
        r.eval (realInterp m.assumptions R) (pathOf m.assumptions R) t - l.eval (realInterp m.assumptions R) (pathOf m.assumptions R) t) := by
  obtain ⟨hload, ss, h1, h2⟩ := load_text hs hf hl hn
  obtain ⟨_, _, _, _, hm, _⟩ := load_ok hload
  have hmerge := C19_merge _ _ hm (by
      intro d hd
      simp only [List.mem_map] at hd
      obtain ⟨_, ⟨p, hp, rfl⟩, rfl⟩ := hd
      obtain ⟨c, _, hc⟩ := h2 p hp
      exact (built_dicts hc).2.2.2.2.2.1) (by
      intro d hd k hk
      simp only [List.mem_map] at hd
      obtain ⟨_, ⟨p, hp, rfl⟩, rfl⟩ := hd
      obtain ⟨c, hcb, hc⟩ := h2 p hp
      simp only [dkeys, List.mem_map] at hk
      obtain ⟨⟨x, v⟩, hxv, rfl⟩ := hk
      obtain ⟨_, _, hst, hx, _⟩ := ((built_dicts hc).1 x v).1 hxv
      exact stmt_par hpar hcb hst hx)
  obtain ⟨d, hd, hdv⟩ := (hmerge.1 n v).1 hv
  simp only [List.mem_map] at hd
  obtain ⟨_, ⟨p, hp, rfl⟩, rfl⟩ := hd
  obtain ⟨b, hb, hc⟩ := h2 p hp
  obtain ⟨c, s, ⟨hk, hst⟩, hx, rfl, hsy⟩ := ((built_dicts hc).1 _ v).1 hdv
  refine ⟨b, hb, ?_⟩
  rcases (kept_iff b c).1 hk with ⟨e, he, rfl⟩ | ⟨d, hd, rfl, _⟩
  · rcases arrow_or e with ha | ⟨n', ha, hn'⟩
    · obtain ⟨t1, t2⟩ := plain_conv hst ha
      obtain ⟨n', hlhs⟩ := hpar b hb e he ha
      rw [hlhs, hx] at t1
      simp only [toSympy, Except.ok.injEq, SExpr.sym.injEq, Sym.par.injEq] at t1
      subst t1
      exact .inl ⟨e.rhs, ⟨e, he, ha, hlhs, rfl⟩, (closed_conv _ _ _ t2).1 hsy, same_value t2⟩
    · obtain ⟨t1, l, r, t2, t3, t4⟩ := arrow_conv hst ha hn'
      rw [hx] at t1
      simp only [SExpr.sym.injEq, Sym.par.injEq] at t1
      subst t1
      rw [t4, syms_sub] at hsy
      refine .inr (.inr ⟨e.lhs, e.rhs, ⟨e, he, ha, hn', rfl, rfl⟩, (closed_conv _ _ _ t2).1 hsy.2, (closed_conv _ _ _ t3).1 hsy.1, ?_⟩)
      intro R t
      rw [t4, DTT.val_sub]
      exact congrArg₂ _ (same_value t3 R t) (same_value t2 R t)
  · obtain ⟨q, hq, rfl⟩ := hst
    simp only [SExpr.sym.injEq, Sym.par.injEq] at hx
    exact .inr (.inl ⟨q, ⟨d, hd, hx, hq⟩, rfl⟩)

/-- **C120**: formulas. Every `n = rhs;` whose right side contains parameters and no variables gives the model a computed parameter with
that value, and the computed parameters come from nowhere else -/
theorem C120_formulas (text : List Char) (ts : List Tok) (m : GFile) (P : Primitives) (hs : SpellsToks text ts) (hf : IsFile ts m)
    (hl : LoadGcn text P) (hn : m.DistinctNames) (hpar : m.ParametersOnly) :
    (∀ b, m.IsModelBlock b → ∀ n rhs, b.Sets n rhs → rhs.vars = [] → rhs.pars ≠ [] → ∃ v, (n, v) ∈ P.determ ∧ SameValue m.assumptions v rhs) ∧
    (∀ n v, (n, v) ∈ P.determ → ∃ b, m.IsModelBlock b ∧ ∃ rhs, b.Sets n rhs ∧ ¬ Closed rhs) ∧ (dkeys P.determ).Nodup := by
  obtain ⟨hload, ss, h1, h2⟩ := load_text hs hf hl hn
  obtain ⟨_, _, _, _, _, _, hm, _⟩ := load_ok hload
  have hmerge := C19_merge _ _ hm (by
      intro d hd
      simp only [List.mem_map] at hd
      obtain ⟨_, ⟨p, hp, rfl⟩, rfl⟩ := hd
      obtain ⟨c, _, hc⟩ := h2 p hp
      exact (built_dicts hc).2.2.2.2.2.2.2) (by
      intro d hd k hk
      simp only [List.mem_map] at hd
      obtain ⟨_, ⟨p, hp, rfl⟩, rfl⟩ := hd
      obtain ⟨c, hcb, hc⟩ := h2 p hp
      simp only [dkeys, List.mem_map] at hk
      obtain ⟨⟨x, v⟩, hxv, rfl⟩ := hk
      obtain ⟨_, _, hst, hx, _⟩ := (built_dicts hc).2.2.2.2.1 x v hxv
      exact stmt_par hpar hcb hst hx)
  refine ⟨?_, ?_, hmerge.2.1⟩
  · rintro b hb n rhs ⟨e, he, ha, hlhs, rfl⟩ hvar hpars
    obtain ⟨p, hp, hc⟩ := h1 b hb
    have hk : Calib.eq e ∈ keptCalib b.toBlk.calibration := (kept_iff b _).2 (.inl ⟨e, he, rfl⟩)
    obtain ⟨s, hs'⟩ := calib_converts hc hk
    obtain ⟨t1, t2⟩ := plain_conv hs' ha
    rw [hlhs] at t1
    simp only [toSympy, Except.ok.injEq] at t1
    have hcal : (calibFlags (.eq e)).isCalibrating = false := by
      rw [← Bool.not_eq_true]
      intro h
      obtain ⟨n, h1, h2⟩ := (flag_arrow e).1 h
      rcases ha with ha | ha <;> rw [h1] at ha <;> cases ha
      exact h2 rfl
    obtain ⟨x, v, e1, e2, e3⟩ := (built_dicts hc).2.2.2.1 _ s ⟨hk, hs'⟩ (fun h => hpars ((closed_conv _ _ _ t2).1 h).2) hcal
    rw [← t1] at e1
    cases e1
    refine ⟨v, (hmerge.1 n v).2 ⟨_, List.mem_map.2 ⟨p.2, List.mem_map.2 ⟨p, hp, rfl⟩, rfl⟩, e2⟩, ?_⟩
    have hts : s.lhs.tsyms ++ s.rhs.tsyms = [] := by
      rw [← t1]
      have : s.rhs.tsyms = [] := by
        rw [List.eq_nil_iff_forall_not_mem]
        intro y hy
        obtain ⟨n, t, h1, _⟩ := Sta.conv_syms _ _ _ t2 y (mem_tsyms.1 hy)
        rw [hvar] at h1; cases h1
      rw [this, List.append_nil, List.eq_nil_iff_forall_not_mem]
      intro y hy
      have := mem_tsyms.1 hy
      simp [SExpr.syms] at this
    rcases e3 with ⟨_, rfl⟩ | ⟨h, _⟩
    · exact same_value t2
    · exact absurd hts h
  · intro n v hv
    obtain ⟨d, hd, hdv⟩ := (hmerge.1 n v).1 hv
    simp only [List.mem_map] at hd
    obtain ⟨_, ⟨p, hp, rfl⟩, rfl⟩ := hd
    obtain ⟨b, hb, hc⟩ := h2 p hp
    obtain ⟨c, s, ⟨hk, hst⟩, hx, _, hsy, hcal⟩ := (built_dicts hc).2.2.2.2.1 _ v hdv
    refine ⟨b, hb, ?_⟩
    rcases (kept_iff b c).1 hk with ⟨e, he, rfl⟩ | ⟨d, hd, rfl, _⟩
    · rcases arrow_or e with ha | ha
      · obtain ⟨t1, t2⟩ := plain_conv hst ha
        obtain ⟨n', hlhs⟩ := hpar b hb e he ha
        rw [hlhs, hx] at t1
        simp only [toSympy, Except.ok.injEq, SExpr.sym.injEq, Sym.par.injEq] at t1
        subst t1
        exact ⟨e.rhs, ⟨e, he, ha, hlhs, rfl⟩, fun h => hsy ((closed_conv _ _ _ t2).2 h)⟩
      · have : (extractFlags e).isCalibrating = false := hcal
        rw [(flag_arrow e).2 ha] at this
        cases this
    · obtain ⟨q, _, rfl⟩ := hst
      simp [SExpr.syms] at hsy

/-- **C120**: calibrating equations. Every `l = r -> n;` that is not between numbers gives the model the condition `r - l = 0` for `n`, all
its variables at the steady state, and there are no other conditions -/
theorem C120_calibrating (text : List Char) (ts : List Tok) (m : GFile) (P : Primitives) (hs : SpellsToks text ts) (hf : IsFile ts m)
    (hl : LoadGcn text P) (hn : m.DistinctNames) :
    (∀ b, m.IsModelBlock b → ∀ n l r, b.Calibrates n l r → ¬ (Closed l ∧ Closed r) → ∃ v, (n, v) ∈ P.calib ∧ ∀ R t, v.val R t =
        r.eval (realInterp m.assumptions R) (pathOf m.assumptions R) t - l.eval (realInterp m.assumptions R) (pathOf m.assumptions R) t) ∧
    (∀ n v, (n, v) ∈ P.calib → (∀ y ∈ v.tsyms, y.idx = .ss) ∧ ∃ b, m.IsModelBlock b ∧ ∃ l r, b.Calibrates n l r) ∧
    (dkeys P.calib).Nodup := by
  obtain ⟨hload, ss, h1, h2⟩ := load_text hs hf hl hn
  obtain ⟨_, _, _, _, _, hm, _⟩ := load_ok hload
  have harrow : ∀ b : GBlock, ∀ c s, Stmt m.assumptions b.toBlk c s → (calibFlags c).isCalibrating = true →
      ∃ e n, GCal.eq e ∈ b.calibration ∧ c = .eq e ∧ e.calibrating = some n ∧ n ≠ [] ∧ s.lhs = .sym (.par n) := by
    rintro b c s ⟨hk, hst⟩ hcal
    rcases (kept_iff b c).1 hk with ⟨e, he, rfl⟩ | ⟨d, hd, rfl, _⟩
    · obtain ⟨n, ha, hn⟩ := (flag_arrow e).1 hcal
      exact ⟨e, n, he, rfl, ha, hn, (arrow_conv hst ha hn).1⟩
    · cases hcal
  have hmerge := C19_merge _ _ hm (by
      intro d hd
      simp only [List.mem_map] at hd
      obtain ⟨_, ⟨p, hp, rfl⟩, rfl⟩ := hd
      obtain ⟨c, _, hc⟩ := h2 p hp
      exact (built_dicts hc).2.2.2.2.2.2.1) (by
      intro d hd k hk
      simp only [List.mem_map] at hd
      obtain ⟨_, ⟨p, hp, rfl⟩, rfl⟩ := hd
      obtain ⟨c, hcb, hc⟩ := h2 p hp
      simp only [dkeys, List.mem_map] at hk
      obtain ⟨⟨x, v⟩, hxv, rfl⟩ := hk
      obtain ⟨_, s, hst, hx, _, _, hcal⟩ := ((built_dicts hc).2.1 x v).1 hxv
      obtain ⟨e, n, _, _, _, _, h6⟩ := harrow c _ s hst hcal
      rw [hx] at h6
      cases h6
      exact ⟨n, rfl⟩)
  refine ⟨?_, ?_, hmerge.2.1⟩
  · rintro b hb n l r ⟨e, he, ha, hn', rfl, rfl⟩ hcl
    obtain ⟨p, hp, hc⟩ := h1 b hb
    have hk : Calib.eq e ∈ keptCalib b.toBlk.calibration := (kept_iff b _).2 (.inl ⟨e, he, rfl⟩)
    obtain ⟨s, hs'⟩ := calib_converts hc hk
    obtain ⟨t1, l, r, t2, t3, t4⟩ := arrow_conv hs' ha hn'
    refine ⟨s.rhs, (hmerge.1 n _).2 ⟨_, List.mem_map.2 ⟨p.2, List.mem_map.2 ⟨p, hp, rfl⟩, rfl⟩, ?_⟩, ?_⟩
    · refine ((built_dicts hc).2.1 _ _).2 ⟨_, s, ⟨hk, hs'⟩, t1, rfl, ?_, (flag_arrow e).2 ⟨n, ha, hn'⟩⟩
      rw [t4]
      intro h
      rw [syms_sub] at h
      exact hcl ⟨(closed_conv _ _ _ t2).1 h.2, (closed_conv _ _ _ t3).1 h.1⟩
    · intro R t
      rw [t4, DTT.val_sub]
      exact congrArg₂ _ (same_value t3 R t) (same_value t2 R t)
  · intro n v hv
    obtain ⟨d, hd, hdv⟩ := (hmerge.1 n v).1 hv
    simp only [List.mem_map] at hd
    obtain ⟨_, ⟨p, hp, rfl⟩, rfl⟩ := hd
    obtain ⟨b, hb, hc⟩ := h2 p hp
    refine ⟨(built_dicts hc).2.2.1 _ _ hdv, b, hb, ?_⟩
    obtain ⟨_, s, hst, hx, _, _, hcal⟩ := ((built_dicts hc).2.1 _ v).1 hdv
    obtain ⟨e, n', h1, _, h3, h4, h6⟩ := harrow b _ s hst hcal
    rw [hx] at h6
    cases h6
    exact ⟨e.lhs, e.rhs, e, h1, h3, h4, rfl, rfl⟩

/-- **C120**: the shocks of the model are those the model blocks declare, at date `t`, with the assumptions of the file -/
theorem C120_shocks (text : List Char) (ts : List Tok) (m : GFile) (P : Primitives) (hs : SpellsToks text ts) (hf : IsFile ts m)
    (hl : LoadGcn text P) (hn : m.DistinctNames) (x : TSym) :
    x ∈ P.shocks ↔ ∃ b, m.IsModelBlock b ∧ ∃ v ∈ b.shocks, x = ⟨v.name, .t 0, mergeAssumptions (dget m.assumptions v.name)⟩ := by
  obtain ⟨hload, ss, h1, h2⟩ := load_text hs hf hl hn
  obtain ⟨_, _, _, _, _, _, _, hm, _⟩ := load_ok hload
  have hsh : ∀ b : GBlock, ∀ r, constructBlock m.assumptions ss b.toBlk = .ok r →
      r.block.shocks.getD [] = b.shocks.map fun v => convVar m.assumptions v.name v.t := by
    intro b r hc
    obtain ⟨B0, B, vs0, dicts, s, h1, _, h3, _, _, _, h7, _⟩ := build_ok hc
    have e1 : B.shocks = B0.shocks := by
      unfold Block.consolidate at h3
      split at h3
      · cases h3; rfl
      · split at h3
        · cases h3; rfl
        · cases h3
    have e2 : B0.shocks = convertVars m.assumptions (expandBlock b.toBlk).shocks := by
      unfold astBlockToBlock at h1
      repeat' split at h1
      all_goals first | (cases h1; done) | (cases h1; rfl)
    rw [h7]
    show B.shocks.getD [] = _
    rw [e1, e2, expand_shocks]
    show (convertVars m.assumptions b.shocks).getD [] = _
    cases b.shocks <;> rfl
  have hP : P.shocks = sortByName ((((P.blocks.map Prod.snd).map fun b => (b.variables, b.block.shocks.getD [])).flatMap Prod.snd).map TSym.now) :=
    congrArg Prod.snd hm
  rw [hP]
  unfold sortByName
  rw [(sortBy_perm _ _).mem_iff, List.mem_eraseDups]
  simp only [List.mem_map, List.mem_flatMap]
  constructor
  · rintro ⟨y, ⟨_, ⟨_, ⟨p, hp, rfl⟩, rfl⟩, hy⟩, rfl⟩
    obtain ⟨b, hb, hc⟩ := h2 p hp
    simp only at hy
    rw [hsh b _ hc, List.mem_map] at hy
    obtain ⟨v, hv, rfl⟩ := hy
    exact ⟨b, hb, v, hv, rfl⟩
  · rintro ⟨b, hb, v, hv, rfl⟩
    obtain ⟨p, hp, hc⟩ := h1 b hb
    refine ⟨convVar m.assumptions v.name v.t, ⟨_, ⟨_, ⟨p, hp, rfl⟩, rfl⟩, ?_⟩, rfl⟩
    simp only
    rw [hsh b _ hc, List.mem_map]
    exact ⟨v, hv, rfl⟩

/-- **C120**: the variables to be reduced are those the file names, as far as the model has them -/
theorem C120_tryreduce (text : List Char) (ts : List Tok) (m : GFile) (P : Primitives) (hs : SpellsToks text ts) (hf : IsFile ts m)
    (hl : LoadGcn text P) (hn : m.DistinctNames) :
    (∀ x ∈ P.tryreduce, x ∈ P.variables ∧ x.base ∈ m.tryreduce) ∧
    (∀ n ∈ m.tryreduce, ∀ x ∈ P.variables, x.base = n → ∃ y ∈ P.tryreduce, y.base = n) := by
  obtain ⟨hload, _⟩ := load_text hs hf hl hn
  obtain ⟨_, _, _, _, _, _, _, _, _, ht⟩ := load_ok hload
  rw [ht]
  unfold extractTryreduce
  simp only [List.mem_filterMap]
  constructor
  · rintro x ⟨n, h1, h2⟩
    have := List.find?_some h2
    simp only [decide_eq_true_eq] at this
    exact ⟨List.mem_of_find?_eq_some h2, by rw [this]; exact h1⟩
  · intro n h1 x hx hb
    cases hfd : P.variables.find? fun v => decide (v.base = n) with
    | none =>
      rw [List.find?_eq_none] at hfd
      exact absurd hb (by simpa using hfd x hx)
    | some y =>
      have := List.find?_some hfd
      exact ⟨y, ⟨n, h1, hfd⟩, by simpa using this⟩


namespace FCal

/-- a parsed number as argument -/
def treeArg : NTree → PzArg
  | .num q => .num q
  | _ => .none

theorem prior_other (ok : Dist → Bool) (n : Str) : ∀ (cs : List Calib) (ps : List (Str × Dist)), (∀ d, Calib.dist d ∈ cs → d.param ≠ n) →
    dget (cs.foldl (fun ps c => match c with | .dist d => if ok d then dset ps d.param d else ps | .eq _ => ps) ps) n = dget ps n
  | [], _, _ => rfl
  | c :: cs, ps, h => by
    rw [List.foldl_cons, prior_other ok n cs _ fun d hd => h d (by simp [hd])]
    cases c with
    | eq e => rfl
    | dist d =>
      simp only
      split
      · rw [dget_dset, if_neg (h d (by simp))]
      · rfl

theorem priors_other (ok : Dist → Bool) (n : Str) : ∀ (bs : List Blk) (ps sd), (∀ b ∈ bs, ∀ d, Calib.dist d ∈ b.calibration → d.param ≠ n) →
    dget (loadDists ok bs ps sd).1 n = dget ps n
  | [], _, _, _ => rfl
  | b :: bs, ps, sd, h => by
    simp only [loadDists]
    rw [priors_other ok n bs _ _ fun c hc => h c (by simp [hc])]
    exact prior_other ok n _ _ (h b (by simp))

theorem kw_mem (d : GDist) (k : Str) : (∀ q, (k, .inl q) ∈ d.toDist.kwargs ↔ (k, NTree.num q) ∈ d.kwargs) ∧
    ∀ s, (k, .inr s) ∈ d.toDist.kwargs ↔ (k, NTree.str s) ∈ d.kwargs := by
  simp only [GDist.toDist, List.mem_filterMap]
  refine ⟨fun q => ⟨?_, fun h => ⟨_, h, rfl⟩⟩, fun s => ⟨?_, fun h => ⟨_, h, rfl⟩⟩⟩
  · rintro ⟨⟨k', t⟩, h, e⟩
    cases t <;> simp [argVal] at e
    obtain ⟨rfl, rfl⟩ := e; exact h
  · rintro ⟨⟨k', t⟩, h, e⟩
    cases t <;> simp [argVal] at e
    obtain ⟨rfl, rfl⟩ := e; exact h

theorem kw_keys (d : GDist) (h : (dkeys d.kwargs).Nodup) : (dkeys d.toDist.kwargs).Nodup := by
  have : dkeys d.toDist.kwargs = (d.kwargs.filter fun p => (argVal p.2).isSome).map Prod.fst := by
    simp only [GDist.toDist, dkeys]
    induction d.kwargs with
    | nil => rfl
    | cons p l ih =>
      rw [List.filterMap_cons, List.filter_cons]
      cases argVal p.2 <;> simp [ih]
  rw [this]
  exact h.sublist (List.filter_sublist.map _)

theorem mem_calib (b : GBlock) (d' : Dist) : Calib.dist d' ∈ b.toBlk.calibration ↔ ∃ d, GCal.prior d ∈ b.calibration ∧ d' = d.toDist := by
  simp only [GBlock.toBlk, List.mem_map]
  constructor
  · rintro ⟨g, hg, e⟩
    cases g with
    | eq e' => cases e
    | prior d => cases e; exact ⟨d, hg, rfl⟩
  · rintro ⟨d, hd, rfl⟩; exact ⟨_, hd, rfl⟩

end FCal

/-- **C120**: priors. The last prior a file states for a parameter is the model's prior, if PreliZ accepts it: the distribution written, with
the numbers and names written, the starting value written; a wrapper with the numbers written, `maxent` without plot -/
theorem C120_prior (pz : PzCall → Bool) (text : List Char) (ts : List Tok) (m : GFile) (r : List (Str × Dist) × List (Str × ShockDist))
    (hs : SpellsToks text ts) (hf : IsFile ts m) (hl : LoadGcnDists pz text r) (l1 l2 : List GBlock) (b : GBlock) (c1 c2 : List GCal) (d : GDist)
    (hm : m.blocks = l1 ++ b :: l2) (hb : b.calibration = c1 ++ .prior d :: c2) (h1 : ∀ d', GCal.prior d' ∈ c2 → d'.param ≠ d.param)
    (h2 : ∀ b' ∈ l2, ∀ d', GCal.prior d' ∈ b'.calibration → d'.param ≠ d.param) (hd : d.dist ∈ dists) (hw : ∀ w, d.wrapper = some w → w ∈ wrappers)
    (hok : ∀ c, c.dist = d.dist → pz c = true) :
    ∃ p c, dget r.1 d.param = some p ∧ p.param = d.param ∧ p.initial = d.initial ∧ toPreliz p = .ok c ∧ c.dist = d.dist ∧
      (∀ k q, (k, .inl q) ∈ c.kwargs ↔ (k, NTree.num q) ∈ d.kwargs) ∧ (∀ k s, (k, .inr s) ∈ c.kwargs ↔ (k, NTree.str s) ∈ d.kwargs) ∧
      c.wrap.map Prod.fst = d.wrapper ∧
      ∀ w kw, c.wrap = some (w, kw) → (w ≠ "maxent".toList → ∀ k q, (k, .num q) ∈ kw ↔ (k, NTree.num q) ∈ d.wrapperKwargs) ∧
        (w = "maxent".toList → ∀ k, dget kw k = if k = "plot".toList then some (.flag false) else
          (dget d.wrapperKwargs k).map fun t => match t with | .num q => .num q | _ => .none) := by
  have htree : (fun t : NTree => match t with | .num q => PzArg.num q | _ => .none) = treeArg := by funext t; cases t <;> rfl
  rw [htree]
  obtain ⟨m', hp, rfl⟩ := hl
  cases C107_unique text m m' ((C107_parse text m).2 ⟨ts, hs, hf⟩) hp
  have hcall : ∃ c, toPreliz d.toDist = .ok c ∧ c.dist = d.dist ∧ c.kwargs = d.toDist.kwargs ∧
      c.wrap = d.wrapper.map fun w => (w, wrapArgs w d.toDist.wrapperKwargs) := by
    unfold toPreliz
    have e1 : d.toDist.dist = d.dist := rfl
    have e2 : d.toDist.wrapper = d.wrapper := rfl
    rw [e1, e2, if_neg (fun h => h hd)]
    cases hw' : d.wrapper with
    | none => exact ⟨_, rfl, rfl, rfl, rfl⟩
    | some w =>
      simp only
      rw [if_neg (fun h => h (hw w hw'))]
      exact ⟨_, rfl, rfl, rfl, rfl⟩
  obtain ⟨c, hc, e1, e2, e3⟩ := hcall
  refine ⟨d.toDist, c, ?_, rfl, rfl, hc, e1, ?_, ?_, ?_, ?_⟩
  · have hblk : m.toMdl.blocks = l1.map GBlock.toBlk ++ b.toBlk :: l2.map GBlock.toBlk := by
      simp [GFile.toMdl, hm]
    rw [hblk, dists_append]
    simp only [loadDists]
    rw [priors_other]
    · unfold blockPriors
      have : b.toBlk.calibration = c1.map GCal.toCalib ++ .dist d.toDist :: c2.map GCal.toCalib := by
        simp [GBlock.toBlk, hb, GCal.toCalib]
      rw [this, List.foldl_append, List.foldl_cons]
      refine (prior_other _ d.param _ _ ?_).trans ?_
      · intro d' hd'
        simp only [List.mem_map] at hd'
        obtain ⟨g, hg, e⟩ := hd'
        cases g with
        | eq e' => cases e
        | prior d0 => cases e; exact h1 d0 hg
      · have : acceptsDist pz d.toDist = true := by
          unfold acceptsDist; rw [hc]; exact hok c e1
        simp only [this, if_true]
        exact dget_dset_self _ _ _
    · intro b' hb' d' hd'
      obtain ⟨g, hg, rfl⟩ := List.mem_map.1 hb'
      obtain ⟨d0, h0, rfl⟩ := (mem_calib g d').1 hd'
      exact h2 g hg d0 h0
  · intro k q; rw [e2]; exact (kw_mem d k).1 q
  · intro k q; rw [e2]; exact (kw_mem d k).2 q
  · rw [e3]; cases d.wrapper <;> rfl
  · intro w kw hwk
    rw [e3] at hwk
    cases hw' : d.wrapper with
    | none => rw [hw'] at hwk; cases hwk
    | some w' =>
      rw [hw'] at hwk
      simp only [Option.map_some, Option.some.injEq, Prod.mk.injEq] at hwk
      obtain ⟨rfl, rfl⟩ := hwk
      have hlist : (d.toDist.wrapperKwargs.map fun p => (p.1, pzArg p.2)) =
          d.wrapperKwargs.map fun p => (p.1, treeArg p.2) := by
        simp only [GDist.toDist, List.map_map]
        refine List.map_congr_left fun p _ => ?_
        obtain ⟨k, t⟩ := p
        cases t <;> rfl
      refine ⟨fun hne k q => ?_, fun he k => ?_⟩
      · unfold wrapArgs
        simp only [if_neg hne, hlist, List.mem_map]
        constructor
        · rintro ⟨⟨k', t⟩, h, e⟩
          cases t <;> simp [treeArg] at e
          obtain ⟨rfl, rfl⟩ := e; exact h
        · intro h; exact ⟨_, h, rfl⟩
      · unfold wrapArgs
        simp only [if_pos he, hlist]
        rw [dget_dset]
        by_cases hk : k = "plot".toList
        · simp [hk]
        · rw [if_neg (fun h => hk h.symm), if_neg hk]
          induction d.wrapperKwargs with
          | nil => rfl
          | cons p l ih =>
            simp only [List.map_cons, dget]
            split <;> simp_all

/-- **C120**: shocks. `e[] ~ Normal(…)` with the name of a parameter among its arguments gives the model a distribution for the shock `e`
in which numbers are kept and names are linked to the priors stated up to that block -/
theorem C120_shock_dists (pz : PzCall → Bool) (text : List Char) (ts : List Tok) (m : GFile) (r : List (Str × Dist) × List (Str × ShockDist))
    (hs : SpellsToks text ts) (hf : IsFile ts m) (hl : LoadGcnDists pz text r) (l1 l2 : List GBlock) (b : GBlock) (j1 j2 : List GDist) (d : GDist)
    (hm : m.blocks = l1 ++ b :: l2) (hb : b.shockDists = j1 ++ d :: j2) (h1 : ∀ d' ∈ j2, d'.param ≠ d.param)
    (h2 : ∀ b' ∈ l2, ∀ d' ∈ b'.shockDists, d'.param ≠ d.param) (hd : d.dist = "Normal".toList) (hk : (dkeys d.kwargs).Nodup) (k n : Str)
    (h0 : (k, NTree.str n) ∈ d.kwargs) :
    ∃ s, dget r.2 d.param = some s ∧ s.name = d.param ∧ dget s.names k = some n ∧
      (∀ k' q, (k', NTree.num q) ∈ d.kwargs → dget s.fixed k' = some q) ∧
      ∀ r', r' = loadDists (acceptsDist pz) ((l1 ++ [b]).map GBlock.toBlk) [] [] → dget s.hyper k = dget r'.1 n := by
  obtain ⟨m', hp, rfl⟩ := hl
  cases C107_unique text m m' ((C107_parse text m).2 ⟨ts, hs, hf⟩) hp
  obtain ⟨s, e1, e2, e3, e4⟩ := C55_shock (blockPriors (acceptsDist pz) b.toBlk (loadDists (acceptsDist pz) (l1.map GBlock.toBlk) [] []).1) d.toDist hd
    (kw_keys d hk) k n (((kw_mem d k).2 n).2 h0)
  refine ⟨s, ?_, e2, (e4 k n (((kw_mem d k).2 n).2 h0)).1, fun k' q hq => (e3 k' q (((kw_mem d k').1 q).2 hq)).1, ?_⟩
  · have hblk : m.toMdl.blocks = l1.map GBlock.toBlk ++ b.toBlk :: l2.map GBlock.toBlk := by
      simp [GFile.toMdl, hm]
    rw [hblk, dists_append]
    simp only [loadDists]
    rw [dists_other]
    · unfold blockShockDists
      have : b.toBlk.shockDists = j1.map GDist.toDist ++ d.toDist :: j2.map GDist.toDist := by
        simp [GBlock.toBlk, hb]
      rw [this, List.foldl_append, List.foldl_cons]
      refine (block_other _ d.param _ _ ?_).trans ?_
      · intro d' hd'
        obtain ⟨g, hg, rfl⟩ := List.mem_map.1 hd'
        exact h1 g hg
      · simp only [e1]
        exact dget_dset_self _ _ _
    · intro b' hb' d' hd'
      obtain ⟨g, hg, rfl⟩ := List.mem_map.1 hb'
      obtain ⟨d0, h0, rfl⟩ := List.mem_map.1 hd'
      exact h2 g hg d0 h0
  · rintro r' rfl
    rw [(e4 k n (((kw_mem d k).2 n).2 h0)).2, List.map_append, dists_append]; rfl

/-- **C120**, fails: a `Normal` shock with numbers only, and any other distribution, gives the model nothing and no message -/
theorem C120_shock_dists_violated (priors : List (Str × Dist)) (d : GDist) (h : d.dist ≠ "Normal".toList ∨ ∀ k s, (k, NTree.str s) ∉ d.kwargs) :
    createShockDist d.toDist priors = none := by
  by_cases hd : d.dist = "Normal".toList
  · have h := h.resolve_left (fun h => h hd)
    have key : ∀ (kw : List (Str × (Rat ⊕ Str))) (s : ShockDist), (∀ k n, (k, .inr n) ∉ kw) → (shockLoop priors kw s).names = s.names := by
      intro kw
      induction kw with
      | nil => intro s _; rfl
      | cons p kw ih =>
        intro s hkw
        obtain ⟨k, q | n⟩ := p
        · simp only [shockLoop]; rw [ih _ (fun k n hh => hkw k n (List.mem_cons_of_mem _ hh))]
        · exact absurd (List.mem_cons_self ..) (hkw k n)
    unfold createShockDist
    have e1 : d.toDist.dist = ['N','o','r','m','a','l'] := hd
    rw [if_neg (fun h => h e1)]
    simp only
    rw [key _ _ (fun k n hh => h k n (((kw_mem d k).2 n).1 hh))]
    rfl
  · unfold createShockDist
    have e1 : d.toDist.dist ≠ ['N','o','r','m','a','l'] := hd
    rw [if_pos e1]


namespace FCal

/-- a file with all kinds of calibration statements -/
def fcText : List Char := "block A { identities { Y[] = a + b; }; shocks { e[] ~ Normal(mu=0, sigma=s); }; calibration { a = 3; b = 2 * a; Y[ss] = 5 -> c; s ~ HalfNormal(sigma=1) = 4; }; };".toList
/-- its tokens -/
def fcToks : List Tok := [.id "block".toList, .id "A".toList, .lbrace, .id "identities".toList, .lbrace, .id "Y".toList, .tix (.t 0), .eq,
  .id "a".toList, .op .add, .id "b".toList, .semi, .rbrace, .semi, .id "shocks".toList, .lbrace, .id "e".toList, .tix (.t 0), .tilde,
  .id "Normal".toList, .lpar, .id "mu".toList, .eq, .num 0, .comma, .id "sigma".toList, .eq, .id "s".toList, .rpar, .semi, .rbrace, .semi,
  .id "calibration".toList, .lbrace, .id "a".toList, .eq, .num 3, .semi, .id "b".toList, .eq, .num 2, .op .mul, .id "a".toList, .semi,
  .id "Y".toList, .tix .ss, .eq, .num 5, .arrow, .id "c".toList, .semi, .id "s".toList, .tilde, .id "HalfNormal".toList, .lpar,
  .id "sigma".toList, .eq, .num 1, .rpar, .eq, .num 4, .semi, .rbrace, .semi, .rbrace, .semi]
/-- the shock -/
def fcShock : GDist := ⟨"e".toList, "Normal".toList, [("mu".toList, .num 0), ("sigma".toList, .str "s".toList)], none, [], none⟩
/-- the prior -/
def fcPrior : GDist := ⟨"s".toList, "HalfNormal".toList, [("sigma".toList, .num 1)], none, [], some 4⟩
/-- its block -/
def fcBlock : GBlock where
  name := "A".toList
  identities := [{ lhs := .var "Y".toList (.t 0), rhs := .bin .add (.par "a".toList) (.par "b".toList), lagrange := none, calibrating := none, tags := [] }]
  shocks := [⟨"e".toList, .t 0⟩]
  shockDists := [fcShock]
  calibration := [.eq { lhs := .par "a".toList, rhs := .num 3, lagrange := none, calibrating := none, tags := [] },
    .eq { lhs := .par "b".toList, rhs := .bin .mul (.num 2) (.par "a".toList), lagrange := none, calibrating := none, tags := [] },
    .eq { lhs := .var "Y".toList .ss, rhs := .num 5, lagrange := none, calibrating := some "c".toList, tags := [] }, .prior fcPrior]
/-- the file it stands for -/
def fcFile : GFile := { blocks := [fcBlock] }

theorem fcToks_eq : lexText fcText = some fcToks := by decide +kernel
theorem fc_spells : SpellsToks fcText fcToks := (C106_reading _ _).1 fcToks_eq
theorem fc_file : IsFile fcToks fcFile := (C107_grammar _ _).1 ⟨40, rfl⟩
theorem fc_load : ∃ P, LoadGcn fcText P ∧ P.param = [("a".toList, .num 3), ("s".toList, .num 4)] := by
  obtain ⟨P, h1, h2⟩ := Ldr.loaded fcFile.toMdl (fun P => P.param) [("a".toList, .num 3), ("s".toList, .num 4)] (by decide +kernel)
  exact ⟨P, ⟨fcFile, (C107_parse _ _).2 ⟨_, fc_spells, fc_file⟩, h1⟩, h2⟩

theorem fc_block (b : GBlock) (h : fcFile.IsModelBlock b) : b = fcBlock := by simpa [fcFile] using h.1

theorem fc_model : fcFile.IsModelBlock fcBlock := by
  have h : ¬ (isSkippedName fcBlock.name = true) := by decide
  rw [C53_skipped_names, not_or] at h
  exact ⟨by simp [fcFile], h⟩

theorem fc_names : fcFile.DistinctNames := by simp [GFile.DistinctNames, fcFile]

theorem fc_pars : fcFile.ParametersOnly := by
  intro b hb e he ha
  cases fc_block b hb
  simp only [fcBlock, List.mem_cons, GCal.eq.injEq, List.not_mem_nil, or_false, reduceCtorEq] at he
  rcases he with rfl | rfl | rfl
  · exact ⟨_, rfl⟩
  · exact ⟨_, rfl⟩
  · rcases ha with ha | ha <;> cases ha

end FCal

/-- the hypotheses are met: a file with a number, a formula, a calibrating equation, a prior and a shock loads, with all of them -/
example : ∃ P, LoadGcn FCal.fcText P ∧ ("a".toList, SExpr.num 3) ∈ P.param ∧ ("s".toList, SExpr.num 4) ∈ P.param ∧
    (∃ v, ("b".toList, v) ∈ P.determ) ∧ (∃ v, ("c".toList, v) ∈ P.calib) ∧ ∃ x ∈ P.shocks, x.base = "e".toList := by
  obtain ⟨P, h1, h2⟩ := fc_load
  have hn := C120_formulas _ _ _ P fc_spells fc_file h1 fc_names fc_pars
  have hc := C120_calibrating _ _ _ P fc_spells fc_file h1 fc_names
  obtain ⟨v, hv, _⟩ := hn.1 fcBlock fc_model "b".toList _ ⟨_, List.mem_cons_of_mem _ (List.mem_cons_self ..), .inl rfl, rfl, rfl⟩
    (by simp [Expr.vars]) (by simp [Expr.pars])
  obtain ⟨w, hw, _⟩ := hc.1 fcBlock fc_model "c".toList _ _
    ⟨_, List.mem_cons_of_mem _ (List.mem_cons_of_mem _ (List.mem_cons_self ..)), rfl, by decide, rfl, rfl⟩ (by simp [Closed, Expr.vars])
  exact ⟨P, h1, by rw [h2]; simp, by rw [h2]; simp, ⟨v, hv⟩, ⟨w, hw⟩, _,
    (C120_shocks _ _ _ P fc_spells fc_file h1 fc_names _).2 ⟨fcBlock, fc_model, _, List.mem_cons_self .., rfl⟩, rfl⟩

/-- and its prior and shock: PreliZ is asked for `HalfNormal(sigma=1)`; the shock's `sigma` is linked to it -/
example : ∃ r, LoadGcnDists (fun _ => true) FCal.fcText r ∧ (∃ p, dget r.1 "s".toList = some p ∧ p.initial = some 4) ∧
    ∃ s, dget r.2 "e".toList = some s ∧ dget s.names "sigma".toList = some "s".toList := by
  refine ⟨_, ⟨fcFile, (C107_parse _ _).2 ⟨_, fc_spells, fc_file⟩, rfl⟩, ?_, ?_⟩
  · obtain ⟨p, _, h1, _, h3, _⟩ := C120_prior (fun _ => true) fcText fcToks fcFile _ fc_spells fc_file
      ⟨fcFile, (C107_parse _ _).2 ⟨_, fc_spells, fc_file⟩, rfl⟩ [] [] fcBlock [_, _, _] [] fcPrior rfl rfl (by simp) (by simp) (by decide +kernel)
      (by simp [fcPrior]) (fun _ _ => rfl)
    exact ⟨p, h1, h3⟩
  · obtain ⟨s, h1, _, h3, _⟩ := C120_shock_dists (fun _ => true) fcText fcToks fcFile _ fc_spells fc_file
      ⟨fcFile, (C107_parse _ _).2 ⟨_, fc_spells, fc_file⟩, rfl⟩ [] [] fcBlock [] [] fcShock rfl rfl (by simp) (by simp) rfl (by decide)
      "sigma".toList "s".toList (by simp [fcShock])
    exact ⟨s, h1, h3⟩

end GE
