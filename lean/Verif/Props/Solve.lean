import Verif.Props.Lagrangian
/-! # C23, C49: solving a block -/

namespace GE

/-- specification: the equations written in a component, as `rhs - lhs` at date `t` along the path -/
noncomputable def gaps (P : RealPath) (t : Int) (es : List SEq) : List ℝ := es.map fun e => e.rhs.val P t - e.lhs.val P t

/-- specification: the constraints not tagged `@exclude` -/
def Block.keptConstraints (B : Block) : List SEq :=
  ((B.constraints.getD []).filter fun p => !((dget B.flags p.1).elim false Flags.exclude)).map Prod.snd

namespace Slv
open Lag DTT

theorem defDict_mem (ds : List SEq) : ∀ p ∈ defDict ds, ∃ e ∈ ds, e.lhs = .sym p.1 ∧ p.2 = e.rhs := by
  have gen : ∀ (ds : List SEq) (acc : List (Sym × SExpr)), ∀ p ∈ ds.foldl (fun d e => match e.lhs with | .sym s => dset d s e.rhs | _ => d) acc,
      p ∈ acc ∨ ∃ e ∈ ds, e.lhs = .sym p.1 ∧ p.2 = e.rhs := by
    intro ds
    induction ds with
    | nil => intro acc p hp; exact .inl hp
    | cons e ds ih =>
      intro acc p hp
      rw [List.foldl_cons] at hp
      rcases ih _ p hp with h | ⟨e', he', h⟩
      · split at h
        · rename_i s hs
          rcases mem_dset _ _ _ _ h with h | rfl
          · exact .inl h
          · exact .inr ⟨e, List.mem_cons_self .., hs, rfl⟩
        · exact .inl h
      · exact .inr ⟨e', List.mem_cons_of_mem _ he', h⟩
  intro p hp
  rcases gen ds [] p hp with h | h
  · simp at h
  · exact h

theorem subsDef_val (ds : List SEq) (P : RealPath) (hP : DefsHold ds P) (e : SExpr) (t : Int) :
    (e.subsSeq (defDict ds)).val P t = e.val P t := by
  refine subsSeq_same_value P.val t e _ ?_
  intro p hp
  obtain ⟨q, hq, h1, h2⟩ := defDict_mem ds p hp
  have := hP q hq t
  rw [h1] at this
  rw [h2]; exact this.symm

theorem zero_val (ds : List SEq) (P : RealPath) (hP : DefsHold ds P) (e : SEq) (t : Int) :
    ((e.subsSeq (defDict ds)).zero).val P t = e.rhs.val P t - e.lhs.val P t := by
  simp [SEq.zero, SEq.subsSeq, subsDef_val ds P hP]

theorem mapM_flags (B : Block) (l : List (Nat × SEq)) (cs) (h : l.mapM (fun p => (dget B.flags p.1).map fun f => (f.exclude, p.2)) = some cs) :
    (cs.filter fun p => !p.1).map Prod.snd = (l.filter fun p => !((dget B.flags p.1).elim false Flags.exclude)).map Prod.snd := by
  induction l generalizing cs with
  | nil => simp at h; subst h; rfl
  | cons p l ih =>
    rw [List.mapM_cons] at h
    cases hf : dget B.flags p.1 with
    | none => rw [hf] at h; cases h
    | some f =>
      rw [hf] at h
      cases hm : l.mapM (fun p => (dget B.flags p.1).map fun f => (f.exclude, p.2)) with
      | none => rw [hm] at h; cases h
      | some cs' =>
        rw [hm] at h
        cases h
        simp only [List.filter_cons, hf, Option.elim_some]
        cases f.exclude <;> simp [ih cs' hm]

theorem plain_eq {B : Block} {eqs} (h : B.plainEquations = .ok eqs) :
    eqs = (dvals B.identities ++ B.keptConstraints).map fun e => (e.subsSeq (defDict (dvals B.definitions))).zero := by
  unfold Block.plainEquations at h
  simp only at h
  split at h
  · cases h
  · rename_i cs hcs
    cases h
    rw [List.map_append, Block.keptConstraints, ← mapM_flags B _ _ hcs]
    simp [List.map_map, Function.comp_def]

theorem mapM_focs (L df : SExpr) (cs : List TSym) (focs)
    (h : cs.mapM (fun c => (match diffThroughTime L c (.expr df) with | .ok r => some r | .error _ => none)) = some focs) :
    List.Forall₂ (fun c r => diffThroughTime L c (.expr df) = .ok r) cs focs := by
  induction cs generalizing focs with
  | nil => simp at h; subst h; exact .nil
  | cons c cs ih =>
    rw [List.mapM_cons] at h
    cases hd : diffThroughTime L c (.expr df) with
    | error e => rw [hd] at h; cases h
    | ok r =>
      rw [hd] at h
      cases hm : cs.mapM (fun c => (match diffThroughTime L c (.expr df) with | .ok r => some r | .error _ => none)) with
      | none => simp only [hm] at h; cases h
      | some rs =>
        simp only [hm] at h
        cases h
        exact .cons hd (ih rs hm)

end Slv

open Slv Lag DTT

/-- **C23** for a block without an optimisation problem, solving it produces exactly one equation per identity and per constraint
not tagged `@exclude`, in order, with the written value `rhs - lhs` on every path along which the block's definitions hold. -/
theorem C23_no_optimisation (B : Block) (r : Solved) (hc : B.controls = none) (ho : B.objective = none) (h : B.solve = .ok r) :
    r.equations.length = (dvals B.identities).length + B.keptConstraints.length ∧
    ∀ P : RealPath, DefsHold (dvals B.definitions) P → ∀ t,
      r.equations.map (·.val P t) = gaps P t (dvals B.identities) ++ gaps P t B.keptConstraints := by
  unfold Block.solve at h
  cases hp : B.plainEquations with
  | error e => rw [hp] at h; cases h
  | ok eqs =>
    rw [hp] at h
    simp only [hc, ho] at h
    cases h
    have := plain_eq hp
    subst this
    refine ⟨by simp, ?_⟩
    intro P hP t
    simp [gaps, zero_val _ P hP, Function.comp_def]

/-- **C23** for an optimisation block, solving it produces exactly: one equation per identity, one per constraint not tagged
`@exclude`, the objective, and one first-order condition per control, in this order. The first three have the written value
`rhs - lhs` on every path along which the block's definitions hold; each first-order condition is `diff_through_time` of the
block's Lagrangian with respect to its control, with the block's discount factor. -/
theorem C23_equations (B : Block) (r : Solved) (okey : Nat) (obj : SEq) (rest) (cs : List TSym)
    (hc : B.controls = some cs) (ho : B.objective = some ((okey, obj) :: rest)) (h : B.solve = .ok r) :
    ∃ L ms df plain focs, B.lagrangian = .ok (L, ms) ∧ discountFactor obj = .ok df ∧ r.equations = plain ++ focs ∧
      plain.length = (dvals B.identities).length + B.keptConstraints.length + 1 ∧
      (∀ P : RealPath, DefsHold (dvals B.definitions) P → ∀ t,
        plain.map (·.val P t) = gaps P t (dvals B.identities) ++ gaps P t B.keptConstraints ++ gaps P t [obj]) ∧
      List.Forall₂ (fun c foc => diffThroughTime L c (.expr df) = .ok foc) cs focs := by
  unfold Block.solve at h
  cases hp : B.plainEquations with
  | error e => rw [hp] at h; cases h
  | ok eqs =>
    rw [hp] at h
    simp only [hc, ho] at h
    cases hd : discountFactor obj with
    | error e => rw [hd] at h; cases h
    | ok df =>
      rw [hd] at h
      simp only at h
      cases hl : B.lagrangian with
      | error e => rw [hl] at h; cases h
      | ok Lm =>
        obtain ⟨L, ms⟩ := Lm
        rw [hl] at h
        simp only at h
        split at h
        · cases h
        · cases h
        · split at h
          · cases h
          · rename_i focs hf
            cases h
            have := plain_eq hp
            subst this
            refine ⟨L, ms, df, _, focs, rfl, rfl, rfl, by simp; omega, ?_, mapM_focs L df cs focs hf⟩
            intro P hP t
            simp [gaps, zero_val _ P hP, Function.comp_def]

/-- **C23** with C14: when the Lagrangian has no steady-state symbols and the discount factor is made of parameters, the
first-order condition for the control `c[]` is the derivative of the whole discounted Lagrangian with respect to the value of the
control at date t. -/
theorem C23_foc_is_derivative (B : Block) (r : Solved) (okey : Nat) (obj : SEq) (rest) (cs : List TSym) (L ms df)
    (hc : B.controls = some cs) (ho : B.objective = some ((okey, obj) :: rest)) (h : B.solve = .ok r)
    (hL : B.lagrangian = .ok (L, ms)) (hdf : discountFactor obj = .ok df)
    (hss : ∀ s ∈ L.tsyms, s.idx ≠ .ss) (hconst : df.tsyms = []) (c : TSym) (hcc : c ∈ cs) (hc0 : c.idx = .t 0) :
    ∃ foc ∈ r.equations, ∀ (P : RealPath) (t : Int), df.Smooth P t → (∀ k : Nat, L.Smooth P (t + k)) →
      Summable (fun k : ℕ => df.val P t ^ k * L.val P (t + k)) →
        HasDerivAt (fun y => discountedInf L (df.val P t) t (P.bump c.base c.asm t y)) (foc.val P t) (P.path c.base c.asm t) := by
  obtain ⟨L', ms', df', plain, focs, h1, h2, h3, _, _, h4⟩ := C23_equations B r okey obj rest cs hc ho h
  rw [hL] at h1; cases h1
  rw [hdf] at h2; cases h2
  obtain ⟨foc, hfoc, hd⟩ : ∃ foc ∈ focs, diffThroughTime L c (.expr df) = .ok foc := by
    clear h3 hc h
    induction h4 with
    | nil => simp at hcc
    | cons hR _ ih =>
      rcases List.mem_cons.mp hcc with rfl | hcc
      · exact ⟨_, List.mem_cons_self .., hR⟩
      · obtain ⟨f, hf, hd⟩ := ih hcc
        exact ⟨f, List.mem_cons_of_mem _ hf, hd⟩
  refine ⟨foc, by rw [h3]; exact List.mem_append_right _ hfoc, ?_⟩
  obtain ⟨r', hr', hD⟩ := C14_infinite_horizon L df c 0 hc0 hss hconst
  rw [hr'] at hd; cases hd
  intro P t a1 a2 a3
  simpa using hD P t a1 a2 a3

/-- **C23** the discount factor of a Bellman equation `V[] = u + b*V[1]` (with neither `u` nor `b` mentioning `V[1]`) is `b`. -/
theorem C23_discount_bellman (V : TSym) (u b : SExpr)
    (hu : Sym.tv { V with idx := .t 1 } ∉ u.syms) (hb : Sym.tv { V with idx := .t 1 } ∉ b.syms) :
    ∃ df, discountFactor ⟨.sym (.tv V), .add u (.mul b (.sym (.tv { V with idx := .t 1 })))⟩ = .ok df ∧
      (∀ P t, df.val P t = b.val P t) ∧ (b.tsyms = [] → df.tsyms = []) ∧ (∀ P t, b.Smooth P t → df.Smooth P t) := by
  set W : Sym := .tv { V with idx := .t 1 } with hW
  have hsum : ∀ e : SExpr, ∀ x ∈ e.summands, ∀ s ∈ x.syms, s ∈ e.syms := by
    intro e
    induction e with
    | add a b iha ihb =>
      intro x hx s hs
      rcases List.mem_append.mp hx with hx | hx
      · simp [SExpr.syms, iha x hx s hs]
      · simp [SExpr.syms, ihb x hx s hs]
    | _ => intro x hx s hs; simp only [SExpr.summands, List.mem_singleton] at hx; subst hx; exact hs
  have hfil : ((SExpr.add u (.mul b (.sym W))).args.filter fun x => x.syms.contains W) = [.mul b (.sym W)] := by
    simp only [SExpr.args, SExpr.summands, List.filter_append]
    have h1 : (u.summands.filter fun x => x.syms.contains W) = [] := by
      rw [List.filter_eq_nil_iff]
      intro x hx hc
      exact hu (hsum u x hx W (by simpa using hc))
    rw [h1]
    simp [SExpr.syms]
  have hnot : ¬ ((SExpr.sym (.tv V)).tsyms ++ (SExpr.add u (.mul b (.sym W))).tsyms).all (fun v => v.idx = .t 0 ∨ v.idx = .t (-1)) = true := by
    intro h
    rw [List.all_eq_true] at h
    have := h { V with idx := .t 1 } (by simp [mem_tsyms, SExpr.syms, hW])
    simp at this
  have hbr : b.replace (fun s => if s = W then .num 1 else .sym s) = b := by
    conv_rhs => rw [← replace_id b]
    exact replace_congr b _ _ fun s hs => by rw [if_neg]; rintro rfl; exact hb hs
  refine ⟨(SExpr.mul b (.sym W)).subs1 W (.num 1), ?_, ?_, ?_, ?_⟩
  · unfold discountFactor
    rw [if_neg (by simpa using hnot)]
    simp only [← hW, hfil]
  · intro P t
    simp [SExpr.subs1, SExpr.replace, hbr]
  · intro hbt
    rw [List.eq_nil_iff_forall_not_mem]
    intro s hs
    rw [mem_tsyms, SExpr.subs1, syms_replace] at hs
    obtain ⟨q, hq, h1⟩ := hs
    split at h1
    · simp [SExpr.syms] at h1
    · simp only [SExpr.syms, List.mem_singleton] at h1
      subst h1
      simp only [SExpr.syms, List.mem_append, List.mem_singleton] at hq
      rcases hq with hq | hq
      · rw [← mem_tsyms, hbt] at hq; simp at hq
      · rename_i hne; exact hne hq
  · intro P t hs
    simp only [SExpr.subs1, SExpr.replace, hbr, if_true]
    exact ⟨hs, trivial⟩

/-- **C23** a static objective (dates t and t-1 only) is not discounted. -/
theorem C23_discount_static (obj : SEq) (h : ∀ v ∈ obj.lhs.tsyms ++ obj.rhs.tsyms, v.idx = .t 0 ∨ v.idx = .t (-1)) :
    discountFactor obj = .ok (.num 1) := by
  unfold discountFactor
  rw [if_pos]
  rw [List.all_eq_true]
  intro v hv; simpa using h v hv

/-- **C23** is violated when a block has an objective and controls but no constraints: the definitions being valid, the block cannot
be solved at all (AttributeError: 'NoneType' object has no attribute 'items'), although validation only warns. -/
theorem C23_no_constraints_raises (B : Block) (okey : Nat) (obj : SEq) (rest) (f : Flags) (cs : List TSym) (df sub)
    (hc : B.controls = some cs) (ho : B.objective = some ((okey, obj) :: rest)) (hf : dget B.flags okey = some f)
    (hn : B.constraints = none) (hd : discountFactor obj = .ok df) (hs : lagrangianSubs (dvals B.definitions) [] = .ok sub) :
    B.solve = .error .attributeError := by
  unfold Block.solve
  cases hp : B.plainEquations with
  | error e => simp [Block.plainEquations, hn] at hp
  | ok eqs => simp [ho, hc, hd, Block.lagrangian, hf, hs, hn]

/-- **C23** solving succeeds: if every constraint has its flags, the Lagrangian and the discount factor exist, the objective has no
named multiplier, the Lagrangian has no steady-state symbols, the discount factor consists of parameters and the controls are
dated, then the block is solved. -/
theorem C23_total (B : Block) (okey : Nat) (obj : SEq) (rest) (cs : List TSym) (L ms df)
    (hc : B.controls = some cs) (ho : B.objective = some ((okey, obj) :: rest))
    (hfl : ∀ p ∈ B.constraints.getD [], ∃ f, dget B.flags p.1 = some f)
    (hL : B.lagrangian = .ok (L, ms)) (hdf : discountFactor obj = .ok df)
    (hm : (B.multipliers.map Prod.snd)[okey]? = some none)
    (hss : ∀ s ∈ L.tsyms, s.idx ≠ .ss) (hconst : df.tsyms = []) (hd : ∀ c ∈ cs, ∃ i, c.idx = .t i) :
    ∃ r, B.solve = .ok r := by
  have h1 : ∀ l : List (Nat × SEq), (∀ p ∈ l, ∃ f, dget B.flags p.1 = some f) →
      ∃ x, l.mapM (fun p => (dget B.flags p.1).map fun f => (f.exclude, p.2)) = some x := by
    intro l hl
    induction l with
    | nil => exact ⟨[], rfl⟩
    | cons p l ih =>
      obtain ⟨f, hf⟩ := hl p (List.mem_cons_self ..)
      obtain ⟨x, hx⟩ := ih fun q hq => hl q (List.mem_cons_of_mem _ hq)
      refine ⟨(f.exclude, p.2) :: x, ?_⟩
      rw [List.mapM_cons, hf, hx]; rfl
  have h2 : ∀ l : List TSym, (∀ c ∈ l, ∃ i, c.idx = .t i) →
      ∃ x, l.mapM (fun c => (match diffThroughTime L c (.expr df) with | .ok r => some r | .error _ => none)) = some x := by
    intro l hl
    induction l with
    | nil => exact ⟨[], rfl⟩
    | cons c l ih =>
      obtain ⟨i, hi⟩ := hl c (List.mem_cons_self ..)
      obtain ⟨r, hr, _⟩ := C14_infinite_horizon L df c i hi hss hconst
      obtain ⟨x, hx⟩ := ih fun q hq => hl q (List.mem_cons_of_mem _ hq)
      refine ⟨r :: x, ?_⟩
      rw [List.mapM_cons, hr]
      simp [hx]
  obtain ⟨x, hx⟩ := h1 _ hfl
  obtain ⟨y, hy⟩ := h2 _ hd
  unfold Block.solve Block.plainEquations
  simp only [hx, ho, hc, hdf, hL, hm]
  split
  · rename_i hnone
    exact absurd (hnone.symm.trans hy) (by simp)
  · exact ⟨_, rfl⟩

/-- a household block used to show the hypotheses above are met: controls `C[]`, `K[]`, objective `U[] = log(C[]) + b*U[1]`,
constraint `C[] + K[] = K[-1]**a : l[]` -/
def exampleBlock : Block :=
  let v := fun (n : Char) k => SExpr.sym (.tv ⟨[n], .t k, []⟩)
  { name := ['H']
    controls := some [⟨['C'], .t 0, []⟩, ⟨['K'], .t 0, []⟩]
    objective := some [(0, ⟨v 'U' 0, .add (.log (v 'C' 0)) (.mul (.sym (.par ['b'])) (v 'U' 1))⟩)]
    constraints := some [(1, ⟨.add (v 'C' 0) (v 'K' 0), .pow (v 'K' (-1)) (.sym (.par ['a']))⟩)]
    multipliers := [(0, none), (1, some ⟨['l'], .t 0, []⟩)]
    flags := [(0, {}), (1, {})] }

/-- its Lagrangian -/
def exampleL : SExpr :=
  let v := fun (n : Char) k => SExpr.sym (.tv ⟨[n], .t k, []⟩)
  .sub (.add (.log (v 'C' 0)) (.mul (.sym (.par ['b'])) (v 'U' 1)))
    (.mul (v 'l' 0) (.sub (.add (v 'C' 0) (v 'K' 0)) (.pow (v 'K' (-1)) (.sym (.par ['a'])))))

/-- non-vacuity of the C23 theorems -/
example : ∃ r df obj, exampleBlock.solve = .ok r ∧ exampleBlock.objective = some [(0, obj)] ∧
    exampleBlock.lagrangian = .ok (exampleL, exampleBlock.multipliers) ∧ discountFactor obj = .ok df ∧
    (∀ s ∈ exampleL.tsyms, s.idx ≠ .ss) ∧ df.tsyms = [] ∧
    ∃ P : RealPath, DefsHold (dvals exampleBlock.definitions) P ∧ df.Smooth P 0 ∧ (∀ k : Nat, exampleL.Smooth P (0 + k)) ∧
      Summable (fun k : ℕ => df.val P 0 ^ k * exampleL.val P (0 + k)) := by
  have hss : ∀ s ∈ exampleL.tsyms, s.idx ≠ .ss := by simp [exampleL, SExpr.tsyms, SExpr.syms, SExpr.sub]
  have hl : exampleBlock.lagrangian = .ok (exampleL, exampleBlock.multipliers) := rfl
  obtain ⟨r, hr⟩ := C23_total exampleBlock 0 _ _ _ _ _ _ rfl rfl
    (by simp [exampleBlock, dget]) hl rfl rfl hss rfl (by simp)
  refine ⟨r, _, _, hr, rfl, hl, rfl, hss, rfl, ?_⟩
  refine ⟨⟨fun _ => 1/2, fun _ _ _ => 1, fun _ _ => 1⟩, by simp [DefsHold, exampleBlock, dvals], ?_, ?_, ?_⟩
  · simp [SExpr.subs1, SExpr.replace, SExpr.Smooth]
  · intro k
    simp [exampleL, SExpr.sub, SExpr.Smooth, SExpr.val, SExpr.at, Valuation.symAt, RealPath.val]
  · have hdf : ((SExpr.mul (.sym (.par ['b'])) (.sym (.tv ⟨['U'], .t 1, []⟩))).subs1 (.tv ⟨['U'], .t 1, []⟩) (.num 1)).val
        ⟨fun _ => 1/2, fun _ _ _ => 1, fun _ _ => 1⟩ 0 = 1/2 := by
      simp [SExpr.subs1, SExpr.replace, SExpr.val, SExpr.at, Valuation.symAt, RealPath.val]
    have hL : ∀ k : ℕ, exampleL.val ⟨fun _ => 1/2, fun _ _ _ => 1, fun _ _ => 1⟩ (0 + k) = -1/2 := by
      intro k
      simp [exampleL, SExpr.sub, SExpr.val, SExpr.at, Valuation.symAt, RealPath.val]; norm_num
    simp only [hL]
    refine Summable.mul_right _ ?_
    exact summable_geometric_of_lt_one (by rw [hdf]; norm_num) (by rw [hdf]; norm_num)

/-! ## C49 -/

/-- **C49** no symbol introduced by a definition `u[] = ...` occurs *at its written date* in the identities, constraints and objective
of the solved block, provided the (already flattened) right-hand sides do not mention defined symbols. Not covered: other dates
(false, see `C49_other_dates_violated`), and the first-order conditions. -/
theorem C49_written_date_partial (B : Block) (eqs : List SExpr) (h : B.plainEquations = .ok eqs)
    (hflat : ∀ e ∈ dvals B.definitions, ∀ e' ∈ dvals B.definitions, ∀ s, e.lhs = .sym s → s ∉ e'.rhs.syms)
    (e : SEq) (he : e ∈ dvals B.definitions) (s : Sym) (hs : e.lhs = .sym s) :
    ∀ q ∈ eqs, s ∉ q.syms := by
  have hkey : ∀ (ds : List SEq) (acc : List (Sym × SExpr)), (e ∈ ds ∨ s ∈ acc.map Prod.fst) →
      s ∈ (ds.foldl (fun d e => match e.lhs with | .sym s => dset d s e.rhs | _ => d) acc).map Prod.fst := by
    have hset : ∀ (d : List (Sym × SExpr)) k v q, q ∈ (dset d k v).map Prod.fst ↔ q = k ∨ q ∈ d.map Prod.fst := by
      intro d k v q
      induction d with
      | nil => simp [dset]
      | cons p d ih =>
        simp only [dset]
        split
        · rename_i hp; simp [← hp]
        · simp only [List.map_cons, List.mem_cons, ih]; tauto
    intro ds
    induction ds with
    | nil => intro acc h; simpa using h
    | cons d ds ih =>
      intro acc h
      rw [List.foldl_cons]
      apply ih
      rcases h with h | h
      · rcases List.mem_cons.mp h with rfl | h
        · right; rw [hs]; simp [hset]
        · exact .inl h
      · right; split
        · rw [hset]; exact .inr h
        · exact h
  have hk := hkey (dvals B.definitions) [] (.inl he)
  intro q hq hsq
  rw [plain_eq h] at hq
  obtain ⟨w, _, rfl⟩ := List.mem_map.mp hq
  have : s ∈ (w.rhs.subsSeq (defDict (dvals B.definitions))).syms ∨ s ∈ (w.lhs.subsSeq (defDict (dvals B.definitions))).syms := by
    simpa [SEq.zero, SEq.subsSeq, SExpr.sub, SExpr.syms] using hsq
  have aux : ∀ x : SExpr, s ∉ (x.subsSeq (defDict (dvals B.definitions))).syms := by
    intro x hx
    rcases syms_subsSeq _ _ _ hx with ⟨_, h2⟩ | ⟨p, hp, h2⟩
    · exact h2 hk
    · obtain ⟨e', he', h3, h4⟩ := defDict_mem _ p hp
      rw [h4] at h2
      exact hflat e he e' he' s hs h2
  rcases this with h | h <;> exact aux _ h

/-- **C49** is violated at other dates: with the definition `u[] = x[]` the identity `Y[] = u[1]` is handed to the model unchanged;
`u[1]` survives although nothing in the model determines `u`. -/
theorem C49_other_dates_violated :
    let v := fun (n : Str) k => TSym.mk n (.t k) []
    let B : Block := {
      name := ['B'], definitions := some [(0, ⟨.sym (.tv (v ['u'] 0)), .sym (.tv (v ['x'] 0))⟩)]
      controls := none, objective := none, constraints := none
      identities := some [(1, ⟨.sym (.tv (v ['Y'] 0)), .sym (.tv (v ['u'] 1))⟩)]
      calibration := none, shocks := none
      multipliers := [(0, none), (1, none)], flags := [(0, {}), (1, {})] }
    ∃ r e, B.solve = .ok r ∧ r.equations = [e] ∧ Sym.tv (v ['u'] 1) ∈ e.syms ∧
      e = SEq.zero ⟨.sym (.tv (v ['Y'] 0)), .sym (.tv (v ['u'] 1))⟩ := by
  refine ⟨_, _, rfl, rfl, ?_, ?_⟩ <;> decide

end GE
