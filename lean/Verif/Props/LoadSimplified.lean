import Verif.Model.LoadSimplified
import Verif.Props.SimplifyBlock
import Verif.Props.Simplification
import Verif.Props.Closure2
import Verif.Props.Stationary
/-! # C125: loading with simplified blocks, the default, keeps the model's solutions -/

namespace GE

/-- specification: an elimination of the announced kind: the dated multiplier is replaced by another variable of the same date, or by a constant -/
def DirectElimination (q : TSym × SExpr) : Prop :=
  (∃ k, q.1.idx = .t k) ∧ (q.2.tsyms = [] ∨ ∃ y : TSym, q.2 = .sym (.tv y) ∧ y.idx = q.1.idx)

/-- specification of sympy's side: solutions hold whenever the equation does and mention only other symbols of the equation; automatic evaluation
changes no values and brings in no symbols; iterating a set gives its elements -/
structure SimpOps.Lawful (ops : SimpOps) : Prop where
  sound : ops.solve.Sound
  closed : ∀ e x rhs, ops.solve e x = some rhs → ∀ s ∈ rhs.syms, s ∈ e.syms ∧ s ≠ .tv x
  values : SameValues ops.norm
  symbols : ∀ e, ∀ s ∈ (ops.norm e).syms, s ∈ e.syms
  order : ∀ l x, x ∈ ops.ord l ↔ x ∈ l

/-- specification: the date is `t-1`, `t`, `t+1` or the steady state -/
def NearDate (i : TIdx) : Prop := i = .t (-1) ∨ i = .t 0 ∨ i = .t 1 ∨ i = .ss

/-- specification: the equation has the variable, at some date -/
def HasVar (e : SExpr) (x : TSym) : Prop := ∃ s ∈ e.tsyms, s.base = x.base ∧ s.asm = x.asm

/-- specification: the name contains `lambda__`, as those the program invents do -/
def LambdaNamed (x : TSym) : Prop := ∃ a b, x.base = a ++ "lambda__".toList ++ b

namespace LSm
open DTT

theorem gen_iff (x : TSym) : isGenerated x = true ↔ LambdaNamed x := by
  unfold isGenerated LambdaNamed
  rw [decide_eq_true_eq]
  constructor
  · rintro ⟨a, b, h⟩; exact ⟨a, b, h.symm⟩
  · rintro ⟨a, b, h⟩; exact ⟨a, b, h.symm⟩

/-- the keys of the expanded dictionary are the multiplier at the four dates -/
theorem expand_keys (x : TSym) (rhs : SExpr) :
    expandSubsAllTimes [(x, rhs)] = [(.tv { x with idx := .t (-1) }, rhs.setDate (.t (-1))), (.tv { x with idx := .t 0 }, rhs.setDate (.t 0)),
      (.tv { x with idx := .t 1 }, rhs.setDate (.t 1)), (.tv { x with idx := .ss }, rhs.setDate .ss)] := by
  obtain ⟨b, i, a⟩ := x
  simp [expandSubsAllTimes, dset]

theorem setDate_syms (rhs : SExpr) (i : TIdx) (s : Sym) (hs : s ∈ (rhs.setDate i).syms) :
    (∃ y : TSym, rhs = .sym (.tv y) ∧ s = .tv { y with idx := i }) ∨ (rhs.setDate i = rhs ∧ s ∈ rhs.syms) := by
  cases rhs with
  | sym r => cases r with
    | tv y =>
      simp only [SExpr.setDate, SExpr.syms, List.mem_singleton] at hs
      exact .inl ⟨y, rfl, hs⟩
    | par n => exact .inr ⟨rfl, hs⟩
  | _ => exact .inr ⟨rfl, hs⟩

/-- what a step does -/
theorem step_ok {solve : Solver} {st st' : Elim} {x : TSym} (h : elimStep solve st x = some st') :
    st' = st ∨ ∃ e ∈ st.equations, x ∈ e.tsyms ∧ ∃ rhs, solve e x = some rhs ∧
      st' = ⟨st.equations.map fun e => e.subsSeq (expandSubsAllTimes [(x, rhs)]), st.eliminated ++ [(x, rhs)]⟩ := by
  unfold elimStep at h
  split at h
  · cases h; exact .inl rfl
  · rename_i e he
    split at h
    · cases h
    · rename_i rhs hr
      cases h
      have := List.mem_filter.mp (List.mem_of_find?_eq_some he)
      exact .inr ⟨e, this.1, by simpa using this.2, rhs, hr, rfl⟩

theorem fold_prefix {solve : Solver} : ∀ (order : List TSym) {st st' : Elim}, order.foldlM (elimStep solve) st = some st' →
    ∃ new, st'.eliminated = st.eliminated ++ new
  | [], st, st', h => by simp only [List.foldlM_nil] at h; cases h; exact ⟨[], by simp⟩
  | x :: order, st, st', h => by
    rw [List.foldlM_cons] at h
    cases h1 : elimStep solve st x with
    | none => rw [h1] at h; cases h
    | some st1 =>
      rw [h1] at h
      obtain ⟨new, hn⟩ := fold_prefix order (show order.foldlM (elimStep solve) st1 = some st' from h)
      rcases step_ok h1 with rfl | ⟨e, _, _, rhs, _, rfl⟩
      · exact ⟨new, hn⟩
      · exact ⟨(x, rhs) :: new, by rw [hn]; simp⟩

/-- solutions, with their steady state, survive -/
theorem fold_kept {solve : Solver} (hs : solve.Sound) (P : RealPath) : ∀ (order : List TSym) {st st' : Elim},
    order.foldlM (elimStep solve) st = some st' → (∀ q ∈ st'.eliminated, DirectElimination q) → P.Solves st.equations → P.Solves st'.equations
  | [], st, st', h, _, hP => by simp only [List.foldlM_nil] at h; cases h; exact hP
  | x :: order, st, st', h, hd, hP => by
    rw [List.foldlM_cons] at h
    cases h1 : elimStep solve st x with
    | none => rw [h1] at h; cases h
    | some st1 =>
      rw [h1] at h
      have h2 : order.foldlM (elimStep solve) st1 = some st' := h
      refine fold_kept hs P order h2 hd ?_
      rcases step_ok h1 with rfl | ⟨e, he, _, rhs, hr, rfl⟩
      · exact hP
      · obtain ⟨new, hn⟩ := fold_prefix order h2
        obtain ⟨⟨k, hk⟩, hdir⟩ := hd (x, rhs) (by rw [hn]; simp)
        have hh : Smp.Holds P x rhs := fun t => ⟨hs e x rhs hr P t ((hP e he).1 t), hs e x rhs hr P.atRest t ((hP e he).2 t)⟩
        intro q hq
        obtain ⟨w, hw, rfl⟩ := List.mem_map.mp hq
        refine ⟨fun t => ?_, fun t => ?_⟩
        · exact (subsSeq_same_value P.val t w _ fun p hp => Smp.expand_val P x k hk rhs hdir hh p hp t).trans ((hP w hw).1 t)
        · exact (subsSeq_same_value P.atRest.val t w _ fun p hp =>
            Smp.expand_val P.atRest x k hk rhs hdir (Smp.holds_rest hh) p hp t).trans ((hP w hw).2 t)

/-- the symbols after one elimination -/
theorem subs_syms {x : TSym} {rhs : SExpr} (hd : DirectElimination (x, rhs)) (hx : Sym.tv x ∉ rhs.syms) (e : SExpr) (s : Sym)
    (hs : s ∈ (e.subsSeq (expandSubsAllTimes [(x, rhs)])).syms) :
    (s ∈ e.syms ∧ ∀ i, NearDate i → s ≠ .tv { x with idx := i }) ∨
    (∃ i, NearDate i ∧ ∃ y : TSym, rhs = .sym (.tv y) ∧ s = .tv { y with idx := i } ∧ ¬ (y.base = x.base ∧ y.asm = x.asm)) ∨
    (s ∈ rhs.syms ∧ rhs.tsyms = []) := by
  obtain ⟨_, hdir⟩ := hd
  have hy : ∀ y : TSym, rhs = .sym (.tv y) → ¬ (y.base = x.base ∧ y.asm = x.asm) := by
    intro y hy hxy
    rcases hdir with h0 | ⟨y', hy', hi⟩
    · subst hy; simp [SExpr.tsyms, SExpr.syms] at h0
    · have hyy : y = y' := by rw [hy] at hy'; cases hy'; rfl
      subst hyy
      apply hx
      have : y = x := by obtain ⟨yb, yi, ya⟩ := y; obtain ⟨xb, xi, xa⟩ := x; simp_all
      rw [hy, this]
      simp [SExpr.syms]
  have hval : ∀ p ∈ expandSubsAllTimes [(x, rhs)], ∀ s ∈ p.2.syms,
      (∃ i, NearDate i ∧ ∃ y : TSym, rhs = .sym (.tv y) ∧ s = .tv { y with idx := i } ∧ ¬ (y.base = x.base ∧ y.asm = x.asm)) ∨
      (s ∈ rhs.syms ∧ rhs.tsyms = []) := by
    have one : ∀ i, NearDate i → ∀ s ∈ (rhs.setDate i).syms,
        (∃ i, NearDate i ∧ ∃ y : TSym, rhs = .sym (.tv y) ∧ s = .tv { y with idx := i } ∧ ¬ (y.base = x.base ∧ y.asm = x.asm)) ∨
        (s ∈ rhs.syms ∧ rhs.tsyms = []) := by
      intro i hi s hs
      rcases setDate_syms rhs i s hs with ⟨y, hr, h⟩ | ⟨hsame, h⟩
      · exact .inl ⟨i, hi, y, hr, h, hy y hr⟩
      · rcases hdir with h0 | ⟨y, hr, _⟩
        · exact .inr ⟨h, h0⟩
        · subst hr
          simp only [SExpr.syms, List.mem_singleton] at h
          subst h
          have hyi : ({ y with idx := i } : TSym) = y := by simpa [SExpr.setDate] using hsame
          exact .inl ⟨i, hi, y, rfl, by rw [hyi], hy y rfl⟩
    intro p hp s hs
    rw [expand_keys] at hp
    simp only [List.mem_cons, List.not_mem_nil, or_false] at hp
    rcases hp with rfl | rfl | rfl | rfl
    · exact one _ (.inl rfl) s hs
    · exact one _ (.inr (.inl rfl)) s hs
    · exact one _ (.inr (.inr (.inl rfl))) s hs
    · exact one _ (.inr (.inr (.inr rfl))) s hs
  have hkeys : ∀ k ∈ (expandSubsAllTimes [(x, rhs)]).map Prod.fst, ∃ i, NearDate i ∧ k = .tv { x with idx := i } := by
    intro k hk
    rw [expand_keys] at hk
    simp only [List.map_cons, List.map_nil, List.mem_cons, List.not_mem_nil, or_false] at hk
    rcases hk with rfl | rfl | rfl | rfl
    · exact ⟨_, .inl rfl, rfl⟩
    · exact ⟨_, .inr (.inl rfl), rfl⟩
    · exact ⟨_, .inr (.inr (.inl rfl)), rfl⟩
    · exact ⟨_, .inr (.inr (.inr rfl)), rfl⟩
  have hkeys' : ∀ i, NearDate i → Sym.tv { x with idx := i } ∈ (expandSubsAllTimes [(x, rhs)]).map Prod.fst := by
    intro i hi
    rw [expand_keys]
    rcases hi with rfl | rfl | rfl | rfl <;> simp
  have hnd : ((expandSubsAllTimes [(x, rhs)]).map Prod.fst).Nodup := by
    rw [expand_keys]
    simp
  have hdis : ∀ p ∈ expandSubsAllTimes [(x, rhs)], ∀ k ∈ (expandSubsAllTimes [(x, rhs)]).map Prod.fst, k ∉ p.2.syms := by
    intro p hp k hk hks
    obtain ⟨i, _, rfl⟩ := hkeys k hk
    rcases hval p hp _ hks with ⟨j, _, y, _, he, hne⟩ | ⟨hm, h0⟩
    · have := Sym.tv.inj he
      exact hne ⟨(congrArg TSym.base this).symm, (congrArg TSym.asm this).symm⟩
    · have := mem_tsyms.mpr hm
      rw [h0] at this
      cases this
  rcases (Cls.syms_subsSeq_iff _ e s hnd hdis).mp hs with ⟨h1, h2⟩ | ⟨p, hp, _, h2⟩
  · refine .inl ⟨h1, fun i hi he => h2 ?_⟩
    rw [he]
    exact hkeys' i hi
  · exact .inr (hval p hp s h2)

/-- generated multipliers stand at near dates -/
def GenNear (eqs : List SExpr) : Prop := ∀ e ∈ eqs, ∀ s ∈ e.tsyms, isGenerated s = true → NearDate s.idx

theorem near_step {x : TSym} {rhs : SExpr} (hd : DirectElimination (x, rhs)) (hx : Sym.tv x ∉ rhs.syms) {eqs : List SExpr} (hn : GenNear eqs) :
    GenNear (eqs.map fun e => e.subsSeq (expandSubsAllTimes [(x, rhs)])) := by
  intro e' he' s hs hg
  obtain ⟨e, he, rfl⟩ := List.mem_map.mp he'
  rcases subs_syms hd hx e (.tv s) (mem_tsyms.mp hs) with ⟨h1, _⟩ | ⟨i, hi, y, _, hsy, _⟩ | ⟨h1, h0⟩
  · exact hn e he s (mem_tsyms.mpr h1) hg
  · cases hsy; exact hi
  · have := mem_tsyms.mpr h1
    rw [h0] at this
    cases this

/-- after the elimination the multiplier is gone -/
theorem gone_step {x : TSym} {rhs : SExpr} (hd : DirectElimination (x, rhs)) (hx : Sym.tv x ∉ rhs.syms) (hg : isGenerated x = true) {eqs : List SExpr}
    (hn : GenNear eqs) : ∀ e ∈ eqs.map fun e => e.subsSeq (expandSubsAllTimes [(x, rhs)]), ¬ HasVar e x := by
  rintro e' he' ⟨s, hs, hb, ha⟩
  obtain ⟨e, he, rfl⟩ := List.mem_map.mp he'
  rcases subs_syms hd hx e (.tv s) (mem_tsyms.mp hs) with ⟨h1, h2⟩ | ⟨i, hi, y, _, hsy, hne⟩ | ⟨h1, h0⟩
  · have hgs : isGenerated s = true := by unfold isGenerated at hg ⊢; rw [hb]; exact hg
    refine h2 s.idx (hn e he s (mem_tsyms.mpr h1) hgs) ?_
    obtain ⟨sb, si, sa⟩ := s; obtain ⟨xb, xi, xa⟩ := x; simp_all
  · cases hsy; exact hne ⟨hb, ha⟩
  · have := mem_tsyms.mpr h1
    rw [h0] at this
    cases this

/-- the value of an equation without the variables that differ -/
theorem val_off {P Q : RealPath} {xs : List TSym} (h : P.AgreeOff Q xs) (e : SExpr) (hno : ∀ x ∈ xs, ¬ HasVar e x) (t : Int) : e.val P t = e.val Q t :=
  Rdc.val_congr P Q t t e fun s hs => Rdc.agree_symAt h t s fun v hv x hx hh => hno x hx ⟨v, mem_tsyms.mpr (hv ▸ hs), hh.1, hh.2⟩

theorem agree_refl (P : RealPath) (xs : List TSym) : P.AgreeOff P xs := ⟨rfl, fun _ _ _ => ⟨rfl, rfl⟩⟩

theorem agree_trans {P Q S : RealPath} {xs ys : List TSym} (h : P.AgreeOff Q xs) (h' : Q.AgreeOff S ys) : P.AgreeOff S (xs ++ ys) := by
  refine ⟨h.1.trans h'.1, fun b a hb => ?_⟩
  have h1 := h.2 b a fun x hx => hb x (List.mem_append_left _ hx)
  have h2 := h'.2 b a fun x hx => hb x (List.mem_append_right _ hx)
  exact ⟨h1.1.trans h2.1, h1.2.trans h2.2⟩

theorem agree_mono {P Q : RealPath} {xs ys : List TSym} (h : P.AgreeOff Q xs) (hs : ∀ x ∈ xs, x ∈ ys) : P.AgreeOff Q ys :=
  ⟨h.1, fun b a hb => h.2 b a fun x hx => hb x (hs x hx)⟩

/-- the multiplier put back -/
noncomputable def putBack (Q : RealPath) (x : TSym) (k : Int) (rhs : SExpr) : RealPath where
  par := Q.par
  path := fun b a u => if b = x.base ∧ a = x.asm then rhs.val Q (u - k) else Q.path b a u
  ss := fun b a => if b = x.base ∧ a = x.asm then rhs.val Q.atRest 0 else Q.ss b a

theorem putBack_agree (Q : RealPath) (x : TSym) (k : Int) (rhs : SExpr) : (putBack Q x k rhs).AgreeOff Q [x] := by
  refine ⟨rfl, fun b a h => ?_⟩
  have : ¬ (b = x.base ∧ a = x.asm) := fun hh => h x (by simp) ⟨hh.1.symm, hh.2.symm⟩
  exact ⟨by funext u; simp [putBack, this], by simp [putBack, this]⟩

theorem putBack_holds (Q : RealPath) (x : TSym) (k : Int) (rhs : SExpr) (hk : x.idx = .t k)
    (hdir : rhs.tsyms = [] ∨ ∃ y : TSym, rhs = .sym (.tv y) ∧ y.idx = x.idx) (hno : ¬ HasVar rhs x) : Smp.Holds (putBack Q x k rhs) x rhs := by
  intro t
  have h1 : ∀ t, rhs.val (putBack Q x k rhs) t = rhs.val Q t := val_off (putBack_agree Q x k rhs) rhs (by simpa using hno)
  have h2 : ∀ t, rhs.val (putBack Q x k rhs).atRest t = rhs.val Q.atRest t :=
    val_off (Rdc.agree_rest (putBack_agree Q x k rhs)) rhs (by simpa using hno)
  rw [h1, h2]
  obtain ⟨xb, xi, xa⟩ := x
  simp only at hk
  subst hk
  constructor
  · simp [Valuation.symAt, RealPath.val, putBack]
  · have hc : rhs.val Q.atRest t = rhs.val Q.atRest 0 := by
      rcases hdir with h0 | ⟨y, rfl, hy⟩
      · exact val_const _ rhs h0 _ _
      · obtain ⟨yb, yi, ya⟩ := y
        simp only at hy
        subst hy
        rfl
    rw [hc]
    simp [Valuation.symAt, RealPath.val, RealPath.atRest, putBack]

theorem not_has_rhs {x : TSym} {rhs : SExpr} (hd : DirectElimination (x, rhs)) (hx : Sym.tv x ∉ rhs.syms) : ¬ HasVar rhs x := by
  rintro ⟨s, hs, hb, ha⟩
  rcases hd.2 with h0 | ⟨y, hr, hi⟩
  · simp only at h0; rw [h0] at hs; cases hs
  · simp only at hr hi
    subst hr
    have : s = y := by simpa [SExpr.tsyms, SExpr.syms] using hs
    subst this
    apply hx
    have : s = x := by obtain ⟨sb, si, sa⟩ := s; obtain ⟨xb, xi, xa⟩ := x; simp_all
    rw [this]
    simp [SExpr.syms]

/-- solutions of what is left extend to the whole, by giving the eliminated multipliers their values -/
theorem fold_extends {ops : SimpOps} (hl : ops.Lawful) : ∀ (order : List TSym) {st st' : Elim}, order.foldlM (elimStep ops.solve) st = some st' →
    (∀ x ∈ order, isGenerated x = true) → GenNear st.equations → (∀ q ∈ st'.eliminated, DirectElimination q) →
    ∀ Q : RealPath, (∀ e ∈ st'.equations, ∀ t, e.val Q t = 0) →
    ∃ R : RealPath, R.AgreeOff Q (st'.eliminated.map Prod.fst) ∧ (∀ e ∈ st.equations, ∀ t, e.val R t = 0) ∧
      ((∀ e ∈ st'.equations, ∀ t, e.val Q.atRest t = 0) → ∀ e ∈ st.equations, ∀ t, e.val R.atRest t = 0)
  | [], st, st', h, _, _, _, Q, hQ => by simp only [List.foldlM_nil] at h; cases h; exact ⟨Q, agree_refl Q _, hQ, id⟩
  | x :: order, st, st', h, hg, hn, hd, Q, hQ => by
    rw [List.foldlM_cons] at h
    cases h1 : elimStep ops.solve st x with
    | none => rw [h1] at h; cases h
    | some st1 =>
      rw [h1] at h
      have h2 : order.foldlM (elimStep ops.solve) st1 = some st' := h
      rcases step_ok h1 with rfl | ⟨e, he, hxe, rhs, hr, rfl⟩
      · exact fold_extends hl order h2 (fun y hy => hg y (by simp [hy])) hn hd Q hQ
      · obtain ⟨new, hnew⟩ := fold_prefix order h2
        have hmem : (x, rhs) ∈ st'.eliminated := by rw [hnew]; simp
        have hdx := hd (x, rhs) hmem
        have hx : Sym.tv x ∉ rhs.syms := fun hm => (hl.closed e x rhs hr _ hm).2 rfl
        obtain ⟨R1, ha, hR1, hR1r⟩ := fold_extends hl order h2 (fun y hy => hg y (by simp [hy])) (near_step hdx hx hn) hd Q hQ
        obtain ⟨k, hk⟩ := hdx.1
        have hh := putBack_holds R1 x k rhs hk hdx.2 (not_has_rhs hdx hx)
        refine ⟨putBack R1 x k rhs, ?_, ?_, ?_⟩
        · refine agree_mono (agree_trans (putBack_agree R1 x k rhs) ha) fun y hy => ?_
          rcases List.mem_append.mp hy with hy | hy
          · rw [List.mem_singleton] at hy; subst hy; exact List.mem_map.mpr ⟨_, hmem, rfl⟩
          · exact hy
        · intro w hw t
          have e1 : (w.subsSeq (expandSubsAllTimes [(x, rhs)])).val (putBack R1 x k rhs) t = w.val (putBack R1 x k rhs) t :=
            subsSeq_same_value _ t w _ fun p hp => Smp.expand_val _ x k hk rhs hdx.2 hh p hp t
          have hw' : w.subsSeq (expandSubsAllTimes [(x, rhs)]) ∈ st.equations.map fun e => e.subsSeq (expandSubsAllTimes [(x, rhs)]) :=
            List.mem_map.mpr ⟨w, hw, rfl⟩
          rw [← e1, val_off (putBack_agree R1 x k rhs) _ (by simpa using gone_step hdx hx (hg x (by simp)) hn _ hw')]
          exact hR1 _ hw' t
        · intro hQr w hw t
          have e1 : (w.subsSeq (expandSubsAllTimes [(x, rhs)])).val (putBack R1 x k rhs).atRest t = w.val (putBack R1 x k rhs).atRest t :=
            subsSeq_same_value _ t w _ fun p hp => Smp.expand_val _ x k hk rhs hdx.2 (Smp.holds_rest hh) p hp t
          have hw' : w.subsSeq (expandSubsAllTimes [(x, rhs)]) ∈ st.equations.map fun e => e.subsSeq (expandSubsAllTimes [(x, rhs)]) :=
            List.mem_map.mpr ⟨w, hw, rfl⟩
          rw [← e1, val_off (Rdc.agree_rest (putBack_agree R1 x k rhs)) _ (by simpa using gone_step hdx hx (hg x (by simp)) hn _ hw')]
          exact hR1r hQr _ hw' t

/-- nothing new is mentioned -/
theorem fold_mentions {ops : SimpOps} (hl : ops.Lawful) : ∀ (order : List TSym) {st st' : Elim}, order.foldlM (elimStep ops.solve) st = some st' →
    (∀ q ∈ st'.eliminated, DirectElimination q) →
    (∀ v, (∃ e ∈ st'.equations, HasVar e v) → ∃ e ∈ st.equations, HasVar e v) ∧
    ∀ q ∈ st'.eliminated, q ∈ st.eliminated ∨ q.1 ∈ order ∧ ∃ e ∈ st.equations, HasVar e q.1
  | [], st, st', h, _ => by simp only [List.foldlM_nil] at h; cases h; exact ⟨fun _ h => h, fun q hq => .inl hq⟩
  | x :: order, st, st', h, hd => by
    rw [List.foldlM_cons] at h
    cases h1 : elimStep ops.solve st x with
    | none => rw [h1] at h; cases h
    | some st1 =>
      rw [h1] at h
      have h2 : order.foldlM (elimStep ops.solve) st1 = some st' := h
      obtain ⟨ih1, ih2⟩ := fold_mentions hl order h2 hd
      rcases step_ok h1 with rfl | ⟨e, he, hxe, rhs, hr, rfl⟩
      · exact ⟨ih1, fun q hq => (ih2 q hq).imp id fun h => ⟨List.mem_cons_of_mem _ h.1, h.2⟩⟩
      · obtain ⟨new, hnew⟩ := fold_prefix order h2
        have hdx := hd (x, rhs) (by rw [hnew]; simp)
        have hx : Sym.tv x ∉ rhs.syms := fun hm => (hl.closed e x rhs hr _ hm).2 rfl
        have back : ∀ v, (∃ e' ∈ st.equations.map fun e => e.subsSeq (expandSubsAllTimes [(x, rhs)]), HasVar e' v) → ∃ e ∈ st.equations, HasVar e v := by
          rintro v ⟨e', he', s, hs, hb, ha⟩
          obtain ⟨w, hw, rfl⟩ := List.mem_map.mp he'
          rcases subs_syms hdx hx w (.tv s) (mem_tsyms.mp hs) with ⟨h3, _⟩ | ⟨i, _, y, hry, hsy, _⟩ | ⟨h3, h0⟩
          · exact ⟨w, hw, s, mem_tsyms.mpr h3, hb, ha⟩
          · cases hsy
            exact ⟨e, he, y, mem_tsyms.mpr (hl.closed e x rhs hr _ (by rw [hry]; simp [SExpr.syms])).1, hb, ha⟩
          · have := mem_tsyms.mpr h3
            rw [h0] at this
            cases this
        refine ⟨fun v hv => back v (ih1 v hv), fun q hq => ?_⟩
        rcases ih2 q hq with h3 | ⟨h3, h4⟩
        · rcases List.mem_append.mp h3 with h3 | h3
          · exact .inl h3
          · rw [List.mem_singleton] at h3
            subst h3
            exact .inr ⟨by simp, e, he, x, hxe, rfl, rfl⟩
        · exact .inr ⟨List.mem_cons_of_mem _ h3, back _ h4⟩

/-! ### one block -/

theorem simp_ok {ops : SimpOps} {eqs : List SExpr} {s : Elim} (h : simplifyEquations ops eqs = some s) :
    ∃ s0, (ops.ord (((eqs.map ops.norm).flatMap SExpr.tsyms).filter isGenerated).eraseDups).foldlM (elimStep ops.solve) ⟨eqs.map ops.norm, []⟩ = some s0 ∧
      s.equations = (s0.equations.map ops.norm).filter (fun e => decide (e ≠ .num 0)) ∧ s.eliminated = s0.eliminated := by
  unfold simplifyEquations at h
  simp only at h
  split at h
  · cases h
  · rename_i s0 h0
    cases h
    exact ⟨s0, h0, rfl, rfl⟩

theorem norm_zero {ops : SimpOps} (hl : ops.Lawful) (P : RealPath) (eqs : List SExpr) :
    (∀ e ∈ eqs.map ops.norm, ∀ t, e.val P t = 0) ↔ ∀ e ∈ eqs, ∀ t, e.val P t = 0 := by
  constructor
  · intro h e he t; rw [← hl.values]; exact h _ (List.mem_map.mpr ⟨e, he, rfl⟩) t
  · intro h e he t
    obtain ⟨w, hw, rfl⟩ := List.mem_map.mp he
    rw [hl.values]; exact h w hw t

theorem drop_zero (P : RealPath) (eqs : List SExpr) :
    (∀ e ∈ eqs.filter fun e => decide (e ≠ .num 0), ∀ t, e.val P t = 0) ↔ ∀ e ∈ eqs, ∀ t, e.val P t = 0 := by
  constructor
  · intro h e he t
    by_cases h0 : e = .num 0
    · subst h0; simp [SExpr.val, SExpr.at, RealPath.val]
    · exact h e (List.mem_filter.mpr ⟨he, by simpa using h0⟩) t
  · intro h e he; exact h e (List.mem_of_mem_filter he)

theorem solves_iff (P : RealPath) (eqs : List SExpr) :
    P.Solves eqs ↔ (∀ e ∈ eqs, ∀ t, e.val P t = 0) ∧ ∀ e ∈ eqs, ∀ t, e.val P.atRest t = 0 :=
  ⟨fun h => ⟨fun e he => (h e he).1, fun e he => (h e he).2⟩, fun h e he => ⟨h.1 e he, h.2 e he⟩⟩

theorem norm_has {ops : SimpOps} (hl : ops.Lawful) {e : SExpr} {v : TSym} (h : HasVar (ops.norm e) v) : HasVar e v := by
  obtain ⟨s, hs, h⟩ := h
  exact ⟨s, mem_tsyms.mpr (hl.symbols e _ (mem_tsyms.mp hs)), h⟩

theorem block_kept {ops : SimpOps} (hl : ops.Lawful) {eqs : List SExpr} {s : Elim} (h : simplifyEquations ops eqs = some s)
    (hd : ∀ q ∈ s.eliminated, DirectElimination q) (P : RealPath) (hP : P.Solves eqs) : P.Solves s.equations := by
  obtain ⟨s0, h0, he, hel⟩ := simp_ok h
  rw [hel] at hd
  rw [solves_iff] at hP
  have h1 : P.Solves s0.equations := fold_kept hl.sound P _ h0 hd ((solves_iff _ _).mpr ⟨(norm_zero hl P eqs).mpr hP.1, (norm_zero hl P.atRest eqs).mpr hP.2⟩)
  rw [solves_iff] at h1
  rw [he, solves_iff, drop_zero, drop_zero, norm_zero hl, norm_zero hl]
  exact h1

theorem block_extends {ops : SimpOps} (hl : ops.Lawful) {eqs : List SExpr} {s : Elim} (h : simplifyEquations ops eqs = some s)
    (hd : ∀ q ∈ s.eliminated, DirectElimination q) (hn : GenNear eqs) (Q : RealPath) (hQ : ∀ e ∈ s.equations, ∀ t, e.val Q t = 0) :
    ∃ R : RealPath, R.AgreeOff Q (s.eliminated.map Prod.fst) ∧ (∀ e ∈ eqs, ∀ t, e.val R t = 0) ∧
      ((∀ e ∈ s.equations, ∀ t, e.val Q.atRest t = 0) → ∀ e ∈ eqs, ∀ t, e.val R.atRest t = 0) := by
  obtain ⟨s0, h0, he, hel⟩ := simp_ok h
  rw [hel] at hd ⊢
  rw [he, drop_zero, norm_zero hl] at hQ
  have hg : ∀ x ∈ ops.ord (((eqs.map ops.norm).flatMap SExpr.tsyms).filter isGenerated).eraseDups, isGenerated x = true := by
    intro x hx
    have := (hl.order _ _).mp hx
    rw [List.mem_eraseDups] at this
    exact (List.mem_filter.mp this).2
  have hn' : GenNear (eqs.map ops.norm) := by
    intro e he s hs hg
    obtain ⟨w, hw, rfl⟩ := List.mem_map.mp he
    exact hn w hw s (mem_tsyms.mpr (hl.symbols w _ (mem_tsyms.mp hs))) hg
  obtain ⟨R, hR, h1, h2⟩ := fold_extends hl _ h0 hg hn' hd Q hQ
  refine ⟨R, hR, (norm_zero hl R eqs).mp h1, fun hQr => (norm_zero hl R.atRest eqs).mp (h2 ?_)⟩
  rw [he, drop_zero, norm_zero hl] at hQr
  exact hQr

theorem block_mentions {ops : SimpOps} (hl : ops.Lawful) {eqs : List SExpr} {s : Elim} (h : simplifyEquations ops eqs = some s)
    (hd : ∀ q ∈ s.eliminated, DirectElimination q) :
    (∀ v, (∃ e ∈ s.equations, HasVar e v) → ∃ e ∈ eqs, HasVar e v) ∧
    ∀ q ∈ s.eliminated, isGenerated q.1 = true ∧ ∃ e ∈ eqs, HasVar e q.1 := by
  obtain ⟨s0, h0, he, hel⟩ := simp_ok h
  rw [hel] at hd ⊢
  obtain ⟨h1, h2⟩ := fold_mentions hl _ h0 hd
  have back : ∀ v, (∃ e ∈ eqs.map ops.norm, HasVar e v) → ∃ e ∈ eqs, HasVar e v := by
    rintro v ⟨e, he, hv⟩
    obtain ⟨w, hw, rfl⟩ := List.mem_map.mp he
    exact ⟨w, hw, norm_has hl hv⟩
  constructor
  · rintro v ⟨e, hm, hv⟩
    rw [he] at hm
    obtain ⟨w, hw, rfl⟩ := List.mem_map.mp (List.mem_of_mem_filter hm)
    exact back v (h1 v ⟨w, hw, norm_has hl hv⟩)
  · intro q hq
    rcases h2 q hq with h3 | ⟨h3, h4⟩
    · cases h3
    · have := (hl.order _ _).mp h3
      rw [List.mem_eraseDups] at this
      exact ⟨(List.mem_filter.mp this).2, back _ h4⟩

/-- how a block built with simplification compares with the block built without -/
def Simplifies (ops : SimpOps) (r : BuiltS) (p : Built) : Prop :=
  r.built.block.name = p.block.name ∧ r.built.dicts = p.dicts ∧ r.built.block.shocks = p.block.shocks ∧
  (r.built = p ∧ r.eliminated = [] ∨ simplifyEquations ops p.equations = some ⟨r.built.equations, r.eliminated⟩) ∧
  (∀ x ∈ r.built.variables, x ∈ p.variables) ∧
  ∀ x ∈ p.variables, x ∈ r.built.variables ∨ ∃ q ∈ r.eliminated, q.1.base = x.base ∧ q.1.asm = x.asm

theorem clear_mem {el : List (TSym × SExpr)} {ms : List (Nat × Option TSym)} {x : TSym} (h : x ∈ (clearMultipliers el ms).filterMap Prod.snd) :
    x ∈ ms.filterMap Prod.snd := by
  obtain ⟨p, hp, hx⟩ := List.mem_filterMap.mp h
  obtain ⟨⟨j, o⟩, hq, rfl⟩ := List.mem_map.mp hp
  refine List.mem_filterMap.mpr ⟨_, hq, ?_⟩
  cases o with
  | none => simp at hx
  | some v =>
    simp only at hx
    split at hx
    · cases hx
    · exact hx

theorem clear_lost {el : List (TSym × SExpr)} {ms : List (Nat × Option TSym)} {x : TSym} (h : x ∈ ms.filterMap Prod.snd) :
    x ∈ (clearMultipliers el ms).filterMap Prod.snd ∨ ∃ q ∈ el, q.1.base = x.base ∧ q.1.asm = x.asm := by
  obtain ⟨⟨j, o⟩, hp, hx⟩ := List.mem_filterMap.mp h
  simp only at hx
  subst hx
  by_cases hc : (el.any fun q => [TIdx.t (-1), .t 0, .t 1, .ss].any fun i => decide (x = { q.1 with idx := i })) = true
  · right
    obtain ⟨q, hq, hi⟩ := List.any_eq_true.mp hc
    obtain ⟨i, _, hi⟩ := List.any_eq_true.mp hi
    have hi := of_decide_eq_true hi
    exact ⟨q, hq, by rw [hi], by rw [hi]⟩
  · left
    refine List.mem_filterMap.mpr ⟨(j, some x), ?_, rfl⟩
    unfold clearMultipliers
    refine List.mem_map.mpr ⟨(j, some x), hp, ?_⟩
    simp only
    rw [if_neg hc]

theorem varlist_mem {B : Block} {prev : List TSym} {ms ms' : List (Nat × Option TSym)} {vs vs' : List TSym} {bad : TSym → Prop}
    (h : B.variableList prev ms = some vs) (h' : B.variableList prev ms' = some vs')
    (hm : ∀ x ∈ ms.filterMap Prod.snd, x ∈ ms'.filterMap Prod.snd ∨ bad x) : ∀ x ∈ vs, x ∈ vs' ∨ bad x := by
  unfold Block.variableList at h h'
  split at h
  · rename_i flat hf
    simp only [hf] at h'
    cases h; cases h'
    intro x hx
    rw [Ldr.mem_sortByName, List.mem_filter] at hx ⊢
    obtain ⟨hx, hs⟩ := hx
    rcases List.mem_append.mp hx with hx | hx
    · exact .inl ⟨List.mem_append_left _ hx, hs⟩
    · rcases hm x hx with h | h
      · exact .inl ⟨List.mem_append_right _ h, hs⟩
      · exact .inr h
  · cases h

theorem varlist_isSome {B : Block} {prev : List TSym} {ms ms' : List (Nat × Option TSym)} {vs : List TSym}
    (h : B.variableList prev ms = some vs) : ∃ vs', B.variableList prev ms' = some vs' := by
  unfold Block.variableList at h ⊢
  split at h
  · rename_i flat hf
    simp only [hf]
    exact ⟨_, rfl⟩
  · cases h

/-- a block built with simplification -/
theorem build_simp {ops asm ss b r} (h : constructBlockS ops asm ss b = .ok r) : ∃ p, constructBlock asm ss b = .ok p ∧ Simplifies ops r p := by
  unfold constructBlockS at h
  unfold constructBlock
  cases h1 : astBlockToBlock asm (expandBlock b) with
  | error e => rw [h1] at h; cases h
  | ok B0 =>
    simp only [h1] at h ⊢
    cases h2 : B0.validate with
    | error e => simp only [h2] at h; cases h
    | ok u =>
      simp only [h2] at h ⊢
      cases h3 : B0.consolidate with
      | error e => simp only [h3] at h; cases h
      | ok B =>
        simp only [h3] at h ⊢
        cases h4 : B.variableList [] B.multipliers with
        | none => simp only [h4] at h; cases h
        | some vs0 =>
          simp only [h4] at h ⊢
          cases h5 : B.paramDicts ss with
          | error e => simp only [h5] at h; cases h
          | ok d =>
            simp only [h5] at h ⊢
            cases h6 : B.solve with
            | error e => simp only [h6] at h; cases h
            | ok s =>
              simp only [h6] at h ⊢
              cases h7 : B.controls with
              | none =>
                simp only [h7] at h ⊢; cases h
                exact ⟨_, rfl, rfl, rfl, rfl, .inl ⟨rfl, rfl⟩, fun x hx => hx, fun x hx => .inl hx⟩
              | some cs =>
                simp only [h7] at h ⊢
                cases h8 : simplifyEquations ops s.equations with
                | none => simp only [h8] at h; cases h
                | some el =>
                  simp only [h8] at h
                  cases h9 : B.variableList vs0 (clearMultipliers el.eliminated s.multipliers) with
                  | none => simp only [h9] at h; cases h
                  | some vs =>
                    simp only [h9] at h
                    cases h
                    obtain ⟨vs', hv⟩ := varlist_isSome (ms' := s.multipliers) h9
                    simp only [hv]
                    refine ⟨_, rfl, rfl, rfl, rfl, .inr h8, ?_, ?_⟩
                    · intro x hx
                      rcases varlist_mem (bad := fun _ => False) h9 hv (fun x hx => .inl (clear_mem hx)) x hx with h | h
                      · exact h
                      · exact h.elim
                    · exact varlist_mem hv h9 fun x hx => clear_lost hx

/-! ### the dictionary of blocks -/

def RelBd (ops : SimpOps) (a : List (Str × BuiltS)) (b : List (Str × Built)) : Prop :=
  List.Forall₂ (fun p q => p.1 = q.1 ∧ Simplifies ops p.2 q.2) a b

theorem rel_dset {ops : SimpOps} {n : Str} {r : BuiltS} {p : Built} (h : Simplifies ops r p) {a : List (Str × BuiltS)} {b : List (Str × Built)}
    (hab : RelBd ops a b) : RelBd ops (dset a n r) (dset b n p) := by
  unfold RelBd at *
  induction hab with
  | nil => simpa [dset] using h
  | @cons x y xs ys hxy hr ih =>
    simp only [dset]
    by_cases hx : x.1 = n
    · rw [if_pos hx, if_pos (hxy.1 ▸ hx)]
      exact .cons ⟨hxy.1, h⟩ hr
    · rw [if_neg hx, if_neg (hxy.1 ▸ hx)]
      exact .cons hxy ih

theorem loop_simp {ops asm ss} : ∀ (bs : List Blk) (acc : List (Str × BuiltS)) (acc' : List (Str × Built)) (bd : List (Str × BuiltS)),
    blockDictLoopS ops asm ss bs acc = .ok bd → RelBd ops acc acc' → ∃ bd', blockDictLoop asm ss bs acc' = .ok bd' ∧ RelBd ops bd bd'
  | [], acc, acc', bd, h, hr => by simp only [blockDictLoopS] at h; cases h; exact ⟨acc', rfl, hr⟩
  | b :: bs, acc, acc', bd, h, hr => by
    simp only [blockDictLoopS] at h
    simp only [blockDictLoop]
    split at h
    · rename_i hs
      rw [if_pos hs]
      exact loop_simp bs acc acc' bd h hr
    · rename_i hs
      rw [if_neg hs]
      cases hb : constructBlockS ops asm ss b with
      | error e => rw [hb] at h; cases h
      | ok r =>
        rw [hb] at h
        obtain ⟨p, hp, hrp⟩ := build_simp hb
        rw [hp]
        exact loop_simp bs _ _ bd h (by rw [hrp.1]; exact rel_dset hrp hr)

theorem rel_map {ops : SimpOps} {α : Type} (f : Built → α) (hf : ∀ r p, Simplifies ops r p → f r.built = f p) {a : List (Str × BuiltS)} {b : List (Str × Built)}
    (h : RelBd ops a b) : (a.map fun p => p.2.built).map f = (b.map Prod.snd).map f := by
  unfold RelBd at h
  induction h with
  | nil => rfl
  | cons hxy _ ih => simp only [List.map_cons, ih, hf _ _ hxy.2]

/-- loading with simplification succeeds only where loading without does, with the same blocks up to simplification -/
theorem load_simp {ops : SimpOps} {m : Mdl} {P' : Primitives} {el : List (TSym × SExpr)} (h : loadModelS ops m = .ok (P', el)) :
    ∃ P bd, loadModel m = .ok P ∧ RelBd ops bd P.blocks ∧ P'.param = P.param ∧ P'.calib = P.calib ∧ P'.determ = P.determ ∧ P'.shocks = P.shocks ∧
      P'.ss = P.ss ∧ P'.equations = bd.flatMap (fun p => p.2.built.equations) ∧ el = bd.flatMap (fun p => p.2.eliminated) ∧
      P'.variables = (mergeVariables (bd.map fun p => (p.2.built.variables, p.2.built.block.shocks.getD []))).1 ∧
      P.variables = (mergeVariables (P.blocks.map fun p => (p.2.variables, p.2.block.shocks.getD []))).1 ∧
      P.equations = P.blocks.flatMap (fun p => p.2.equations) ∧ P'.blocks = bd.map fun p => (p.1, p.2.built) := by
  unfold loadModelS at h
  unfold loadModel
  cases h1 : extractSS m.assumptions m with
  | error e => rw [h1] at h; cases h
  | ok ss =>
    simp only [h1, loadRestS] at h
    simp only [loadRest]
    cases h2 : blockDictLoopS ops m.assumptions (ssSymbols ss) m.blocks [] with
    | error e => simp only [h2] at h; cases h
    | ok bd =>
      simp only [h2] at h
      obtain ⟨bd', hbd, hr⟩ := loop_simp m.blocks [] [] bd h2 .nil
      simp only [hbd]
      rw [rel_map (fun b => b.dicts.param) (fun r p hrp => by rw [hrp.2.1]) hr, rel_map (fun b => b.dicts.calib) (fun r p hrp => by rw [hrp.2.1]) hr,
        rel_map (fun b => b.dicts.determ) (fun r p hrp => by rw [hrp.2.1]) hr] at h
      have hsh : (mergeVariables ((bd.map fun p => p.2.built).map fun b => (b.variables, b.block.shocks.getD []))).2 =
          (mergeVariables ((bd'.map Prod.snd).map fun b => (b.variables, b.block.shocks.getD []))).2 := by
        have := rel_map (fun b => b.block.shocks.getD []) (fun r p hrp => by rw [hrp.2.2.1]) hr
        have this : ((bd.map fun p => p.2.built).map fun b => (b.variables, b.block.shocks.getD [])).map Prod.snd =
          ((bd'.map Prod.snd).map fun b => (b.variables, b.block.shocks.getD [])).map Prod.snd := by simpa [List.map_map, Function.comp_def] using this
        simp only [mergeVariables]
        rw [List.flatMap_def, List.flatMap_def, this]
      cases h3 : mergeParams ((bd'.map Prod.snd).map fun b => b.dicts.param) with
      | error e => rw [h3] at h; cases h
      | ok p1 =>
        rw [h3] at h
        cases h4 : mergeParams ((bd'.map Prod.snd).map fun b => b.dicts.calib) with
        | error e => simp only [h4] at h; cases h
        | ok p2 =>
          simp only [h4] at h
          cases h5 : mergeParams ((bd'.map Prod.snd).map fun b => b.dicts.determ) with
          | error e => simp only [h5] at h; cases h
          | ok p3 =>
            simp only [h5] at h
            cases h
            refine ⟨_, bd, rfl, hr, rfl, rfl, rfl, hsh, rfl, ?_, rfl, ?_, ?_, ?_, rfl⟩
            · simp only [List.flatMap_def, List.map_map, Function.comp_def]
            · simp only [List.map_map, Function.comp_def]
            · simp only [List.map_map, Function.comp_def]
            · simp only [List.flatMap_def, List.map_map, Function.comp_def]

theorem eliminated_order {solve : Solver} : ∀ (order : List TSym) {st st' : Elim}, order.foldlM (elimStep solve) st = some st' →
    ∀ q ∈ st'.eliminated, q ∈ st.eliminated ∨ q.1 ∈ order
  | [], st, st', h, q, hq => by simp only [List.foldlM_nil] at h; cases h; exact .inl hq
  | x :: order, st, st', h, q, hq => by
    rw [List.foldlM_cons] at h
    cases h1 : elimStep solve st x with
    | none => rw [h1] at h; cases h
    | some st1 =>
      rw [h1] at h
      rcases eliminated_order order (show order.foldlM (elimStep solve) st1 = some st' from h) q hq with h3 | h3
      · rcases step_ok h1 with rfl | ⟨e, _, _, rhs, _, rfl⟩
        · exact .inl h3
        · rcases List.mem_append.mp h3 with h3 | h3
          · exact .inl h3
          · rw [List.mem_singleton] at h3; subst h3; exact .inr (by simp)
      · exact .inr (List.mem_cons_of_mem _ h3)

theorem simp_lambda {ops : SimpOps} (ho : ∀ l x, x ∈ ops.ord l ↔ x ∈ l) {eqs : List SExpr} {s : Elim} (h : simplifyEquations ops eqs = some s) :
    ∀ q ∈ s.eliminated, isGenerated q.1 = true := by
  obtain ⟨s0, h0, _, hel⟩ := simp_ok h
  intro q hq
  rw [hel] at hq
  rcases eliminated_order _ h0 q hq with h3 | h3
  · cases h3
  · have := (ho _ _).mp h3
    rw [List.mem_eraseDups] at this
    exact (List.mem_filter.mp this).2

theorem rel_left {ops : SimpOps} {a : List (Str × BuiltS)} {b : List (Str × Built)} (h : RelBd ops a b) :
    ∀ p ∈ a, ∃ q ∈ b, Simplifies ops p.2 q.2 := by
  unfold RelBd at h
  induction h with
  | nil => intro p hp; cases hp
  | @cons x y xs ys hxy _ ih =>
    intro p hp
    rcases List.mem_cons.mp hp with rfl | hp
    · exact ⟨y, by simp, hxy.2⟩
    · obtain ⟨q, hq, h⟩ := ih p hp; exact ⟨q, by simp [hq], h⟩

theorem rel_right {ops : SimpOps} {a : List (Str × BuiltS)} {b : List (Str × Built)} (h : RelBd ops a b) :
    ∀ q ∈ b, ∃ p ∈ a, Simplifies ops p.2 q.2 := by
  unfold RelBd at h
  induction h with
  | nil => intro p hp; cases hp
  | @cons x y xs ys hxy _ ih =>
    intro q hq
    rcases List.mem_cons.mp hq with rfl | hq
    · exact ⟨x, by simp, hxy.2⟩
    · obtain ⟨p, hp, h⟩ := ih q hq; exact ⟨p, by simp [hp], h⟩

theorem load_inv {ops : SimpOps} {text : List Char} {P P' : Primitives} {el : List (TSym × SExpr)} (hl : Gcn.LoadGcn text P)
    (hs : Gcn.LoadGcnFile ops text P' el) : ∃ m, loadModel m = .ok P ∧ loadModelS ops m = .ok (P', el) := by
  obtain ⟨m, hp, h⟩ := hl
  obtain ⟨m', hp', h'⟩ := hs
  cases C107_unique text m m' hp hp'
  exact ⟨_, h, h'⟩

/-- a block's part of the extension -/
theorem part_extends {ops : SimpOps} (hl : ops.Lawful) {r : BuiltS} {p : Built} (h : Simplifies ops r p) (hd : ∀ q ∈ r.eliminated, DirectElimination q)
    (hn : GenNear p.equations) (Q : RealPath) (hQ : ∀ e ∈ r.built.equations, ∀ t, e.val Q t = 0) :
    ∃ R : RealPath, R.AgreeOff Q (r.eliminated.map Prod.fst) ∧ (∀ e ∈ p.equations, ∀ t, e.val R t = 0) ∧
      ((∀ e ∈ r.built.equations, ∀ t, e.val Q.atRest t = 0) → ∀ e ∈ p.equations, ∀ t, e.val R.atRest t = 0) := by
  rcases h.2.2.2.1 with ⟨h1, _⟩ | h1
  · exact ⟨Q, agree_refl Q _, h1 ▸ hQ, h1 ▸ id⟩
  · exact block_extends hl h1 hd hn Q hQ

theorem part_mentions {ops : SimpOps} (hl : ops.Lawful) {r : BuiltS} {p : Built} (h : Simplifies ops r p) (hd : ∀ q ∈ r.eliminated, DirectElimination q) :
    (∀ v, (∃ e ∈ r.built.equations, HasVar e v) → ∃ e ∈ p.equations, HasVar e v) ∧
    ∀ q ∈ r.eliminated, isGenerated q.1 = true ∧ ∃ e ∈ p.equations, HasVar e q.1 := by
  rcases h.2.2.2.1 with ⟨h1, h2⟩ | h1
  · rw [h1, h2]; exact ⟨fun _ h => h, fun q hq => by cases hq⟩
  · exact block_mentions hl h1 hd

/-- no generated multiplier stands in both blocks -/
def Apart (p q : List SExpr) : Prop := ∀ v : TSym, isGenerated v = true → ¬ ((∃ e ∈ p, HasVar e v) ∧ ∃ e ∈ q, HasVar e v)

theorem has_same {e : SExpr} {v w : TSym} (h : HasVar e v) (hb : v.base = w.base) (ha : v.asm = w.asm) : HasVar e w := by
  obtain ⟨s, hs, h1, h2⟩ := h; exact ⟨s, hs, h1.trans hb, h2.trans ha⟩

theorem all_extends {ops : SimpOps} (hl : ops.Lawful) {a : List (Str × BuiltS)} {b : List (Str × Built)} (h : RelBd ops a b) :
    (∀ p ∈ a, ∀ q ∈ p.2.eliminated, DirectElimination q) → (∀ p ∈ b, GenNear p.2.equations) →
    b.Pairwise (fun p q => Apart p.2.equations q.2.equations) →
    ∀ Q : RealPath, (∀ p ∈ a, ∀ e ∈ p.2.built.equations, ∀ t, e.val Q t = 0) →
    ∃ R : RealPath, R.AgreeOff Q ((a.flatMap fun p => p.2.eliminated).map Prod.fst) ∧ (∀ p ∈ b, ∀ e ∈ p.2.equations, ∀ t, e.val R t = 0) ∧
      ((∀ p ∈ a, ∀ e ∈ p.2.built.equations, ∀ t, e.val Q.atRest t = 0) → ∀ p ∈ b, ∀ e ∈ p.2.equations, ∀ t, e.val R.atRest t = 0) := by
  unfold RelBd at h
  induction h with
  | nil => exact fun _ _ _ Q _ => ⟨Q, agree_refl Q _, (fun p hp => nomatch hp), (fun _ p hp => nomatch hp)⟩
  | @cons x y xs ys hxy hr ih =>
    intro hd hn hsep Q hQ
    obtain ⟨hsep1, hsep2⟩ := List.pairwise_cons.mp hsep
    obtain ⟨R1, ha1, h1, h1r⟩ := ih (fun p hp => hd p (by simp [hp])) (fun p hp => hn p (by simp [hp])) hsep2 Q (fun p hp => hQ p (by simp [hp]))
    have hm := part_mentions hl hxy.2 (hd x (by simp))
    -- the equations of the first block do not have the other blocks' multipliers
    have hoff : ∀ e ∈ x.2.built.equations, ∀ z ∈ (xs.flatMap fun p => p.2.eliminated).map Prod.fst, ¬ HasVar e z := by
      intro e he z hz hh
      obtain ⟨q, hq, rfl⟩ := List.mem_map.mp hz
      obtain ⟨p, hp, hq⟩ := List.mem_flatMap.mp hq
      obtain ⟨w, hw, hpw⟩ := rel_left hr p hp
      obtain ⟨hg, hmen⟩ := (part_mentions hl hpw (hd p (by simp [hp]))).2 q hq
      exact hsep1 w hw q.1 hg ⟨hm.1 q.1 ⟨e, he, hh⟩, hmen⟩
    obtain ⟨R, ha, h2, h2r⟩ := part_extends hl hxy.2 (hd x (by simp)) (hn y (by simp)) R1 fun e he t => by
      rw [val_off ha1 e (hoff e he) t]; exact hQ x (by simp) e he t
    have hoff2 : ∀ p ∈ ys, ∀ e ∈ p.2.equations, ∀ z ∈ x.2.eliminated.map Prod.fst, ¬ HasVar e z := by
      intro p hp e he z hz hh
      obtain ⟨q, hq, rfl⟩ := List.mem_map.mp hz
      obtain ⟨hg, hmen⟩ := hm.2 q hq
      exact hsep1 p hp q.1 hg ⟨hmen, e, he, hh⟩
    refine ⟨R, ?_, ?_, ?_⟩
    · refine agree_mono (agree_trans ha ha1) fun z hz => ?_
      rw [List.flatMap_cons, List.map_append]
      exact hz
    · intro p hp e he t
      rcases List.mem_cons.mp hp with rfl | hp
      · exact h2 e he t
      · rw [val_off ha e (hoff2 p hp e he) t]; exact h1 p hp e he t
    · intro hQr p hp e he t
      rcases List.mem_cons.mp hp with rfl | hp
      · refine h2r (fun e he t => ?_) e he t
        rw [val_off (Rdc.agree_rest ha1) e (hoff e he) t]; exact hQr x (by simp) e he t
      · rw [val_off (Rdc.agree_rest ha) e (hoff2 p hp e he) t]
        exact h1r (fun p hp => hQr p (by simp [hp])) p hp e he t

end LSm

/-- **C125**: what loading by default, with simplified blocks, has in common with loading without: it succeeds only where the latter does, the
parameters, calibrated and deterministic parameters, shocks and steady-state values are the same, and the only variables missing are eliminated ones,
whose names contain `lambda__` -/
theorem C125_same_calibration (ops : SimpOps) (ho : ∀ l x, x ∈ ops.ord l ↔ x ∈ l) (text : List Char) (P' : Primitives) (el : List (TSym × SExpr))
    (h : Gcn.LoadGcnFile ops text P' el) :
    ∃ P, Gcn.LoadGcn text P ∧ P'.param = P.param ∧ P'.calib = P.calib ∧ P'.determ = P.determ ∧ P'.shocks = P.shocks ∧ P'.ss = P.ss ∧
      (∀ x ∈ P'.variables, x ∈ P.variables) ∧
      (∀ x ∈ P.variables, x ∉ P'.variables → ∃ q ∈ el, q.1.base = x.base ∧ q.1.asm = x.asm) ∧ ∀ q ∈ el, LambdaNamed q.1 := by
  obtain ⟨m, hp, h⟩ := h
  obtain ⟨P, bd, h1, hr, e1, e2, e3, e4, e5, _, e7, e8, e9, _⟩ := LSm.load_simp h
  obtain ⟨_, _, _, _, _, _, _, hmv, _, _⟩ := Ldr.load_ok h1
  have hsh : ∀ x, x ∈ P.shocks ↔ x ∈ (mergeVariables (P.blocks.map fun p => (p.2.variables, p.2.block.shocks.getD []))).2 := by
    intro x
    have := congrArg Prod.snd hmv
    simp only [List.map_map, Function.comp_def] at this
    rw [this]
  have hsh' : ∀ x, x ∈ (mergeVariables (bd.map fun p => (p.2.built.variables, p.2.built.block.shocks.getD []))).2 ↔ x ∈ P.shocks := by
    intro x
    rw [hsh, (C52_merge _ x).1, (C52_merge _ x).1]
    constructor
    · rintro ⟨b, hb, y, hy, rfl⟩
      obtain ⟨p, hpm, rfl⟩ := List.mem_map.mp hb
      obtain ⟨q, hq, hs⟩ := LSm.rel_left hr p hpm
      exact ⟨_, List.mem_map.mpr ⟨q, hq, rfl⟩, y, by simpa [hs.2.2.1] using hy, rfl⟩
    · rintro ⟨b, hb, y, hy, rfl⟩
      obtain ⟨p, hpm, rfl⟩ := List.mem_map.mp hb
      obtain ⟨q, hq, hs⟩ := LSm.rel_right hr p hpm
      exact ⟨_, List.mem_map.mpr ⟨q, hq, rfl⟩, y, by simpa [hs.2.2.1] using hy, rfl⟩
  refine ⟨P, ⟨m, hp, h1⟩, e1, e2, e3, e4, e5, ?_, ?_, ?_⟩
  · intro x hx
    rw [e8, (C52_merge _ x).2.1, hsh'] at hx
    rw [e9, (C52_merge _ x).2.1, ← hsh]
    refine ⟨?_, hx.2⟩
    obtain ⟨b, hb, y, hy, rfl⟩ := hx.1
    obtain ⟨p, hpm, rfl⟩ := List.mem_map.mp hb
    obtain ⟨q, hq, hs⟩ := LSm.rel_left hr p hpm
    exact ⟨_, List.mem_map.mpr ⟨q, hq, rfl⟩, y, hs.2.2.2.2.1 y hy, rfl⟩
  · intro x hx hno
    rw [e9, (C52_merge _ x).2.1, ← hsh] at hx
    obtain ⟨b, hb, y, hy, rfl⟩ := hx.1
    obtain ⟨p, hpm, rfl⟩ := List.mem_map.mp hb
    obtain ⟨q, hq, hs⟩ := LSm.rel_right hr p hpm
    rcases hs.2.2.2.2.2 y hy with h3 | ⟨w, hw, h3⟩
    · refine absurd ?_ hno
      rw [e8, (C52_merge _ _).2.1, hsh']
      exact ⟨⟨_, List.mem_map.mpr ⟨q, hq, rfl⟩, y, h3, rfl⟩, hx.2⟩
    · exact ⟨w, by rw [e7]; exact List.mem_flatMap.mpr ⟨q, hq, hw⟩, h3⟩
  · intro q hq
    rw [e7] at hq
    obtain ⟨p, hpm, hq⟩ := List.mem_flatMap.mp hq
    obtain ⟨w, _, hs⟩ := LSm.rel_left hr p hpm
    rw [← LSm.gen_iff]
    rcases hs.2.2.2.1 with ⟨_, h0⟩ | h0
    · rw [h0] at hq; cases hq
    · exact LSm.simp_lambda ho h0 q hq

/-- **C125**: every solution of the model loaded without simplification solves the model loaded by default, when the eliminations are of the announced
kind -/
theorem C125_kept (ops : SimpOps) (hops : ops.Lawful) (text : List Char) (P P' : Primitives) (el : List (TSym × SExpr)) (hl : Gcn.LoadGcn text P)
    (hs : Gcn.LoadGcnFile ops text P' el) (hd : ∀ q ∈ el, DirectElimination q) (R : RealPath) (hR : R.Solves P.equations) : R.Solves P'.equations := by
  obtain ⟨m, h0, h⟩ := LSm.load_inv hl hs
  obtain ⟨P1, bd, h1, hr, _, _, _, _, _, e6, e7, _, _, e10, _⟩ := LSm.load_simp h
  rw [h0] at h1
  cases h1
  intro e he
  rw [e6] at he
  obtain ⟨p, hp, he⟩ := List.mem_flatMap.mp he
  obtain ⟨q, hq, hsq⟩ := LSm.rel_left hr p hp
  have hq' : R.Solves q.2.equations := fun e he => hR e (by rw [e10]; exact List.mem_flatMap.mpr ⟨q, hq, he⟩)
  rcases hsq.2.2.2.1 with ⟨h2, _⟩ | h2
  · exact hq' e (h2 ▸ he)
  · exact LSm.block_kept hops h2 (fun w hw => hd w (by rw [e7]; exact List.mem_flatMap.mpr ⟨p, hp, hw⟩)) R hq' e he

/-- **C125**: every solution of the model loaded by default becomes a solution of the model loaded without simplification by giving the eliminated
multipliers suitable values, when the eliminations are of the announced kind, the generated multipliers stand at `t-1`, `t`, `t+1` or in steady state,
and none stands in two blocks. So does its steady state. -/
theorem C125_extends (ops : SimpOps) (hops : ops.Lawful) (text : List Char) (P P' : Primitives) (el : List (TSym × SExpr)) (hl : Gcn.LoadGcn text P)
    (hs : Gcn.LoadGcnFile ops text P' el) (hd : ∀ q ∈ el, DirectElimination q)
    (hnear : ∀ e ∈ P.equations, ∀ s ∈ e.tsyms, LambdaNamed s → NearDate s.idx)
    (hsep : P.blocks.Pairwise fun p q => ∀ v, LambdaNamed v → ¬ ((∃ e ∈ p.2.equations, HasVar e v) ∧ ∃ e ∈ q.2.equations, HasVar e v))
    (Q : RealPath) (hQ : ∀ e ∈ P'.equations, ∀ t, e.val Q t = 0) :
    ∃ R : RealPath, R.AgreeOff Q (el.map Prod.fst) ∧ (∀ e ∈ P.equations, ∀ t, e.val R t = 0) ∧
      ((∀ e ∈ P'.equations, ∀ t, e.val Q.atRest t = 0) → ∀ e ∈ P.equations, ∀ t, e.val R.atRest t = 0) := by
  obtain ⟨m, h0, h⟩ := LSm.load_inv hl hs
  obtain ⟨P1, bd, h1, hr, _, _, _, _, _, e6, e7, _, _, e10, _⟩ := LSm.load_simp h
  rw [h0] at h1
  cases h1
  obtain ⟨R, ha, h2, h3⟩ := LSm.all_extends hops hr
    (fun p hp q hq => hd q (by rw [e7]; exact List.mem_flatMap.mpr ⟨p, hp, hq⟩))
    (fun p hp e he s hs hg => hnear e (by rw [e10]; exact List.mem_flatMap.mpr ⟨p, hp, he⟩) s hs ((LSm.gen_iff s).mp hg))
    (hsep.imp fun h v hg => h v ((LSm.gen_iff v).mp hg)) Q
    (fun p hp e he => hQ e (by rw [e6]; exact List.mem_flatMap.mpr ⟨p, hp, he⟩))
  refine ⟨R, by rw [e7]; exact ha, ?_, ?_⟩
  · intro e he
    rw [e10] at he
    obtain ⟨p, hp, he⟩ := List.mem_flatMap.mp he
    exact h2 p hp e he
  · intro hQr e he
    rw [e10] at he
    obtain ⟨p, hp, he⟩ := List.mem_flatMap.mp he
    exact h3 (fun p hp e he => hQr e (by rw [e6]; exact List.mem_flatMap.mpr ⟨p, hp, he⟩)) p hp e he

/-- **C125**: from the text to the default model. For a file whose blocks are plain or state a Bellman problem, every solution of the model loaded by
default comes, with suitable values of the eliminated multipliers, from a path on which the written equations hold and the problems are stationary; and every
such path with a steady state of the same kind solves the model loaded by default. -/
theorem C125_file (ops : SimpOps) (hops : ops.Lawful) (text : List Char) (ts : List Tok) (m : Gcn.GFile) (P' : Primitives) (el : List (TSym × SExpr))
    (hs : SpellsToks text ts) (hf : Gcn.IsFile ts m) (hl : Gcn.LoadGcnFile ops text P' el) (hn : m.DistinctNames)
    (hblk : ∀ b, m.IsModelBlock b → b.Plain ∨ ∃ o V u β, b.Bellman o V u β) (hd : ∀ q ∈ el, DirectElimination q) :
    ∃ (P : Primitives) (ms : Gcn.GBlock → List (Str × Asm)), Gcn.LoadGcn text P ∧
      (∀ R : RealPath, m.DefinitionsHold R → m.DefinitionsHold R.atRest →
        (∀ b, m.IsModelBlock b → ∀ o V u β, b.Bellman o V u β → ∀ t, b.SmoothProblem m.assumptions R t ∧ b.SmoothProblem m.assumptions R.atRest t) →
        m.EquationsHold R → m.EquationsHold R.atRest →
        (∀ b, m.IsModelBlock b → ∀ o V u β, b.Bellman o V u β →
          b.Stationary m.assumptions o β (ms b) R ∧ b.Stationary m.assumptions o β (ms b) R.atRest) →
        R.Solves P'.equations) ∧
      ((∀ e ∈ P.equations, ∀ s ∈ e.tsyms, LambdaNamed s → NearDate s.idx) →
        (P.blocks.Pairwise fun p q => ∀ v, LambdaNamed v → ¬ ((∃ e ∈ p.2.equations, HasVar e v) ∧ ∃ e ∈ q.2.equations, HasVar e v)) →
        ∀ Q : RealPath, (∀ e ∈ P'.equations, ∀ t, e.val Q t = 0) →
          (∀ R : RealPath, R.AgreeOff Q (el.map Prod.fst) → m.DefinitionsHold R ∧
            ∀ b, m.IsModelBlock b → ∀ o V u β, b.Bellman o V u β → ∀ t, b.SmoothProblem m.assumptions R t) →
          ∃ R : RealPath, R.AgreeOff Q (el.map Prod.fst) ∧ m.EquationsHold R ∧
            ∀ b, m.IsModelBlock b → ∀ o V u β, b.Bellman o V u β → b.Stationary m.assumptions o β (ms b) R) := by
  obtain ⟨P, hP, _⟩ := C125_same_calibration ops hops.order text P' el hl
  obtain ⟨ms, _, h2⟩ := C112_solutions text ts m P hs hf hP hn hblk
  refine ⟨P, ms, hP, ?_, ?_⟩
  · intro R hdef hdefr hsm he her hst
    refine C125_kept ops hops text P P' el hP hl hd R ((LSm.solves_iff _ _).mpr ⟨?_, ?_⟩)
    · exact (h2 R hdef fun b hb o V u β hB t => (hsm b hb o V u β hB t).1).2 ⟨he, fun b hb o V u β hB => (hst b hb o V u β hB).1⟩
    · exact (h2 R.atRest hdefr fun b hb o V u β hB t => (hsm b hb o V u β hB t).2).2 ⟨her, fun b hb o V u β hB => (hst b hb o V u β hB).2⟩
  · intro hnear hsep Q hQ hreg
    obtain ⟨R, ha, hR, _⟩ := C125_extends ops hops text P P' el hP hl hd hnear hsep Q hQ
    obtain ⟨hdef, hsm⟩ := hreg R ha
    exact ⟨R, ha, (h2 R hdef hsm).1 hR⟩

/-! ## non-vacuity -/

namespace LSm

/-- an evaluation that drops zeros and ones and cancels `a - a` -/
def tidy : SExpr → SExpr
  | .add a b =>
    let a' := tidy a; let b' := tidy b
    if a' = .num 0 then b' else if b' = .num 0 then a' else if b' = .mul (.num (-1)) a' then .num 0 else .add a' b'
  | .mul a b =>
    let a' := tidy a; let b' := tidy b
    if a' = .num 0 ∨ b' = .num 0 then .num 0 else if a' = .num 1 then b' else if b' = .num 1 then a' else .mul a' b'
  | e => e

theorem val_add (P : RealPath) (t : Int) (a b : SExpr) : (SExpr.add a b).val P t = a.val P t + b.val P t := rfl
theorem val_mul (P : RealPath) (t : Int) (a b : SExpr) : (SExpr.mul a b).val P t = a.val P t * b.val P t := rfl
theorem val_num (P : RealPath) (t : Int) (q : Rat) : (SExpr.num q).val P t = (q : ℝ) := rfl

theorem tidy_val (P : RealPath) (t : Int) (e : SExpr) : (tidy e).val P t = e.val P t := by
  induction e with
  | add a b iha ihb =>
    simp only [tidy]
    rw [val_add, ← iha, ← ihb]
    split
    · rename_i h; rw [h, val_num]; simp
    · split
      · rename_i h; rw [h, val_num]; simp
      · split
        · rename_i h; rw [h, val_mul, val_num, val_num]; norm_num
        · rw [val_add]
  | mul a b iha ihb =>
    simp only [tidy]
    rw [val_mul, ← iha, ← ihb]
    split
    · rename_i h; rcases h with h | h <;> rw [h, val_num] <;> simp
    · split
      · rename_i h; rw [h, val_num]; simp
      · split
        · rename_i h; rw [h, val_num]; simp
        · rw [val_mul]
  | _ => rfl

theorem tidy_syms (e : SExpr) : ∀ s ∈ (tidy e).syms, s ∈ e.syms := by
  induction e with
  | add a b iha ihb =>
    intro s hs
    simp only [tidy] at hs
    simp only [SExpr.syms, List.mem_append]
    split at hs
    · exact .inr (ihb s hs)
    · split at hs
      · exact .inl (iha s hs)
      · split at hs
        · simp [SExpr.syms] at hs
        · simp only [SExpr.syms, List.mem_append] at hs
          exact hs.imp (iha s) (ihb s)
  | mul a b iha ihb =>
    intro s hs
    simp only [tidy] at hs
    simp only [SExpr.syms, List.mem_append]
    split at hs
    · simp [SExpr.syms] at hs
    · split at hs
      · exact .inr (ihb s hs)
      · split at hs
        · exact .inl (iha s hs)
        · simp only [SExpr.syms, List.mem_append] at hs
          exact hs.imp (iha s) (ihb s)
  | _ => exact fun s hs => hs

/-- a solver of `y[k] - x[k] = 0` for `x[k]` -/
def exSolve : Solver := fun e x =>
  match e with
  | .add (.sym (.tv y)) (.mul (.num q) (.sym (.tv z))) => if q = -1 ∧ z = x ∧ y ≠ x then some (.sym (.tv y)) else none
  | _ => none

def exOps : SimpOps := ⟨exSolve, tidy, id⟩

theorem exOps_lawful : exOps.Lawful where
  sound := by
    intro e x rhs h P t h0
    simp only [exOps, exSolve] at h
    split at h
    · split at h
      · rename_i hc
        obtain ⟨rfl, rfl, _⟩ := hc
        cases h
        simp only [val_add, val_mul, val_num] at h0
        push_cast at h0
        simp only [SExpr.val, SExpr.at] at h0 ⊢
        linarith
      · cases h
    · cases h
  closed := by
    intro e x rhs h s hs
    simp only [exOps, exSolve] at h
    split at h
    · split at h
      · rename_i hc
        cases h
        simp only [SExpr.syms, List.mem_singleton] at hs
        subst hs
        exact ⟨by simp [SExpr.syms], fun h => hc.2.2 (Sym.tv.inj h)⟩
      · cases h
    · cases h
  values := fun e P t => tidy_val P t e
  symbols := tidy_syms
  order := fun l x => Iff.rfl

/-- a block that chooses consumption at a price, with an unnamed multiplier -/
def exText : List Char :=
  "block H { controls { C[]; }; objective { U[] = w[] * C[] + beta * E[][U[1]]; }; constraints { C[] = y[]; }; };".toList
/-- the file the text stands for -/
def exFile : Gcn.GFile := { blocks := [
  { name := "H".toList
    controls := [⟨"C".toList, .t 0⟩]
    objective := [⟨.var "U".toList (.t 0), .bin .add (.bin .mul (.var "w".toList (.t 0)) (.var "C".toList (.t 0)))
      (.bin .mul (.par "beta".toList) (.expect (.var "U".toList (.t 1)))), none, none, []⟩]
    constraints := [⟨.var "C".toList (.t 0), .var "y".toList (.t 0), none, none, []⟩] }] }

/-- its tokens -/
def exToks : List Tok := [.id "block".toList, .id "H".toList, .lbrace, .id "controls".toList, .lbrace, .id "C".toList, .tix (.t 0), .semi, .rbrace, .semi,
  .id "objective".toList, .lbrace, .id "U".toList, .tix (.t 0), .eq, .id "w".toList, .tix (.t 0), .op .mul, .id "C".toList, .tix (.t 0), .op .add,
  .id "beta".toList, .op .mul, .expectOpen, .id "U".toList, .tix (.t 1), .rbr, .semi, .rbrace, .semi,
  .id "constraints".toList, .lbrace, .id "C".toList, .tix (.t 0), .eq, .id "y".toList, .tix (.t 0), .semi, .rbrace, .semi, .rbrace, .semi]

theorem exToks_eq : lexText exText = some exToks := by decide +kernel
theorem exFile_is : Gcn.IsFile exToks exFile := (C107_grammar _ _).1 ⟨40, rfl⟩
theorem ex_spells : SpellsToks exText exToks := (C106_reading _ _).1 exToks_eq
theorem ex_parse : Gcn.ParseGcn exText exFile := (C107_parse _ _).2 ⟨_, ex_spells, exFile_is⟩

def okS (r : Except LSErr (Primitives × List (TSym × SExpr))) : Option (Primitives × List (TSym × SExpr)) := match r with | .ok x => some x | .error _ => none

theorem okS_ok {r x} (h : okS r = some x) : r = .ok x := by cases r with | ok y => cases h; rfl | error e => cases h

theorem loadedS {α : Type} (m : Mdl) (f : Primitives × List (TSym × SExpr) → α) (v : α) (h : (okS (loadModelS exOps m)).map f = some v) :
    ∃ x, loadModelS exOps m = .ok x ∧ f x = v := by
  cases h1 : okS (loadModelS exOps m) with
  | none => rw [h1] at h; cases h
  | some x => rw [h1] at h; exact ⟨x, okS_ok h1, by simpa using h⟩

/-- `lambda__H_1[t]` and `w[t]` -/
def exLam : TSym := ⟨"lambda__H_1".toList, .t 0, mergeAssumptions none⟩
def exW : TSym := ⟨"w".toList, .t 0, mergeAssumptions none⟩

/-- the example loads by default, with one equation and one multiplier fewer -/
theorem ex_simplified : ∃ P' el, Gcn.LoadGcnFile exOps exText P' el ∧ P'.equations.length = 2 ∧ el = [(exLam, .sym (.tv exW))] ∧ exLam ∉ P'.variables := by
  obtain ⟨⟨P', el⟩, h1, h2⟩ := loadedS exFile.toMdl (fun x => (x.1.equations.length, x.2, decide (exLam ∈ x.1.variables)))
    (2, [(exLam, .sym (.tv exW))], false) (by decide +kernel)
  simp only [Prod.mk.injEq, decide_eq_false_iff_not] at h2
  exact ⟨P', el, ⟨exFile, ex_parse, h1⟩, h2.1, h2.2.1, h2.2.2⟩

/-- and without simplification: one block, its generated multiplier only at date `t` -/
theorem ex_whole : ∃ P, Gcn.LoadGcn exText P ∧ P.equations.length = 3 ∧ P.blocks.length = 1 ∧ exLam ∈ P.variables ∧
    (P.equations.all fun e => e.tsyms.all fun s => !isGenerated s || decide (s.idx = .t 0)) = true := by
  obtain ⟨P, h1, h2⟩ := Ldr.loaded exFile.toMdl (fun P => (P.equations.length, P.blocks.length, decide (exLam ∈ P.variables),
    P.equations.all fun e => e.tsyms.all fun s => !isGenerated s || decide (s.idx = .t 0))) (3, 1, true, true) (by decide +kernel)
  simp only [Prod.mk.injEq, decide_eq_true_eq] at h2
  exact ⟨P, ⟨exFile, ex_parse, h1⟩, h2.1, h2.2.1, h2.2.2.1, h2.2.2.2⟩

end LSm

open LSm in
/-- all hypotheses of `C125_kept` and `C125_extends` are met by a file whose first-order condition `w[t] - lambda__H_1[t] = 0` is eliminated -/
example : ∃ ops : SimpOps, ops.Lawful ∧ ∃ P P' el, Gcn.LoadGcn exText P ∧ Gcn.LoadGcnFile ops exText P' el ∧ (∀ q ∈ el, DirectElimination q) ∧
    (∀ e ∈ P.equations, ∀ s ∈ e.tsyms, LambdaNamed s → NearDate s.idx) ∧
    (P.blocks.Pairwise fun p q => ∀ v, LambdaNamed v → ¬ ((∃ e ∈ p.2.equations, HasVar e v) ∧ ∃ e ∈ q.2.equations, HasVar e v)) ∧
    P.equations.length = 3 ∧ P'.equations.length = 2 ∧ el.length = 1 ∧ exLam ∈ P.variables ∧ exLam ∉ P'.variables := by
  obtain ⟨P', el, h1, h2, rfl, h3⟩ := ex_simplified
  obtain ⟨P, g1, g2, g3, g4, g5⟩ := ex_whole
  refine ⟨exOps, exOps_lawful, P, P', _, g1, h1, ?_, ?_, ?_, g2, h2, rfl, g4, h3⟩
  · intro q hq
    rw [List.mem_singleton] at hq
    subst hq
    exact ⟨⟨0, rfl⟩, .inr ⟨exW, rfl, rfl⟩⟩
  · intro e he s hs hg
    have := List.all_eq_true.mp (List.all_eq_true.mp g5 e he) s hs
    rw [(gen_iff s).mpr hg] at this
    exact .inr (.inl (by simpa using this))
  · match hb : P.blocks, g3 with
    | [b], _ => simp

end GE
