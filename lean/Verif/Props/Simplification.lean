import Verif.Model.Simplification
import Verif.Props.SimplifyBlock
import Verif.Props.Primitives
/-! # C26, C27: eliminating variables from the system -/

namespace GE

/-! ## specification -/

/-- the variable occurs in the equation, at whatever date -/
def SExpr.Occurs (e : SExpr) (v : TSym) : Prop := ∃ s ∈ e.tsyms, s.base = v.base ∧ s.asm = v.asm

/-- only the dates the model uses after time-index expansion (C07) -/
def SExpr.Shallow (e : SExpr) : Prop := ∀ s ∈ e.tsyms, s.idx = .t (-1) ∨ s.idx = .t 0 ∨ s.idx = .t 1 ∨ s.idx = .ss

/-- the two paths differ at most in the variables `xs` -/
def RealPath.AgreeOff (P Q : RealPath) (xs : List TSym) : Prop :=
  P.par = Q.par ∧ ∀ b a, (∀ x ∈ xs, ¬ (x.base = b ∧ x.asm = a)) → P.path b a = Q.path b a ∧ P.ss b a = Q.ss b a

/-- whatever the other variables do, the equation can be met by a choice of `v` -/
def SolvableFor (e : SExpr) (v : TSym) : Prop := ∀ P : RealPath, ∃ Q : RealPath, P.AgreeOff Q [v] ∧ Q.Solves [e]

/-- along the path, and at rest, `x` has the value `rhs` -/
def RealPath.Defines (P : RealPath) (x : TSym) (rhs : SExpr) : Prop :=
  ∀ t, P.val.symAt t (.tv x) = rhs.val P t ∧ P.atRest.val.symAt t (.tv x) = rhs.val P.atRest t

/-- evaluation brings in no new symbols -/
def NoNewSymbols (norm : SExpr → SExpr) : Prop := ∀ e, ∀ s ∈ (norm e).syms, s ∈ e.syms

namespace Rdc
open DTT Ldr

theorem now_eq {s x : TSym} (hx : x.idx = .t 0) : TSym.now s = x ↔ s.base = x.base ∧ s.asm = x.asm := by
  obtain ⟨sb, si, sa⟩ := s
  obtain ⟨xb, xi, xa⟩ := x
  simp only at hx; subst hx
  simp [TSym.now]

theorem mentions_iff {e : SExpr} (h : e.Shallow) (v : TSym) : mentions e v = true ↔ e.Occurs v := by
  simp only [mentions, timeCombos, List.any_map, List.any_eq_true, Function.comp, List.contains_iff_mem]
  constructor
  · rintro ⟨i, _, hm⟩; exact ⟨_, hm, rfl, rfl⟩
  · rintro ⟨s, hs, h1, h2⟩
    refine ⟨s.idx, ?_, ?_⟩
    · rcases h s hs with h | h | h | h <;> simp [h]
    · have : ({ v with idx := s.idx } : TSym) = s := by
        obtain ⟨sb, si, sa⟩ := s; obtain ⟨vb, vi, va⟩ := v; simp_all
      rw [this]; exact hs

/-- the value depends on the symbols that occur only -/
theorem val_congr (P Q : RealPath) (t u : Int) (e : SExpr) (h : ∀ s ∈ e.syms, P.val.symAt t s = Q.val.symAt u s) :
    e.val P t = e.val Q u := by
  have := replace_at P.val Q.val t u e .sym ⟨rfl, rfl, rfl, rfl, rfl, rfl⟩ (fun s hs => h s hs)
  rw [replace_id] at this
  exact this

theorem agree_symAt {P Q : RealPath} {xs} (h : P.AgreeOff Q xs) (t : Int) (s : Sym)
    (hs : ∀ v, s = .tv v → ∀ x ∈ xs, ¬ (v.base = x.base ∧ v.asm = x.asm)) : P.val.symAt t s = Q.val.symAt t s := by
  cases s with
  | par n => exact congrFun h.1 n
  | tv v =>
    have := h.2 v.base v.asm (fun x hx hh => hs v rfl x hx ⟨hh.1.symm, hh.2.symm⟩)
    obtain ⟨vb, vi, va⟩ := v
    cases vi with
    | t k => exact congrFun this.1 _
    | ss => exact this.2

theorem agree_rest {P Q : RealPath} {xs} (h : P.AgreeOff Q xs) : P.atRest.AgreeOff Q.atRest xs := by
  refine ⟨h.1, fun b a hb => ?_⟩
  have := (h.2 b a hb).2
  exact ⟨by funext t; exact this, this⟩

theorem agree_val {P Q : RealPath} {xs} (h : P.AgreeOff Q xs) (e : SExpr) (he : ∀ x ∈ xs, ¬ e.Occurs x) (t : Int) :
    e.val P t = e.val Q t := by
  refine val_congr P Q t t e fun s hs => agree_symAt h t s ?_
  rintro v rfl x hx ⟨h1, h2⟩
  exact he x hx ⟨v, mem_tsyms.mpr hs, h1, h2⟩

theorem agree_solves {P Q : RealPath} {xs} (h : P.AgreeOff Q xs) (eqs : List SExpr) (he : ∀ e ∈ eqs, ∀ x ∈ xs, ¬ e.Occurs x)
    (hP : P.Solves eqs) : Q.Solves eqs := by
  intro e hm
  refine ⟨fun t => ?_, fun t => ?_⟩
  · rw [← agree_val h e (he e hm)]; exact (hP e hm).1 t
  · rw [← agree_val (agree_rest h) e (he e hm)]; exact (hP e hm).2 t

theorem agree_trans {P Q R : RealPath} {xs ys zs} (h : P.AgreeOff Q xs) (h' : Q.AgreeOff R ys) (h1 : ∀ x ∈ xs, x ∈ zs)
    (h2 : ∀ x ∈ ys, x ∈ zs) : P.AgreeOff R zs := by
  refine ⟨h.1.trans h'.1, fun b a hb => ?_⟩
  have a1 := h.2 b a fun x hx => hb x (h1 x hx)
  have a2 := h'.2 b a fun x hx => hb x (h2 x hx)
  exact ⟨a1.1.trans a2.1, a1.2.trans a2.2⟩

theorem agree_refl (P : RealPath) (xs) : P.AgreeOff P xs := ⟨rfl, fun _ _ _ => ⟨rfl, rfl⟩⟩

theorem solves_append {P : RealPath} {a b : List SExpr} : P.Solves (a ++ b) ↔ P.Solves a ∧ P.Solves b := by
  simp only [RealPath.Solves, List.mem_append]
  exact ⟨fun h => ⟨fun e he => h e (Or.inl he), fun e he => h e (Or.inr he)⟩,
    fun h e he => he.elim (h.1 e) (h.2 e)⟩

/-- equations solved for variables that occur nowhere else can always be added -/
theorem extend_list (keep : List SExpr) : ∀ (L : List (SExpr × TSym)),
    (L.Pairwise fun p q => ¬ p.1.Occurs q.2 ∧ ¬ q.1.Occurs p.2) → (∀ p ∈ L, SolvableFor p.1 p.2) →
    (∀ e ∈ keep, ∀ p ∈ L, ¬ e.Occurs p.2) → ∀ P : RealPath, P.Solves keep →
    ∃ Q : RealPath, P.AgreeOff Q (L.map Prod.snd) ∧ Q.Solves (keep ++ L.map Prod.fst)
  | [], _, _, _, P, hP => ⟨P, agree_refl P _, by simpa using hP⟩
  | p :: L, hpw, hs, hk, P, hP => by
    rw [List.pairwise_cons] at hpw
    obtain ⟨Q, h1, h2⟩ := extend_list keep L hpw.2 (fun q hq => hs q (List.mem_cons_of_mem _ hq))
      (fun e he q hq => hk e he q (List.mem_cons_of_mem _ hq)) P hP
    obtain ⟨R, h3, h4⟩ := hs p (List.mem_cons_self ..) Q
    refine ⟨R, agree_trans h1 h3 (by simp_all) (by simp), ?_⟩
    have hk2 : ∀ e ∈ keep ++ L.map Prod.fst, ∀ x ∈ [p.2], ¬ e.Occurs x := by
      intro e he x hx
      simp only [List.mem_singleton] at hx; subst hx
      rcases List.mem_append.mp he with he | he
      · exact hk e he p (List.mem_cons_self ..)
      · obtain ⟨q, hq, rfl⟩ := List.mem_map.mp he
        exact (hpw.1 q hq).2
    have h5 := agree_solves h3 _ hk2 h2
    intro e he
    simp only [List.map_cons, List.mem_append, List.mem_cons] at he
    rcases he with he | rfl | he
    · exact h5 e (List.mem_append_left _ he)
    · exact h4 _ (List.mem_singleton.mpr rfl)
    · exact h5 e (List.mem_append_right _ he)

/-- set a variable along the path and at rest -/
noncomputable def setVar (P : RealPath) (x : TSym) (f : Int → ℝ) (r : ℝ) : RealPath :=
  { P with
    path := fun b a t => if b = x.base ∧ a = x.asm then f t else P.path b a t
    ss := fun b a => if b = x.base ∧ a = x.asm then r else P.ss b a }

theorem setVar_agree (P : RealPath) (x : TSym) (f : Int → ℝ) (r : ℝ) : P.AgreeOff (setVar P x f r) [x] := by
  refine ⟨rfl, fun b a h => ?_⟩
  have h' : ¬ (b = x.base ∧ a = x.asm) := fun hh => h x (by simp) ⟨hh.1.symm, hh.2.symm⟩
  exact ⟨by funext t; simp [setVar, h'], by simp [setVar, h']⟩

theorem rest_const (P : RealPath) (e : SExpr) (t u : Int) : e.val P.atRest t = e.val P.atRest u := by
  refine val_congr P.atRest P.atRest t u e fun s _ => ?_
  cases s with
  | par n => rfl
  | tv v =>
    obtain ⟨vb, vi, va⟩ := v
    cases vi <;> rfl

/-- the path on which `x` is what `rhs` says -/
theorem define (P : RealPath) (x : TSym) (hx : x.idx = .t 0) (rhs : SExpr) (hr : ¬ rhs.Occurs x) :
    ∃ Q : RealPath, P.AgreeOff Q [x] ∧ Q.Defines x rhs := by
  refine ⟨setVar P x (fun t => rhs.val P t) (rhs.val P.atRest 0), setVar_agree .., fun t => ?_⟩
  have hag := setVar_agree P x (fun t => rhs.val P t) (rhs.val P.atRest 0)
  have hr' : ∀ y ∈ [x], ¬ rhs.Occurs y := by simpa using hr
  obtain ⟨xb, xi, xa⟩ := x
  simp only at hx; subst hx
  refine ⟨?_, ?_⟩
  · rw [← agree_val hag rhs hr' t]
    simp [Valuation.symAt, RealPath.val, setVar]
  · rw [← agree_val (agree_rest hag) rhs hr' t, rest_const P rhs t 0]
    simp [Valuation.symAt, RealPath.val, setVar, RealPath.atRest]

theorem subs1_val {P : RealPath} {t : Int} {x : TSym} {rhs : SExpr} (h : P.val.symAt t (.tv x) = rhs.val P t) (e : SExpr) :
    (e.subs1 (.tv x) rhs).val P t = e.val P t := by
  have := subsSeq_same_value P.val t e [(.tv x, rhs)] (by intro p hp; rw [List.mem_singleton] at hp; subst hp; exact h.symm)
  exact this

/-- one substitution keeps solutions on which the substituted variable has its value -/
theorem step_kept (simp : SExpr → SExpr) (hn : SameValues simp) (sub eqs x) (P : RealPath) (hP : P.Solves eqs)
    (hd : ∀ rhs, dget sub (.tv x) = some rhs → P.Defines x rhs) : P.Solves (tryreduceStep simp sub eqs x) := by
  unfold tryreduceStep
  split
  · exact hP
  · rename_i rhs hr
    dsimp only
    split
    · intro e he
      obtain ⟨w, hw, rfl⟩ := List.mem_map.mp (List.mem_filter.mp he).1
      have hd := hd rhs hr
      refine ⟨fun t => ?_, fun t => ?_⟩
      · rw [hn, subs1_val (hd t).1]; exact (hP w hw).1 t
      · rw [hn, subs1_val (hd t).2]; exact (hP w hw).2 t
    · exact hP

theorem step_shallow (simp : SExpr → SExpr) (hs : NoNewSymbols simp) (sub eqs x) (h : ∀ e ∈ eqs, e.Shallow)
    (hr : ∀ rhs, dget sub (.tv x) = some rhs → rhs.Shallow) : ∀ e ∈ tryreduceStep simp sub eqs x, e.Shallow := by
  unfold tryreduceStep
  split
  · exact h
  · rename_i rhs hrr
    dsimp only
    split
    · intro e he s hss
      obtain ⟨w, hw, rfl⟩ := List.mem_map.mp (List.mem_filter.mp he).1
      have h1 := hs _ _ (mem_tsyms.mp hss)
      rw [SExpr.subs1, syms_replace] at h1
      obtain ⟨q, hq, hq2⟩ := h1
      split at hq2
      · exact hr rhs hrr s (mem_tsyms.mpr hq2)
      · simp only [SExpr.syms, List.mem_singleton] at hq2
        subst hq2; exact h w hw s (mem_tsyms.mpr hq)
    · exact h

/-- a solution after an accepted substitution extends to one before it -/
theorem step_extend (simp : SExpr → SExpr) (hn : SameValues simp) (hs : NoNewSymbols simp) (sub eqs) (x : TSym) (hx : x.idx = .t 0)
    (h : ∀ e ∈ eqs, e.Shallow) (hr : ∀ rhs, dget sub (.tv x) = some rhs → rhs.Shallow ∧ ¬ rhs.Occurs x)
    (P : RealPath) (hP : P.Solves (tryreduceStep simp sub eqs x)) : ∃ Q : RealPath, P.AgreeOff Q [x] ∧ Q.Solves eqs := by
  unfold tryreduceStep at hP
  split at hP
  · exact ⟨P, agree_refl .., hP⟩
  · rename_i rhs hrr
    dsimp only at hP
    split at hP
    · rename_i hacc
      obtain ⟨hsh, hno⟩ := hr rhs hrr
      obtain ⟨Q, hag, hdef⟩ := define P x hx rhs hno
      refine ⟨Q, hag, fun e he => ?_⟩
      have hm : simp (e.subs1 (.tv x) rhs) ∈ eqs.map fun e => simp (e.subs1 (.tv x) rhs) := List.mem_map.mpr ⟨e, he, rfl⟩
      have hshal : (simp (e.subs1 (.tv x) rhs)).Shallow := by
        intro s hss
        have h1 := hs _ _ (mem_tsyms.mp hss)
        rw [SExpr.subs1, syms_replace] at h1
        obtain ⟨q, hq, hq2⟩ := h1
        split at hq2
        · exact hsh s (mem_tsyms.mpr hq2)
        · simp only [SExpr.syms, List.mem_singleton] at hq2
          subst hq2; exact h e he s (mem_tsyms.mpr hq)
      have habs : ∀ y ∈ [x], ¬ (simp (e.subs1 (.tv x) rhs)).Occurs y := by
        intro y hy; simp only [List.mem_singleton] at hy; subst hy
        intro ho
        refine hacc.2 (List.any_eq_true.mpr ⟨_, hm, (mentions_iff hshal y).mpr ho⟩)
      have hz : (∀ t, (simp (e.subs1 (.tv x) rhs)).val P t = 0) ∧ ∀ t, (simp (e.subs1 (.tv x) rhs)).val P.atRest t = 0 := by
        by_cases h0 : simp (e.subs1 (.tv x) rhs) = .num 0
        · rw [h0]; simp [SExpr.val, SExpr.at, RealPath.val]
        · exact hP _ (List.mem_filter.mpr ⟨hm, by simpa using h0⟩)
      refine ⟨fun t => ?_, fun t => ?_⟩
      · rw [← subs1_val (hdef t).1 e, ← hn, ← agree_val hag _ habs t]; exact hz.1 t
      · rw [← subs1_val (hdef t).2 e, ← hn, ← agree_val (agree_rest hag) _ habs t]; exact hz.2 t
    · exact ⟨P, agree_refl .., hP⟩

theorem fold_extend (simp : SExpr → SExpr) (hn : SameValues simp) (hs : NoNewSymbols simp) (sub) : ∀ (tr : List TSym)
    (_ : ∀ x ∈ tr, x.idx = .t 0) (eqs : List SExpr) (_ : ∀ e ∈ eqs, e.Shallow)
    (_ : ∀ x ∈ tr, ∀ rhs, dget sub (.tv x) = some rhs → rhs.Shallow ∧ ¬ rhs.Occurs x)
    (P : RealPath) (_ : P.Solves (tr.foldl (tryreduceStep simp sub) eqs)), ∃ Q : RealPath, P.AgreeOff Q tr ∧ Q.Solves eqs
  | [], _, eqs, _, _, P, hP => ⟨P, agree_refl .., hP⟩
  | x :: tr, hx, eqs, h, hr, P, hP => by
    rw [List.foldl_cons] at hP
    obtain ⟨Q, h1, h2⟩ := fold_extend simp hn hs sub tr (fun y hy => hx y (List.mem_cons_of_mem _ hy)) _
      (step_shallow simp hs sub eqs x h fun rhs hrr => (hr x (List.mem_cons_self ..) rhs hrr).1)
      (fun y hy => hr y (List.mem_cons_of_mem _ hy)) P hP
    obtain ⟨R, h3, h4⟩ := step_extend simp hn hs sub eqs x (hx x (List.mem_cons_self ..)) h (hr x (List.mem_cons_self ..)) Q h2
    exact ⟨R, agree_trans h1 h3 (fun y hy => List.mem_cons_of_mem _ hy) (by simp), h4⟩

theorem filter_one {p : SExpr → Bool} {eqs : List SExpr} (h : (eqs.filter p).length = 1) {a b : SExpr} (hs : [a, b].Sublist eqs) :
    ¬ (p a = true ∧ p b = true) := by
  rintro ⟨h1, h2⟩
  have := (hs.filter p).length_le
  simp [h1, h2] at this
  omega

theorem mem_isolated {eqs : List SExpr} {vars : List TSym} {v : TSym} :
    v ∈ isolatedVars eqs vars ↔ v ∈ vars ∧ (eqs.filter fun e => mentions e v).length = 1 := by
  simp [isolatedVars]

/-- equations dropped with isolated variables can be added again -/
theorem drop_extend (tr : List TSym) (eqs : List SExpr) (vars : List TSym) (h : ∀ e ∈ eqs, e.Shallow)
    (hsol : ∀ e ∈ eqs, ∀ v ∈ tr, v ∈ e.tsyms → v ∈ isolatedVars eqs vars → SolvableFor e v)
    (P : RealPath) (hP : P.Solves (dropIsolated tr eqs vars)) : ∃ Q : RealPath, P.AgreeOff Q tr ∧ Q.Solves eqs := by
  classical
  let iso := (isolatedVars eqs vars).filter fun v => v ∈ tr
  let gone := eqs.filter fun e => iso.any fun v => e.tsyms.contains v
  let pick : SExpr → TSym := fun e => (iso.find? fun v => e.tsyms.contains v).getD ⟨[], .ss, []⟩
  have hpick : ∀ e ∈ gone, pick e ∈ iso ∧ pick e ∈ e.tsyms := by
    intro e he
    have h1 := (List.mem_filter.mp he).2
    cases hf : iso.find? fun v => e.tsyms.contains v with
    | none =>
      rw [List.find?_eq_none] at hf
      obtain ⟨v, hv, hv2⟩ := List.any_eq_true.mp h1
      exact absurd hv2 (hf v hv)
    | some v =>
      have e1 : pick e = v := by simp only [pick, hf, Option.getD_some]
      rw [e1]
      exact ⟨List.mem_of_find?_eq_some hf, List.contains_iff_mem.mp (List.find?_some (p := fun v => e.tsyms.contains v) hf)⟩
  have hgs : gone.Sublist eqs := List.filter_sublist
  have hocc : ∀ e ∈ gone, mentions e (pick e) = true := fun e he =>
    (mentions_iff (h e (hgs.subset he)) _).mpr ⟨pick e, (hpick e he).2, rfl, rfl⟩
  have hiso : ∀ e ∈ gone, (eqs.filter fun q => mentions q (pick e)).length = 1 ∧ pick e ∈ tr ∧ pick e ∈ isolatedVars eqs vars := by
    intro e he
    have := List.mem_filter.mp (hpick e he).1
    exact ⟨(mem_isolated.mp this.1).2, by simpa using this.2, this.1⟩
  have hkeep : ∀ e ∈ dropIsolated tr eqs vars, ∀ q ∈ gone, ¬ e.Occurs (pick q) := by
    intro e he q hq ho
    have he' := List.mem_filter.mp he
    have hm : mentions e (pick q) = true := (mentions_iff (h e he'.1) _).mpr ho
    -- `e` and `q` both mention the isolated variable, so they are the same equation, which was dropped
    have hq' := List.mem_filter.mp hq
    have h1 : e ∈ eqs.filter fun w => mentions w (pick q) := List.mem_filter.mpr ⟨he'.1, hm⟩
    have h2 : q ∈ eqs.filter fun w => mentions w (pick q) := List.mem_filter.mpr ⟨hq'.1, hocc q hq⟩
    obtain ⟨w, hw⟩ := List.length_eq_one_iff.mp (hiso q hq).1
    rw [hw] at h1 h2
    have heq : e = q := (List.mem_singleton.mp h1).trans (List.mem_singleton.mp h2).symm
    subst heq
    have := he'.2
    simp only [decide_not, Bool.not_eq_true', decide_eq_false_iff_not] at this
    exact this hq'.2
  have hpw : (gone.map fun e => (e, pick e)).Pairwise fun p q => ¬ p.1.Occurs q.2 ∧ ¬ q.1.Occurs p.2 := by
    rw [List.pairwise_map, List.pairwise_iff_forall_sublist]
    intro a b hab
    have ha : a ∈ gone := hab.subset (by simp)
    have hb : b ∈ gone := hab.subset (by simp)
    have hab' := hab.trans hgs
    refine ⟨fun ho => ?_, fun ho => ?_⟩
    · exact filter_one (hiso b hb).1 hab' ⟨(mentions_iff (h a (hgs.subset ha)) _).mpr ho, hocc b hb⟩
    · exact filter_one (hiso a ha).1 hab' ⟨hocc a ha, (mentions_iff (h b (hgs.subset hb)) _).mpr ho⟩
  obtain ⟨Q, h1, h2⟩ := extend_list (dropIsolated tr eqs vars) (gone.map fun e => (e, pick e)) hpw
    (by
      intro p hp
      obtain ⟨e, he, rfl⟩ := List.mem_map.mp hp
      exact hsol e (hgs.subset he) _ (hiso e he).2.1 (hpick e he).2 (hiso e he).2.2)
    (by
      intro e he p hp
      obtain ⟨q, hq, rfl⟩ := List.mem_map.mp hp
      exact hkeep e he q hq) P hP
  refine ⟨Q, agree_trans h1 (agree_refl Q []) ?_ (by simp), fun e he => ?_⟩
  · intro x hx
    obtain ⟨p, hp, rfl⟩ := List.mem_map.mp hx
    obtain ⟨e, he, rfl⟩ := List.mem_map.mp hp
    exact (hiso e he).2.1
  · by_cases hg : (iso.any fun v => e.tsyms.contains v) = true
    · refine h2 e (List.mem_append_right _ (List.mem_map.mpr ⟨(e, pick e), List.mem_map.mpr ⟨e, List.mem_filter.mpr ⟨he, hg⟩, rfl⟩, rfl⟩))
    · exact h2 e (List.mem_append_left _ (List.mem_filter.mpr ⟨he, by simpa [iso] using hg⟩))

theorem mem_reduced (eqs : List SExpr) (vars : List TSym) (hv : ∀ v ∈ vars, v.idx = .t 0) (x : TSym) :
    (x ∈ (reduceVariableList eqs vars).1 ↔ x ∈ vars ∧ ∃ e ∈ eqs, e.Occurs x) ∧
    (x ∈ (reduceVariableList eqs vars).2 ↔ x ∈ vars ∧ ∀ e ∈ eqs, ¬ e.Occurs x) := by
  have key : x ∈ (reduceVariableList eqs vars).1 ↔ x ∈ vars ∧ ∃ e ∈ eqs, e.Occurs x := by
    simp only [reduceVariableList, mem_sortByName, List.mem_filter, List.mem_map, List.mem_flatMap, decide_eq_true_eq]
    constructor
    · rintro ⟨⟨s, ⟨e, he, hs⟩, hn⟩, hx⟩
      exact ⟨hx, e, he, s, hs, (now_eq (hv x hx)).mp hn⟩
    · rintro ⟨hx, e, he, s, hs, h⟩
      exact ⟨⟨s, ⟨e, he, hs⟩, (now_eq (hv x hx)).mpr h⟩, hx⟩
  refine ⟨key, ?_⟩
  have : x ∈ (reduceVariableList eqs vars).2 ↔ x ∈ vars ∧ x ∉ (reduceVariableList eqs vars).1 := by
    simp only [reduceVariableList, mem_sortByName, List.mem_filter, decide_eq_true_eq]
  rw [this, key]
  grind

end Rdc

open Rdc DTT Ldr

/-! ## C26 -/

/-- **C26**: a system that is not square is returned unchanged, with a warning. -/
theorem C26_not_square (simp tr eqs vars sub) (h : eqs.length ≠ vars.length) :
    simplifyTryreduce simp tr eqs vars sub = (eqs, vars, [], true) := by
  unfold simplifyTryreduce; rw [if_pos h]

/-- **C26**: of a square system, the variables that remain are exactly those that still occur (at any date), the eliminated ones exactly
those that occur at no date any more; both lists are sorted by name, without repetitions. -/
theorem C26_absent (simp tr eqs vars sub) (h : eqs.length = vars.length) (hv : ∀ v ∈ vars, v.idx = .t 0) :
    let r := simplifyTryreduce simp tr eqs vars sub
    (∀ x, x ∈ r.2.1 ↔ x ∈ vars ∧ ∃ e ∈ r.1, e.Occurs x) ∧
    (∀ x, x ∈ r.2.2.1 ↔ x ∈ vars ∧ ∀ e ∈ r.1, ¬ e.Occurs x) ∧
    r.2.1.Nodup ∧ r.2.2.1.Nodup ∧
    (r.2.1.Pairwise fun a b => strLe (createName a) (createName b) = true) ∧
    (r.2.2.1.Pairwise fun a b => strLe (createName a) (createName b) = true) := by
  intro r
  have hr : r = (tr.foldl (tryreduceStep simp sub) (dropIsolated tr eqs vars),
      (reduceVariableList (tr.foldl (tryreduceStep simp sub) (dropIsolated tr eqs vars)) vars).1,
      (reduceVariableList (tr.foldl (tryreduceStep simp sub) (dropIsolated tr eqs vars)) vars).2, false) := by
    simp only [r, simplifyTryreduce, if_neg (not_not.mpr h)]
  rw [hr]
  exact ⟨fun x => (mem_reduced _ vars hv x).1, fun x => (mem_reduced _ vars hv x).2, sortByName_nodup _, sortByName_nodup _,
    sortByName_sorted _, sortByName_sorted _⟩

/-- **C26**: without substitutions, an equation is removed exactly when it contains (at its own date) a requested variable which no other
equation mentions at any date; the others are kept, in order. -/
theorem C26_removed_equations (simp tr) (eqs : List SExpr) (vars) (h : eqs.length = vars.length) (hsh : ∀ e ∈ eqs, e.Shallow) :
    let r := simplifyTryreduce simp tr eqs vars []
    r.1.Sublist eqs ∧ ∀ e ∈ eqs, e ∉ r.1 ↔ ∃ v ∈ tr, v ∈ vars ∧ v ∈ e.tsyms ∧
      ∃ pre post, eqs = pre ++ e :: post ∧ ∀ q ∈ pre ++ post, ¬ q.Occurs v := by
  intro r
  have hfold : ∀ (l : List TSym) es, l.foldl (tryreduceStep simp []) es = es := by
    intro l
    induction l with
    | nil => intro es; rfl
    | cons a l ih => intro es; rw [List.foldl_cons]; exact ih es
  have hr : r.1 = dropIsolated tr eqs vars := by
    simp only [r, simplifyTryreduce, if_neg (not_not.mpr h), hfold]
  rw [hr]
  refine ⟨List.filter_sublist, fun e he => ?_⟩
  have h1 : e ∉ dropIsolated tr eqs vars ↔ ∃ v, (v ∈ isolatedVars eqs vars ∧ v ∈ tr) ∧ v ∈ e.tsyms := by
    simp only [dropIsolated, List.mem_filter, he, true_and, decide_not, Bool.not_eq_true', decide_eq_false_iff_not, not_not,
      List.any_eq_true, List.contains_iff_mem, decide_eq_true_eq]
  rw [h1]
  constructor
  · rintro ⟨v, ⟨h2, h3⟩, h4⟩
    obtain ⟨h5, h6⟩ := mem_isolated.mp h2
    refine ⟨v, h3, h5, h4, ?_⟩
    obtain ⟨pre, post, hpp⟩ := List.append_of_mem he
    refine ⟨pre, post, hpp, fun q hq ho => ?_⟩
    have hme : mentions e v = true := (mentions_iff (hsh e he) v).mpr ⟨v, h4, rfl, rfl⟩
    have hmq : mentions q v = true := (mentions_iff (hsh q (by rw [hpp]; simp at hq ⊢; tauto)) v).mpr ho
    rcases List.mem_append.mp hq with hq | hq
    · refine filter_one h6 (a := q) (b := e) ?_ ⟨hmq, hme⟩
      rw [hpp]
      exact (List.singleton_sublist.mpr hq).append (List.singleton_sublist.mpr (by simp))
    · refine filter_one h6 (a := e) (b := q) ?_ ⟨hme, hmq⟩
      rw [hpp]
      exact List.Sublist.trans (List.Sublist.cons_cons e (List.singleton_sublist.mpr hq)) (List.sublist_append_right ..)
  · rintro ⟨v, h3, h5, h4, pre, post, hpp, hq⟩
    refine ⟨v, ⟨mem_isolated.mpr ⟨h5, ?_⟩, h3⟩, h4⟩
    have hme : mentions e v = true := (mentions_iff (hsh e he) v).mpr ⟨v, h4, rfl, rfl⟩
    have hno : ∀ l : List SExpr, (∀ q ∈ l, q ∈ pre ++ post) → l.filter (fun e => mentions e v) = [] := by
      intro l hl
      rw [List.filter_eq_nil_iff]
      intro q hq2 hm
      refine hq q (hl q hq2) ((mentions_iff (hsh q ?_) v).mp hm)
      rw [hpp]; have := hl q hq2; simp at this ⊢; tauto
    rw [hpp, List.filter_append, List.filter_cons, if_pos hme, hno pre (fun q hq => List.mem_append_left _ hq),
      hno post (fun q hq => List.mem_append_right _ hq)]
    rfl

/-- **C26**: every solution of the original system solves the reduced one, provided the substitution used for a requested variable holds
on it (as it does when that equation is itself part of the system). -/
theorem C26_solutions_kept (simp : SExpr → SExpr) (hn : SameValues simp) (tr eqs vars sub) (P : RealPath) (hP : P.Solves eqs)
    (hsub : ∀ x ∈ tr, ∀ rhs, dget sub (.tv x) = some rhs → P.Defines x rhs) :
    P.Solves (simplifyTryreduce simp tr eqs vars sub).1 := by
  unfold simplifyTryreduce
  split
  · exact hP
  · dsimp only
    have h0 : P.Solves (dropIsolated tr eqs vars) := fun e he => hP e (List.mem_filter.mp he).1
    revert h0
    generalize dropIsolated tr eqs vars = es
    clear hP
    induction tr generalizing es with
    | nil => exact id
    | cons x tr ih =>
      intro h0
      rw [List.foldl_cons]
      exact ih (fun y hy => hsub y (List.mem_cons_of_mem _ hy)) _
        (step_kept simp hn sub es x P h0 (hsub x (List.mem_cons_self ..)))

/-- **C26**, the other direction: every solution of the reduced system becomes a solution of the original one by choosing only the requested
variables. Partial: each equation dropped with an isolated variable must be solvable for it, and the substituted expressions must not
contain their own variable; without the first the claim fails (`C26_unsolvable_violated`). -/
theorem C26_solutions_extend_partial (simp : SExpr → SExpr) (hn : SameValues simp) (hs : NoNewSymbols simp)
    (tr : List TSym) (htr : ∀ x ∈ tr, x.idx = .t 0) (eqs : List SExpr) (hsh : ∀ e ∈ eqs, e.Shallow) (vars : List TSym) (sub)
    (hsub : ∀ x ∈ tr, ∀ rhs, dget sub (.tv x) = some rhs → rhs.Shallow ∧ ¬ rhs.Occurs x)
    (hsol : ∀ e ∈ eqs, ∀ v ∈ tr, v ∈ e.tsyms → v ∈ isolatedVars eqs vars → SolvableFor e v)
    (P : RealPath) (hP : P.Solves (simplifyTryreduce simp tr eqs vars sub).1) :
    ∃ Q : RealPath, P.AgreeOff Q tr ∧ Q.Solves eqs := by
  unfold simplifyTryreduce at hP
  split at hP
  · exact ⟨P, agree_refl .., hP⟩
  · dsimp only at hP
    obtain ⟨Q, h1, h2⟩ := fold_extend simp hn hs sub tr htr (dropIsolated tr eqs vars)
      (fun e he => hsh e (List.mem_filter.mp he).1) hsub P hP
    obtain ⟨R, h3, h4⟩ := drop_extend tr eqs vars hsh hsol Q h2
    exact ⟨R, agree_trans h1 h3 (fun _ h => h) (fun _ h => h), h4⟩

/-- an equation `v = rhs` with `rhs` free of `v`, as the residual `rhs - v`, is solvable for `v` -/
theorem C26_definition_solvable (v : TSym) (hv : v.idx = .t 0) (rhs : SExpr) (hr : ¬ rhs.Occurs v) :
    SolvableFor (rhs.sub (.sym (.tv v))) v := by
  intro P
  obtain ⟨Q, h1, h2⟩ := define P v hv rhs hr
  refine ⟨Q, h1, fun e he => ?_⟩
  rw [List.mem_singleton] at he; subst he
  have key : ∀ (R : RealPath) t, R.val.symAt t (.tv v) = rhs.val R t → (rhs.sub (.sym (.tv v))).val R t = 0 := by
    intro R t h
    have : (rhs.sub (.sym (.tv v))).val R t = rhs.val R t + ((-1 : ℚ) : ℝ) * R.val.symAt t (.tv v) := rfl
    rw [this, h]; push_cast; ring
  exact ⟨fun t => key Q t (h2 t).1, fun t => key Q.atRest t (h2 t).2⟩

/-- **C26** no more equations disappear than variables: the system loses at most one equation for each variable to be reduced that only one
equation mentions, and at most one for each variable substituted by its definition. -/
theorem C26_at_most_one_each (simp tr eqs vars sub) (hv : ∀ v ∈ vars, v.idx = .t 0) :
    eqs.length ≤ (simplifyTryreduce simp tr eqs vars sub).1.length + (vars.filter fun v => v ∈ tr).length + tr.length := by
  unfold simplifyTryreduce
  split
  · dsimp only; omega
  · dsimp only
    have hfold : ∀ (l : List TSym) es, es.length ≤ (l.foldl (tryreduceStep simp sub) es).length + l.length := by
      intro l
      induction l with
      | nil => intro es; simp
      | cons x l ih =>
        intro es
        rw [List.foldl_cons]
        have h1 : es.length ≤ (tryreduceStep simp sub es x).length + 1 := by
          unfold tryreduceStep
          split
          · omega
          · rename_i rhs _
            dsimp only
            split
            · rename_i hc
              have := List.length_eq_length_filter_add (l := es.map fun e => simp (e.subs1 (.tv x) rhs)) (fun e => decide (e = SExpr.num 0))
              rw [hc.1, List.length_map] at this
              have h2 : ∀ L : List SExpr, (L.filter fun x => !decide (x = SExpr.num 0)) = L.filter fun x => decide (x ≠ SExpr.num 0) := by
                intro L; apply List.filter_congr; intro y _; simp
              rw [h2] at this
              omega
            · omega
        have h2 := ih (tryreduceStep simp sub es x)
        simp only [List.length_cons]
        omega
    have hdrop : eqs.length ≤ (dropIsolated tr eqs vars).length + (vars.filter fun v => v ∈ tr).length := by
      -- an equation is dropped for an isolated variable, and each isolated variable accounts for at most one
      have key : ∀ (L : List TSym), (∀ v ∈ L, (eqs.filter fun e => mentions e v).length = 1 ∧ v.idx = .t 0) →
          ∀ es : List SExpr, es.Sublist eqs → es.length ≤ (es.filter fun e => ¬ L.any fun v => e.tsyms.contains v).length + L.length := by
        intro L
        induction L with
        | nil => intro _ es _; simp
        | cons v L ih =>
          intro hL es hes
          have h1 : (es.filter fun e => e.tsyms.contains v).length ≤ 1 := by
            rw [← (hL v List.mem_cons_self).1]
            refine ((hes.filter _).length_le.trans ?_)
            have : ∀ l : List SExpr, (l.filter fun e => e.tsyms.contains v).length ≤ (l.filter fun e => mentions e v).length := by
              intro l
              rw [← List.countP_eq_length_filter, ← List.countP_eq_length_filter]
              apply List.countP_mono_left
              intro e _ he
              have h0 := (hL v List.mem_cons_self).2
              simp only [mentions, timeCombos, List.any_map, List.any_eq_true, Function.comp]
              refine ⟨.t 0, by simp, ?_⟩
              have : ({ v with idx := .t 0 } : TSym) = v := by obtain ⟨a, b, c⟩ := v; simp_all
              rw [this]; exact he
            exact this eqs
          have h2 := ih (fun w hw => hL w (List.mem_cons_of_mem _ hw)) (es.filter fun e => !e.tsyms.contains v) (List.filter_sublist.trans hes)
          have h3 := List.length_eq_length_filter_add (l := es) (fun e => e.tsyms.contains v)
          have h4 : ((es.filter fun e => !e.tsyms.contains v).filter fun e => decide (¬ (L.any fun v => e.tsyms.contains v) = true)) =
              es.filter fun e => decide (¬ ((v :: L).any fun v => e.tsyms.contains v) = true) := by
            rw [List.filter_filter]
            apply List.filter_congr
            intro e _
            simp only [List.any_cons, Bool.or_eq_true, not_or]
            cases e.tsyms.contains v <;> simp
          rw [h4] at h2
          simp only [List.length_cons]
          omega
      have h5 := key ((isolatedVars eqs vars).filter fun v => v ∈ tr) (by
        intro v hvm
        have := (List.mem_filter.mp hvm).1
        simp only [isolatedVars, List.mem_filter, decide_eq_true_eq] at this
        exact ⟨this.2, hv v this.1⟩) eqs (List.Sublist.refl _)
      have h6 : ((isolatedVars eqs vars).filter fun v => v ∈ tr).length ≤ (vars.filter fun v => v ∈ tr).length :=
        ((List.filter_sublist (p := fun v => decide ((eqs.filter fun e => mentions e v).length = 1))).filter _).length_le
      exact h5.trans (Nat.add_le_add_left h6 _)
    have := hfold tr (dropIsolated tr eqs vars)
    omega

/-- **C26** fails when the dropped equation restricts the other variables: `exp(x[]) = c[]`, `c[] = -1` has no solution; asking to reduce
`x` leaves `c[] = -1`, which has one. -/
theorem C26_unsolvable_violated (simp : SExpr → SExpr) :
    let x : TSym := ⟨['x'], .t 0, []⟩
    let c : TSym := ⟨['c'], .t 0, []⟩
    let eqs : List SExpr := [.sub (.sym (.tv c)) (.exp (.sym (.tv x))), .add (.sym (.tv c)) (.num 1)]
    (∃ P : RealPath, P.Solves (simplifyTryreduce simp [x] eqs [c, x] []).1) ∧ ¬ ∃ Q : RealPath, Q.Solves eqs := by
  intro x c eqs
  have h1 : (simplifyTryreduce simp [x] eqs [c, x] []).1 = [.add (.sym (.tv c)) (.num 1)] := by
    have : dropIsolated [x] eqs [c, x] = [.add (.sym (.tv c)) (.num 1)] := by decide +kernel
    simp only [simplifyTryreduce]
    rw [if_neg (by simp [eqs])]
    dsimp only
    rw [this]; rfl
  refine ⟨⟨⟨fun _ => 0, fun _ _ _ => -1, fun _ _ => -1⟩, ?_⟩, ?_⟩
  · rw [h1]
    intro e he
    rw [List.mem_singleton] at he; subst he
    simp [SExpr.val, SExpr.at, RealPath.val, Valuation.symAt, RealPath.atRest, c]
  · rintro ⟨Q, hQ⟩
    have a := (hQ (.sub (.sym (.tv c)) (.exp (.sym (.tv x)))) (by simp [eqs])).1 0
    have b := (hQ (.add (.sym (.tv c)) (.num 1)) (by simp [eqs])).1 0
    simp [SExpr.val, SExpr.at, RealPath.val, Valuation.symAt, SExpr.sub, c, x] at a b
    have := Real.exp_pos (Q.path ['x'] [] 0)
    linarith

/-! ## C27 -/

namespace Rdc

theorem entries_hold {solve : Solver} (hs : solve.Sound) {e : SExpr} {x : TSym} {rhs : SExpr}
    (h : constantEntry solve e = some (some (x, rhs))) (P : RealPath) (hP : P.Solves [e]) : P.Defines x rhs := by
  unfold constantEntry at h
  split at h
  · split at h
    · rename_i y hy
      split at h
      · rename_i r hr
        simp only [Option.some.injEq, Prod.mk.injEq] at h
        obtain ⟨rfl, rfl⟩ := h
        intro t
        exact ⟨hs e y r hr P t ((hP e (by simp)).1 t), hs e y r hr P.atRest t ((hP e (by simp)).2 t)⟩
      · cases h
    · cases h
  · cases h

theorem holds_of_defines {P : RealPath} {x rhs} (h : P.Defines x rhs) : Smp.Holds P x rhs := h

/-- every entry of the dictionary comes from a pinning equation -/
theorem mem_constantDict (solve : Solver) : ∀ (eqs : List SExpr) (d d' : List (Sym × SExpr)), constantDict solve eqs d = some d' →
    ∀ p ∈ d', p ∈ d ∨ ∃ e ∈ eqs, ∃ x rhs, constantEntry solve e = some (some (x, rhs)) ∧ p ∈ expandSubsAllTimes [(x, rhs)]
  | [], d, d', h, p, hp => by simp only [constantDict, Option.some.injEq] at h; subst h; exact Or.inl hp
  | e :: es, d, d', h, p, hp => by
    unfold constantDict at h
    split at h
    · cases h
    · rcases mem_constantDict solve es d d' h p hp with h | ⟨q, hq, r⟩
      · exact Or.inl h
      · exact Or.inr ⟨q, List.mem_cons_of_mem _ hq, r⟩
    · rename_i q hq
      rcases mem_constantDict solve es _ d' h p hp with h2 | ⟨w, hw, r⟩
      · rcases mem_dupdate _ _ p h2 with h3 | h3
        · exact Or.inl h3
        · exact Or.inr ⟨e, List.mem_cons_self .., q.1, q.2, hq, h3⟩
      · exact Or.inr ⟨w, List.mem_cons_of_mem _ hw, r⟩
where
  mem_dupdate (d e : List (Sym × SExpr)) (p) (h : p ∈ dupdate d e) : p ∈ d ∨ p ∈ e := by
    induction e generalizing d with
    | nil => exact Or.inl h
    | cons q e ih =>
      rcases ih _ h with h1 | h1
      · rcases Lag.mem_dset _ _ _ _ h1 with h2 | rfl
        · exact Or.inl h2
        · exact Or.inr (by simp)
      · exact Or.inr (List.mem_cons_of_mem _ h1)

theorem keys_constantDict (solve : Solver) : ∀ (eqs : List SExpr) (d d' : List (Sym × SExpr)), constantDict solve eqs d = some d' →
    (∀ s ∈ dkeys d, s ∈ dkeys d') ∧ ∀ e ∈ eqs, ∀ x rhs, constantEntry solve e = some (some (x, rhs)) → ∀ s ∈ timeCombos x, Sym.tv s ∈ dkeys d'
  | [], d, d', h => by simp only [constantDict, Option.some.injEq] at h; subst h; simp
  | e :: es, d, d', h => by
    unfold constantDict at h
    split at h
    · cases h
    · rename_i hn
      obtain ⟨h1, h2⟩ := keys_constantDict solve es d d' h
      refine ⟨h1, fun q hq x rhs hc => ?_⟩
      rcases List.mem_cons.mp hq with rfl | hq
      · rw [hn] at hc; cases hc
      · exact h2 q hq x rhs hc
    · rename_i p hp
      obtain ⟨h1, h2⟩ := keys_constantDict solve es _ d' h
      refine ⟨fun s hs => h1 s ((mem_dkeys_dupdate _ _ _).mpr (Or.inl hs)), fun q hq x rhs hc => ?_⟩
      rcases List.mem_cons.mp hq with rfl | hq
      · rw [hp] at hc
        simp only [Option.some.injEq] at hc; subst hc
        intro s hs
        refine h1 _ ((mem_dkeys_dupdate _ _ _).mpr (Or.inr ?_))
        simp only [timeCombos, List.map_cons, List.map_nil, List.mem_cons, List.not_mem_nil, or_false] at hs
        simp only [expandSubsAllTimes, List.foldl_cons, List.foldl_nil, mem_dkeys_dset]
        rcases hs with rfl | rfl | rfl | rfl <;> simp
      · exact h2 q hq x rhs hc

end Rdc

/-- an equation of the system which the program reads as "this variable is a constant": it has at most three atoms, one of them a variable,
and the solver finds the value -/
def Pins (solve : Solver) (e : SExpr) (x : TSym) (rhs : SExpr) : Prop :=
  e.atoms.eraseDups.length ≤ 3 ∧ e.tsyms.eraseDups = [x] ∧ solve e x = some rhs

theorem Rdc.pins_iff (solve : Solver) (e x rhs) : Pins solve e x rhs ↔ constantEntry solve e = some (some (x, rhs)) := by
  unfold Pins constantEntry
  constructor
  · rintro ⟨h1, h2, h3⟩
    rw [if_pos h1, h2]; simp only [h3]
  · intro h
    split at h
    · rename_i hl
      split at h
      · rename_i y hy
        split at h
        · rename_i r hr
          simp only [Option.some.injEq, Prod.mk.injEq] at h
          obtain ⟨rfl, rfl⟩ := h
          exact ⟨hl, hy, hr⟩
        · cases h
      · cases h
    · cases h

/-- **C27**: a system that is not square is returned unchanged. -/
theorem C27_not_square (solve norm eqs vars) (h : eqs.length ≠ vars.length) :
    simplifyConstants solve norm eqs vars = some (eqs, vars, [], true) := by
  unfold simplifyConstants; rw [if_pos h]

/-- **C27** of a square system no satisfied equation `0 = 0` is left: the equations of the result are those of the given system with the constants
put in, except the ones that have become zero -/
theorem C27_no_trivial (solve norm eqs vars) (hsq : eqs.length = vars.length) (r) (h : simplifyConstants solve norm eqs vars = some r) :
    (∀ e ∈ r.1, e ≠ .num 0) ∧ ∃ d, ∀ e', e' ∈ r.1 ↔ e' ≠ .num 0 ∧ ∃ e ∈ eqs, e' = norm (e.subsSeq d) := by
  unfold simplifyConstants at h
  rw [if_neg (not_not.mpr hsq)] at h
  split at h
  · cases h
  · rename_i d hd
    simp only [Option.some.injEq] at h
    subst h
    dsimp only
    refine ⟨fun e he => by simpa using (List.mem_filter.mp he).2, d, fun e' => ?_⟩
    simp only [List.mem_filter, List.mem_map, decide_eq_true_eq]
    constructor
    · rintro ⟨⟨e, he, rfl⟩, h⟩; exact ⟨h, e, he, rfl⟩
    · rintro ⟨h, e, he, rfl⟩; exact ⟨⟨e, he, rfl⟩, h⟩

/-- **C27**: when every solution the solver returns is implied by its equation and free of variables, and no equation pins the *steady-state*
symbol of a variable only, the solutions of the original system are exactly the solutions of the reduced system on which each pinned variable
has its value, at every date and at rest. Partial: for several roots (`C27_first_root_violated`) and for equations about a steady-state symbol
(`C27_steady_state_violated`) it fails. -/
theorem C27_solutions_partial (solve : Solver) (hs : solve.Sound) (norm : SExpr → SExpr) (hn : SameValues norm)
    (eqs : List SExpr) (vars : List TSym) (hconst : ∀ e ∈ eqs, ∀ x rhs, Pins solve e x rhs → rhs.tsyms = [] ∧ x.idx ≠ .ss)
    (r) (h : simplifyConstants solve norm eqs vars = some r) (hsq : eqs.length = vars.length) (P : RealPath) :
    P.Solves eqs ↔ P.Solves r.1 ∧ ∀ e ∈ eqs, ∀ x rhs, Pins solve e x rhs → P.Defines x rhs := by
  unfold simplifyConstants at h
  rw [if_neg (not_not.mpr hsq)] at h
  split at h
  · cases h
  · rename_i d hd
    simp only [Option.some.injEq] at h; subst h
    dsimp only
    have hvals : (∀ e ∈ eqs, ∀ x rhs, Pins solve e x rhs → P.Defines x rhs) → ∀ (e : SExpr) (t : Int), ((norm (e.subsSeq d)).val P t = e.val P t) ∧
        (norm (e.subsSeq d)).val P.atRest t = e.val P.atRest t := by
      intro hp e t
      rw [hn, hn]
      refine ⟨subsSeq_same_value P.val t e d fun p hpd => ?_, subsSeq_same_value P.atRest.val t e d fun p hpd => ?_⟩
      all_goals
        rcases mem_constantDict solve eqs [] d hd p hpd with h0 | ⟨q, hq, x, rhs, hc, hm⟩
        · simp at h0
        have hpin := (pins_iff solve q x rhs).mpr hc
        obtain ⟨hc1, hc2⟩ := hconst q hq x rhs hpin
        have hdef := hp q hq x rhs hpin
        cases hx : x.idx with
        | ss => exact absurd hx hc2
        | t k => first
          | exact Smp.expand_val P x k hx rhs (Or.inl hc1) hdef p hm t
          | exact Smp.expand_val P.atRest x k hx rhs (Or.inl hc1) (Smp.holds_rest hdef) p hm t
    constructor
    · intro hP
      have hp : ∀ e ∈ eqs, ∀ x rhs, Pins solve e x rhs → P.Defines x rhs := fun e he x rhs hpin =>
        entries_hold hs ((pins_iff solve e x rhs).mp hpin) P (fun q hq => by rw [List.mem_singleton] at hq; subst hq; exact hP _ he)
      refine ⟨fun e he => ?_, hp⟩
      obtain ⟨w, hw, rfl⟩ := List.mem_map.mp (List.mem_filter.mp he).1
      exact ⟨fun t => by rw [(hvals hp w t).1]; exact (hP w hw).1 t, fun t => by rw [(hvals hp w t).2]; exact (hP w hw).2 t⟩
    · rintro ⟨hP, hp⟩ e he
      have hz : (∀ t, (norm (e.subsSeq d)).val P t = 0) ∧ ∀ t, (norm (e.subsSeq d)).val P.atRest t = 0 := by
        by_cases h0 : norm (e.subsSeq d) = .num 0
        · rw [h0]; simp [SExpr.val, SExpr.at, RealPath.val]
        · exact hP _ (List.mem_filter.mpr ⟨List.mem_map.mpr ⟨e, he, rfl⟩, by simpa using h0⟩)
      exact ⟨fun t => by rw [← (hvals hp e t).1]; exact hz.1 t, fun t => by rw [← (hvals hp e t).2]; exact hz.2 t⟩

/-- **C27**: a pinned variable disappears from the system (at every date), and is reported as eliminated; the variables that remain are exactly
those that still occur. -/
theorem C27_eliminated (solve : Solver) (norm : SExpr → SExpr) (hns : NoNewSymbols norm) (eqs : List SExpr) (hsh : ∀ e ∈ eqs, e.Shallow)
    (vars : List TSym) (hv : ∀ v ∈ vars, v.idx = .t 0) (hsq : eqs.length = vars.length)
    (hconst : ∀ e ∈ eqs, ∀ x rhs, Pins solve e x rhs → rhs.tsyms = [])
    (r) (h : simplifyConstants solve norm eqs vars = some r) :
    (∀ x, x ∈ r.2.1 ↔ x ∈ vars ∧ ∃ e ∈ r.1, e.Occurs x) ∧
    (∀ x, x ∈ r.2.2.1 ↔ x ∈ vars ∧ ∀ e ∈ r.1, ¬ e.Occurs x) ∧
    ∀ e ∈ eqs, ∀ x rhs, Pins solve e x rhs → ∀ q ∈ r.1, ¬ q.Occurs x := by
  unfold simplifyConstants at h
  rw [if_neg (not_not.mpr hsq)] at h
  split at h
  · cases h
  · rename_i d hd
    simp only [Option.some.injEq] at h; subst h
    dsimp only
    refine ⟨fun x => (mem_reduced _ vars hv x).1, fun x => (mem_reduced _ vars hv x).2, ?_⟩
    intro e he x rhs hpin q hq ⟨s, hs, hb, ha⟩
    obtain ⟨w, hw, rfl⟩ := List.mem_map.mp (List.mem_filter.mp hq).1
    have h1 := hns _ _ (mem_tsyms.mp hs)
    rcases syms_subsSeq w d _ h1 with ⟨h2, h3⟩ | ⟨p, hp, h2⟩
    · apply h3
      have := (keys_constantDict solve eqs [] d hd).2 e he x rhs ((pins_iff solve e x rhs).mp hpin) s ?_
      · exact this
      · have hi := hsh w hw s (mem_tsyms.mpr h2)
        obtain ⟨sb, si, sa⟩ := s
        obtain ⟨xb, xi, xa⟩ := x
        simp only at hb ha hi; subst hb; subst ha
        rcases hi with rfl | rfl | rfl | rfl <;> simp [timeCombos]
    · rcases mem_constantDict solve eqs [] d hd p hp with h0 | ⟨q', hq', y, rhs', hc, hm⟩
      · simp at h0
      · have hcc := hconst q' hq' y rhs' ((pins_iff solve q' y rhs').mpr hc)
        obtain ⟨i, _, h4⟩ := Smp.mem_expand y rhs' p hm
        have hd' : p.2 = rhs' := by
          rw [h4]
          cases rhs' with
          | sym s => cases s with
            | tv z => simp [SExpr.tsyms, SExpr.syms] at hcc
            | par n => rfl
          | _ => rfl
        rw [hd'] at h2
        have := mem_tsyms.mpr h2
        rw [hcc] at this
        simp at this

/-- **C27** is violated by an equation with two roots: `x[]^2 = 4` is solved with sympy's first root `-2`; the solution `x = 2` of the original
system does not solve the reduced one. -/
theorem C27_first_root_violated (solve : Solver) (norm : SExpr → SExpr) (hn : SameValues norm) :
    let x : TSym := ⟨['x'], .t 0, []⟩
    let y : TSym := ⟨['y'], .t 0, []⟩
    let sq : SExpr := .add (.pow (.sym (.tv x)) (.num 2)) (.num (-4))
    let out : SExpr := .sub (.sym (.tv x)) (.sym (.tv y))
    solve sq x = some (.num (-2)) →
    ∃ r P, simplifyConstants solve norm [sq, out] [x, y] = some r ∧ RealPath.Solves P [sq, out] ∧ ¬ RealPath.Solves P r.1 := by
  intro x y sq out hsol
  let P : RealPath := ⟨fun _ => 0, fun _ _ _ => 2, fun _ _ => 2⟩
  have ha : sq.atoms.eraseDups.length ≤ 3 := by decide +kernel
  have hv : sq.tsyms.eraseDups = [x] := by decide +kernel
  have ho : out.tsyms.eraseDups = [x, y] := by decide +kernel
  have h1 : constantEntry solve sq = some (some (x, .num (-2))) := (pins_iff solve sq x _).mp ⟨ha, hv, hsol⟩
  have h2 : constantEntry solve out = some none := by
    unfold constantEntry
    rw [ho]
    split <;> rfl
  have hd : constantDict solve [sq, out] [] = some (dupdate [] (expandSubsAllTimes [(x, .num (-2))])) := by
    simp only [constantDict, h1, h2]
  refine ⟨_, P, by unfold simplifyConstants; rw [if_neg (by simp), hd], ?_, ?_⟩
  · intro e he
    simp only [List.mem_cons, List.not_mem_nil, or_false] at he
    rcases he with rfl | rfl <;> refine ⟨fun t => ?_, fun t => ?_⟩ <;>
      simp only [SExpr.val, SExpr.at, RealPath.val, Valuation.symAt, RealPath.atRest, SExpr.sub, x, y, P, sq, out] <;> norm_num
  · intro hP
    have hout : out.subsSeq (dupdate [] (expandSubsAllTimes [(x, .num (-2))])) = .sub (.num (-2)) (.sym (.tv y)) := by decide +kernel
    have hval : (norm (out.subsSeq (dupdate [] (expandSubsAllTimes [(x, .num (-2))])))).val P 0 = -4 := by
      rw [hn, hout]
      simp only [SExpr.val, SExpr.at, RealPath.val, Valuation.symAt, SExpr.sub, y, P]; norm_num
    have := (hP (norm (out.subsSeq (dupdate [] (expandSubsAllTimes [(x, .num (-2))]))))
      (List.mem_filter.mpr ⟨List.mem_map.mpr ⟨out, by simp, rfl⟩, by
        simp only [decide_eq_true_eq]
        intro h0
        rw [h0] at hval
        simp [SExpr.val, SExpr.at, RealPath.val] at hval⟩)).1 0
    rw [hval] at this
    norm_num at this

/-- **C27** is violated by an equation about a steady-state symbol: `x[ss] = 1` makes the program replace `x` by 1 at *every* date, so that the
path `x_t = 2`, `y_t = 2` (with steady state 1), which solves the original system at every date, does not solve the reduced one. -/
theorem C27_steady_state_violated (solve : Solver) (norm : SExpr → SExpr) (hn : SameValues norm) :
    let x : TSym := ⟨['x'], .t 0, []⟩
    let y : TSym := ⟨['y'], .t 0, []⟩
    let pin : SExpr := .sub (.sym (.tv (toSS x))) (.num 1)
    let out : SExpr := .sub (.sym (.tv x)) (.sym (.tv y))
    solve pin (toSS x) = some (.num 1) →
    ∃ r P, simplifyConstants solve norm [pin, out] [x, y] = some r ∧ RealPath.Solves P [pin, out] ∧ ¬ RealPath.Solves P r.1 := by
  intro x y pin out hsol
  let P : RealPath := ⟨fun _ => 0, fun _ _ _ => 2, fun _ _ => 1⟩
  have ha : pin.atoms.eraseDups.length ≤ 3 := by decide +kernel
  have hv : pin.tsyms.eraseDups = [toSS x] := by decide +kernel
  have ho : out.tsyms.eraseDups = [x, y] := by decide +kernel
  have h1 : constantEntry solve pin = some (some (toSS x, .num 1)) := (pins_iff solve pin _ _).mp ⟨ha, hv, hsol⟩
  have h2 : constantEntry solve out = some none := by
    unfold constantEntry
    rw [ho]
    split <;> rfl
  have hd : constantDict solve [pin, out] [] = some (dupdate [] (expandSubsAllTimes [(toSS x, .num 1)])) := by
    simp only [constantDict, h1, h2]
  refine ⟨_, P, by unfold simplifyConstants; rw [if_neg (by simp), hd], ?_, ?_⟩
  · intro e he
    simp only [List.mem_cons, List.not_mem_nil, or_false] at he
    rcases he with rfl | rfl <;> refine ⟨fun t => ?_, fun t => ?_⟩ <;>
      simp only [SExpr.val, SExpr.at, RealPath.val, Valuation.symAt, RealPath.atRest, SExpr.sub, toSS, x, y, P, pin, out] <;> norm_num
  · intro hP
    have hout : out.subsSeq (dupdate [] (expandSubsAllTimes [(toSS x, .num 1)])) = .sub (.num 1) (.sym (.tv y)) := by decide +kernel
    have hval : (norm (out.subsSeq (dupdate [] (expandSubsAllTimes [(toSS x, .num 1)])))).val P 0 = -1 := by
      rw [hn, hout]
      simp only [SExpr.val, SExpr.at, RealPath.val, Valuation.symAt, SExpr.sub, y, P]; norm_num
    have := (hP (norm (out.subsSeq (dupdate [] (expandSubsAllTimes [(toSS x, .num 1)]))))
      (List.mem_filter.mpr ⟨List.mem_map.mpr ⟨out, by simp, rfl⟩, by
        simp only [decide_eq_true_eq]
        intro h0
        rw [h0] at hval
        simp [SExpr.val, SExpr.at, RealPath.val] at hval⟩)).1 0
    rw [hval] at this
    norm_num at this

/-- **C27**: an equation of the pinning kind without a solution stops the program with an IndexError (for `exp(x[]) = 0`, say). -/
theorem C27_unsolvable_raises (solve : Solver) (norm : SExpr → SExpr) (eqs : List SExpr) (vars : List TSym) (hsq : eqs.length = vars.length)
    (e : SExpr) (he : e ∈ eqs) (x : TSym) (h1 : e.atoms.eraseDups.length ≤ 3) (h2 : e.tsyms.eraseDups = [x]) (h3 : solve e x = none) :
    simplifyConstants solve norm eqs vars = none := by
  have hc : constantEntry solve e = none := by unfold constantEntry; rw [if_pos h1, h2]; simp only [h3]
  have key : ∀ (es : List SExpr), e ∈ es → ∀ d, constantDict solve es d = none := by
    intro es
    induction es with
    | nil => intro h; simp at h
    | cons q es ih =>
      intro h d
      unfold constantDict
      rcases List.mem_cons.mp h with rfl | h
      · rw [hc]
      · split
        · rfl
        · exact ih h d
        · exact ih h _
  unfold simplifyConstants
  rw [if_neg (not_not.mpr hsq), key eqs he]

/-! ## non-vacuity -/

namespace Rdc.Ex

def c : TSym := ⟨['c'], .t 0, []⟩
def y : TSym := ⟨['y'], .t 0, []⟩
def z : TSym := ⟨['z'], .t 0, []⟩
/-- `z = log(y)` (z is used nowhere else), `y = c`, `c = c[-1]` -/
def eqs : List SExpr := [.sub (.log (.sym (.tv y))) (.sym (.tv z)), .sub (.sym (.tv c)) (.sym (.tv y)),
  .sub (.sym (.tv { c with idx := .t (-1) })) (.sym (.tv c))]
def sub : List (Sym × SExpr) := [(.tv z, .log (.sym (.tv y))), (.tv y, .sym (.tv c)), (.tv c, .sym (.tv { c with idx := .t (-1) }))]

/-- asking for `z` and `y`: `z` goes with its equation, `y` by substitution (`c - c` evaluates to zero) -/
def simp : SExpr → SExpr := fun e => match e with
  | .add (.sym a) (.mul (.num q) (.sym b)) => if a = b ∧ q = -1 then .num 0 else e
  | e => e

example : (simplifyTryreduce simp [z, y] eqs [c, y, z] sub).1 = [.sub (.sym (.tv { c with idx := .t (-1) })) (.sym (.tv c))] ∧
    (simplifyTryreduce simp [z, y] eqs [c, y, z] sub).2 = ([c], [y, z], false) := by decide +kernel

example : SameValues simp := by
  intro e P t
  unfold simp
  split
  · split
    · rename_i a q b h
      obtain ⟨rfl, rfl⟩ := h
      simp [SExpr.val, SExpr.at, RealPath.val]
    · rfl
  · rfl

/-- a solver for `P[] = 1` -/
def pin : SExpr := .sub (.num 1) (.sym (.tv y))
def out : SExpr := .sub (.mul (.sym (.tv y)) (.sym (.tv c))) (.num 3)
def solve1 : Solver := fun e x => if e = pin ∧ x = y then some (.num 1) else none

example : solve1.Sound := by
  intro e x rhs h P t he
  unfold solve1 at h
  split at h
  · rename_i hh
    obtain ⟨rfl, rfl⟩ := hh
    cases h
    simp [pin, SExpr.val, SExpr.at, RealPath.val, SExpr.sub, Valuation.symAt, y] at he ⊢
    linarith
  · cases h

example : Pins solve1 pin y (.num 1) := ⟨by decide +kernel, by decide +kernel, by decide +kernel⟩

def norm1 : SExpr → SExpr := fun e => if e = .sub (.num 1) (.num 1) then .num 0 else e

example : simplifyConstants solve1 norm1 [pin, out] [c, y] =
    some ([.sub (.mul (.num 1) (.sym (.tv c))) (.num 3)], [c], [y], false) := by decide +kernel

end Rdc.Ex

end GE
