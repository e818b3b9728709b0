import Verif.Model.ParserMisc
import Verif.Props.Loader
import Mathlib.Tactic.Ring
import Mathlib.Algebra.Order.Ring.Rat
/-! # C42, C44, C46: suggestions, assumptions, numbers in prior declarations -/

namespace GE
namespace PMisc

theorem scoreLe_trans (a b c : Rat × Str) (h1 : scoreLe a b = true) (h2 : scoreLe b c = true) : scoreLe a c = true := by
  obtain ⟨a1, a2⟩ := a; obtain ⟨b1, b2⟩ := b; obtain ⟨c1, c2⟩ := c
  simp only [scoreLe] at *
  split at h1 <;> split at h2
  · rename_i h h'; subst h; subst h'; simpa using Vld.strLe_trans _ _ _ h1 h2
  · rename_i h h'; subst h; rw [if_neg h']; exact h2
  · rename_i h h'; subst h'; rw [if_neg h]; exact h1
  · simp only [decide_eq_true_eq] at h1 h2
    have := lt_trans h2 h1
    rw [if_neg (ne_of_gt this)]; simpa using this

theorem scoreLe_total (a b : Rat × Str) : (scoreLe a b || scoreLe b a) = true := by
  obtain ⟨a1, a2⟩ := a; obtain ⟨b1, b2⟩ := b
  simp only [scoreLe]
  by_cases h : a1 = b1
  · subst h; simpa using Vld.strLe_total a2 b2
  · rw [if_neg h, if_neg (Ne.symm h)]
    rcases lt_or_gt_of_ne h with h | h <;> simp [h]

end PMisc

/-- the specification's notion of one suggestion coming before another: strictly more similar, or equally similar and
alphabetically not later -/
def ranksBefore (sim : Str → Rat) (a b : Str) : Prop := sim b < sim a ∨ (sim a = sim b ∧ strLe a b = true)

/-- **C42** whatever the similarity measure: if the name is a candidate up to case, nothing is suggested; otherwise the suggestions are
the best `maxResults` of the candidates that reach the threshold, best first. -/
theorem C42_suggestions (ratio : Str → Str → Rat) (name : Str) (cs : List Str) (k : Nat) (thr : Rat) :
    let r := findSimilar ratio name cs k thr
    let sim := fun c => ratio (lowerStr name) (lowerStr c)
    ((∃ c ∈ cs, lowerStr c = lowerStr name) → r = []) ∧
    ((∀ c ∈ cs, lowerStr c ≠ lowerStr name) →
      (∀ c ∈ r, c ∈ cs ∧ thr ≤ sim c) ∧
      r.length = min k (cs.countP fun c => thr ≤ sim c) ∧
      ∃ rest, (r ++ rest).Perm (cs.filter fun c => thr ≤ sim c) ∧ (r ++ rest).Pairwise (ranksBefore sim)) := by
  intro r sim
  constructor
  · rintro ⟨c, hc, h⟩
    simp only [r, findSimilar]
    rw [if_pos]; simp only [List.any_eq_true, decide_eq_true_eq]; exact ⟨c, hc, h⟩
  · intro hne
    have hr : r = ((sortBy scoreLe ((cs.map fun c => (sim c, c)).filter fun p => thr ≤ p.1)).take k).map Prod.snd := by
      simp only [r, findSimilar]
      rw [if_neg]
      simp only [List.any_eq_true, decide_eq_true_eq, not_exists, not_and]; exact hne
    set scored := (cs.map fun c => (sim c, c)).filter fun p => thr ≤ p.1 with hsc
    have hscored : scored = (cs.filter fun c => thr ≤ sim c).map fun c => (sim c, c) := by
      rw [hsc, List.filter_map]; rfl
    have hfst : ∀ p ∈ sortBy scoreLe scored, p.1 = sim p.2 := by
      intro p hp
      rw [(Ldr.sortBy_perm _ _).mem_iff, hscored, List.mem_map] at hp
      obtain ⟨c, _, rfl⟩ := hp; rfl
    have hperm : ((sortBy scoreLe scored).map Prod.snd).Perm (cs.filter fun c => thr ≤ sim c) := by
      have := (Ldr.sortBy_perm scoreLe scored).map Prod.snd
      rw [hscored, List.map_map] at this
      rw [hscored]
      refine this.trans (List.Perm.of_eq ?_)
      exact List.map_id _
    have hsplit : r ++ ((sortBy scoreLe scored).drop k).map Prod.snd = (sortBy scoreLe scored).map Prod.snd := by
      rw [hr, ← List.map_append, List.take_append_drop]
    refine ⟨?_, ?_, _, by rw [hsplit]; exact hperm, ?_⟩
    · intro c hc
      have : c ∈ cs.filter fun c => thr ≤ sim c := hperm.mem_iff.mp (by rw [← hsplit]; exact List.mem_append_left _ hc)
      simpa using this
    · rw [hr, List.length_map, List.length_take]
      have := hperm.length_eq
      rw [List.length_map] at this
      rw [this, List.countP_eq_length_filter]
    · rw [hsplit, List.pairwise_map]
      refine List.Pairwise.imp_of_mem ?_ (Ldr.sortBy_sorted scoreLe PMisc.scoreLe_trans PMisc.scoreLe_total scored)
      intro a b ha hb h
      simp only [scoreLe, hfst a ha, hfst b hb] at h
      simp only [ranksBefore]
      split at h
      · exact Or.inr ⟨‹_›, h⟩
      · exact Or.inl (by simpa using h)

/-- non-vacuity: two of three candidates are similar enough, the better one wins the single slot -/
example : findSimilar (fun _ b => if b = ['b'] then 9/10 else if b = ['a'] then 7/10 else 1/10) ['x'] [['a'], ['B'], ['c']] 1 (6/10)
    = [['B']] := by decide +kernel

/-! ## assumptions -/

namespace PMisc

/-- what one listed item asserts of the key `key` -/
def gives (name key : Str) : Prop := key = name ∨ (name = unitInterval ∧ key = positiveStr)

/-- the state of `_build_assumptions` after a list of `(assumption, variable)` items -/
def asmInv (items : List (Str × Str)) (d : List (Str × Asm)) : Prop :=
  ∀ v, (dget d v = none ↔ ∀ p ∈ items, p.2 ≠ v) ∧
    ∀ a, dget d v = some a → ∀ key b, dget a key = some b ↔
      b = true ∧ (key = ['r','e','a','l'] ∨ ∃ p ∈ items, p.2 = v ∧ gives p.1 key)

theorem asmInv_step (items : List (Str × Str)) (d : List (Str × Asm)) (h : asmInv items d) (name v : Str) :
    asmInv (items ++ [(name, v)]) (addAssumption name v d) := by
  intro w
  obtain ⟨h1, h2⟩ := h w
  by_cases hw : v = w
  · subst hw
    constructor
    · simp [addAssumption, dget_dset]
    · intro a ha key b
      simp only [addAssumption, dget_dset, if_true, Option.some.injEq] at ha
      have base : ∀ key b, dget ((dget d v).getD parserDefaults) key = some b ↔
          b = true ∧ (key = ['r','e','a','l'] ∨ ∃ p ∈ items, p.2 = v ∧ gives p.1 key) := by
        intro key b
        cases hd : dget d v with
        | some a0 => exact h2 a0 hd key b
        | none =>
          have hno := h1.mp hd
          simp only [Option.getD_none, parserDefaults, dget]
          constructor
          · intro h
            split at h
            · rename_i hk; exact ⟨(Option.some.inj h).symm, Or.inl hk.symm⟩
            · cases h
          · rintro ⟨rfl, rfl | ⟨p, hp, hv, _⟩⟩
            · rfl
            · exact absurd hv (hno p hp)
      have e1 : ∀ key b, dget (dset ((dget d v).getD parserDefaults) name true) key = some b ↔
          b = true ∧ (key = name ∨ key = ['r','e','a','l'] ∨ ∃ p ∈ items, p.2 = v ∧ gives p.1 key) := by
        intro key b
        rw [dget_dset]
        split
        · rename_i hk; subst hk; simp [eq_comm]
        · rename_i hk
          rw [base]
          constructor
          · rintro ⟨hb, h⟩; exact ⟨hb, Or.inr h⟩
          · rintro ⟨hb, rfl | h⟩
            · exact absurd rfl hk
            · exact ⟨hb, h⟩
      subst ha
      have goal_iff : (b = true ∧ (key = ['r','e','a','l'] ∨ ∃ p ∈ items ++ [(name, v)], p.2 = v ∧ gives p.1 key)) ↔
          b = true ∧ (gives name key ∨ key = ['r','e','a','l'] ∨ ∃ p ∈ items, p.2 = v ∧ gives p.1 key) := by
        simp only [List.mem_append, List.mem_singleton, or_and_right, exists_or, exists_eq_left, true_and]
        refine and_congr Iff.rfl ⟨?_, ?_⟩
        · rintro (h | h | h)
          exacts [Or.inr (Or.inl h), Or.inr (Or.inr h), Or.inl h]
        · rintro (h | h | h)
          exacts [Or.inr (Or.inr h), Or.inl h, Or.inr (Or.inl h)]
      rw [goal_iff]
      by_cases hn : name = unitInterval
      · rw [if_pos hn, dget_dset]
        split
        · rename_i hk; simp only [gives]; constructor
          · intro h; exact ⟨(Option.some.inj h).symm, Or.inl (Or.inr ⟨hn, hk.symm⟩)⟩
          · rintro ⟨rfl, _⟩; rfl
        · rename_i hk
          rw [e1]; simp only [gives]
          constructor
          · rintro ⟨hb, h⟩; exact ⟨hb, by tauto⟩
          · rintro ⟨hb, (h | ⟨_, h⟩) | h⟩
            · exact ⟨hb, Or.inl h⟩
            · exact absurd h.symm hk
            · exact ⟨hb, Or.inr h⟩
      · rw [if_neg hn, e1]; simp only [gives, hn, false_and, or_false]
  · have hd : dget (addAssumption name v d) w = dget d w := by
      simp only [addAssumption, dget_dset, if_neg hw]
    rw [hd]
    constructor
    · rw [h1]; simp only [List.mem_append, List.mem_singleton]
      constructor
      · rintro h p (hp | rfl)
        · exact h p hp
        · exact hw
      · intro h p hp; exact h p (Or.inl hp)
    · intro a ha key b
      rw [h2 a ha key b]
      simp only [List.mem_append, List.mem_singleton]
      refine and_congr Iff.rfl (or_congr Iff.rfl ⟨?_, ?_⟩)
      · rintro ⟨p, hp, h⟩; exact ⟨p, Or.inl hp, h⟩
      · rintro ⟨p, hp | rfl, h⟩
        · exact ⟨p, hp, h⟩
        · exact absurd h.1 hw

theorem asmInv_items (name : Str) (vs : List Str) (items) (d) (h : asmInv items d) :
    asmInv (items ++ vs.map fun v => (name, v)) (vs.foldl (fun d v => addAssumption name v d) d) := by
  induction vs generalizing items d with
  | nil => simpa using h
  | cons v vs ih =>
    have := ih _ _ (asmInv_step items d h name v)
    simpa using this

theorem asmInv_build (sbs : List (Str × List Str)) (items) (d) (h : asmInv items d) :
    asmInv (items ++ sbs.flatMap fun b => b.2.map fun v => (lowerStr b.1, v))
      (sbs.foldl (fun d b => b.2.foldl (fun d v => addAssumption (lowerStr b.1) v d) d) d) := by
  induction sbs generalizing items d with
  | nil => simpa using h
  | cons b sbs ih =>
    have := ih _ _ (asmInv_items (lowerStr b.1) b.2 items d h)
    simpa using this

end PMisc

/-- **C44** a variable gets an entry exactly when it is listed in some sub-block, and its entry says `true` for exactly: `real`, every
assumption it is listed under (case-insensitively), and `positive` if it is listed under `unit_interval`; nothing is ever `false`. -/
theorem C44_assumptions (sbs : List (Str × List Str)) (v : Str) :
    ((dget (buildAssumptions sbs) v).isSome ↔ ∃ b ∈ sbs, v ∈ b.2) ∧
    ∀ a, dget (buildAssumptions sbs) v = some a → ∀ key value, dget a key = some value ↔
      value = true ∧ (key = ['r','e','a','l'] ∨
        ∃ b ∈ sbs, v ∈ b.2 ∧ (key = lowerStr b.1 ∨ (lowerStr b.1 = ['u','n','i','t','_','i','n','t','e','r','v','a','l']
          ∧ key = ['p','o','s','i','t','i','v','e']))) := by
  have h := PMisc.asmInv_build sbs [] [] (by intro v; simp [dget])
  obtain ⟨h1, h2⟩ := h v
  constructor
  · have : dget (buildAssumptions sbs) v = none ↔ _ := h1
    rw [← not_iff_not, Bool.not_eq_true, Option.isSome_eq_false_iff, Option.isNone_iff_eq_none, this]
    simp only [List.nil_append, List.mem_flatMap, List.mem_map, not_exists, not_and]
    constructor
    · intro h b hb hv; exact h (_, v) ⟨b, hb, v, hv, rfl⟩ rfl
    · rintro h p ⟨b, hb, w, hw, rfl⟩ hv; exact h b hb (by rw [← hv]; exact hw)
  · intro a ha key value
    rw [h2 a ha key value]
    refine and_congr Iff.rfl (or_congr Iff.rfl ?_)
    simp only [List.nil_append, List.mem_flatMap, List.mem_map, PMisc.gives]
    constructor
    · rintro ⟨p, ⟨b, hb, w, hw, rfl⟩, rfl, h⟩; exact ⟨b, hb, hw, h⟩
    · rintro ⟨b, hb, hw, h⟩; exact ⟨_, ⟨b, hb, v, hw, rfl⟩, rfl, h⟩

/-- non-vacuity: `negative { C, K; }; Unit_Interval { K; };` -/
example : buildAssumptions [(['n','e','g','a','t','i','v','e'], [['C'], ['K']]), (['U','n','i','t','_','I','n','t','e','r','v','a','l'], [['K']])]
    = [(['C'], [(['r','e','a','l'], true), (['n','e','g','a','t','i','v','e'], true)]),
       (['K'], [(['r','e','a','l'], true), (['n','e','g','a','t','i','v','e'], true), (unitInterval, true), (positiveStr, true)])] := by
  decide +kernel

/-! ## numbers in prior declarations -/

/-- the arithmetic meaning of an operator -/
def NOp.apply : NOp → Rat → Rat → Rat
  | .add, a, b => a + b
  | .sub, a, b => a - b
  | .mul, a, b => a * b
  | .div, a, b => a / b

/-- reading on from `sum + term`: `+ v` and `- v` start a new term, `* v` and `/ v` continue the current one -/
def NOp.extend : NOp → Rat × Rat → Rat → Rat × Rat
  | .add, (s, t), v => (s + t, v)
  | .sub, (s, t), v => (s + t, -v)
  | .mul, (s, t), v => (s, t * v)
  | .div, (s, t), v => (s, t / v)

mutual
/-- the arithmetic value of a written operand -/
def NAtom.value : NAtom → Rat
  | .num q => q
  | .paren c => c.read.1 + c.read.2
/-- the arithmetic value of a written chain as `(sum of the finished terms, current term)`: `*`, `/` bind tighter than `+`, `-`, and
operators of the same strength group to the left -/
def NChain.read : NChain → Rat × Rat
  | .one a => (0, a.value)
  | .snoc c op a => op.extend c.read a.value
end

/-- the arithmetic value of a written number expression -/
def NChain.value (c : NChain) : Rat := c.read.1 + c.read.2

namespace PMisc

theorem split_empty (o : NOp) (f : NTree) (rest : List (NOp × NTree)) : (splitChain o f rest).2 = [] ↔ ∀ p ∈ rest, p.1 ≠ o := by
  induction rest generalizing f with
  | nil => simp [splitChain]
  | cons p rest ih =>
    obtain ⟨p, t⟩ := p
    simp only [splitChain]
    split
    · rename_i h; simp [h]
    · rename_i h; simp only [ih, List.mem_cons, forall_eq_or_imp]; simp [h]

theorem split_ops (o : NOp) (f : NTree) (rest : List (NOp × NTree)) (os : List NOp) (h : ∀ p ∈ rest, p.1 ∈ o :: os) :
    (∀ p ∈ (splitChain o f rest).1.2, p.1 ∈ os) ∧ ∀ q ∈ (splitChain o f rest).2, ∀ p ∈ q.2, p.1 ∈ os := by
  induction rest generalizing f with
  | nil => simp [splitChain]
  | cons p rest ih =>
    obtain ⟨p, t⟩ := p
    have hr := ih t (fun q hq => h q (List.mem_cons_of_mem _ hq))
    simp only [splitChain]
    split
    · rename_i hp
      refine ⟨by simp, ?_⟩
      intro q hq
      rcases List.mem_cons.mp hq with rfl | hq
      · exact hr.1
      · exact hr.2 q hq
    · rename_i hp
      refine ⟨?_, hr.2⟩
      intro q hq
      rcases List.mem_cons.mp hq with rfl | hq
      · have := h (p, t) (List.mem_cons_self ..); simpa [hp] using this
      · exact hr.1 q hq

/-- putting the pieces together again -/
theorem split_fst (o : NOp) (f : NTree) (rest : List (NOp × NTree)) : (splitChain o f rest).1.1 = f ∧
    rest = (splitChain o f rest).1.2 ++ (splitChain o f rest).2.flatMap fun q => (o, q.1) :: q.2 := by
  induction rest generalizing f with
  | nil => simp [splitChain]
  | cons p rest ih =>
    obtain ⟨p, t⟩ := p
    simp only [splitChain]
    split
    · rename_i h; subst h
      refine ⟨rfl, ?_⟩
      have := ih t
      simp only [List.nil_append, List.flatMap_cons, List.cons_append]
      rw [this.1, ← this.2]
    · refine ⟨rfl, ?_⟩
      simp only [List.cons_append]
      rw [← (ih t).2]

theorem levels_num (os : List NOp) (f : NTree) (rest) (q : Rat) (h : ∀ p ∈ rest, p.1 ∈ os) (hb : buildLevels os f rest = .num q) :
    rest = [] ∧ f = .num q := by
  induction os generalizing f rest with
  | nil =>
    cases rest with
    | nil => exact ⟨rfl, hb⟩
    | cons p rest => exact absurd (h p (List.mem_cons_self ..)) (by simp)
  | cons o os ih =>
    simp only [buildLevels] at hb
    split at hb
    · rename_i he
      rw [List.isEmpty_iff, split_empty] at he
      exact ih f rest (fun p hp => by have := h p hp; simpa [he p hp] using this) hb
    · cases hb

/-- the fold the code runs on a homogeneous chain, when no divisor vanishes -/
def foldTo (o : NOp) : List Rat → Rat → Except NErr Rat
  | [], r => .ok r
  | v :: l, r => if o = .div ∧ v = 0 then .error .zeroDivision else foldTo o l (o.apply r v)

theorem applyOp_tok (o : NOp) (r v : Rat) : applyOp (.str o.tok) r v =
    if o = .div ∧ v = 0 then .error .zeroDivision else .ok (o.apply r v) := by
  cases o <;> simp [applyOp, NOp.tok, NOp.apply]

theorem foldOps_ok (o : NOp) (os : List NOp) (l : List (NTree × List (NOp × NTree))) (hl : ∀ q ∈ l, ∀ p ∈ q.2, p.1 ∈ os) (r v : Rat)
    (h : foldOps (l.flatMap fun p => [.str o.tok, buildLevels os p.1 p.2]) r = .ok v) :
    ∃ qs : List Rat, l = qs.map (fun q => (NTree.num q, [])) ∧ foldTo o qs r = .ok v := by
  induction l generalizing r with
  | nil => exact ⟨[], rfl, h⟩
  | cons p l ih =>
    obtain ⟨f, rest⟩ := p
    simp only [List.flatMap_cons, List.cons_append, List.nil_append, foldOps] at h
    cases hx : (buildLevels os f rest).toFloat with
    | error e => rw [hx] at h; cases h
    | ok x =>
      have hbx : buildLevels os f rest = .num x := by
        cases hb : buildLevels os f rest with
        | num q => rw [hb] at hx; simp only [NTree.toFloat] at hx; rw [Except.ok.inj hx]
        | none => rw [hb] at hx; cases hx
        | str s => rw [hb] at hx; cases hx
        | list s => rw [hb] at hx; cases hx
      obtain ⟨h1, h2⟩ := levels_num os f rest x (hl (f, rest) (List.mem_cons_self ..)) hbx
      subst h1; subst h2
      rw [hx] at h
      simp only [bind, Except.bind] at h
      rw [applyOp_tok] at h
      split at h
      · cases h
      · rename_i hz _ h'
        split at h'
        · cases h'
        · rename_i hnz
          cases h'
          obtain ⟨qs, h3, h4⟩ := ih (fun q hq => hl q (List.mem_cons_of_mem _ hq)) _ h
          exact ⟨x :: qs, by simp [h3], by simp only [foldTo]; rw [if_neg hnz]; exact h4⟩

theorem flat_pairs (o : NOp) (qs : List Rat) :
    (qs.flatMap fun q => (o, (NTree.num q, ([] : List (NOp × NTree))).1) :: (NTree.num q, ([] : List (NOp × NTree))).2)
      = qs.map fun q => (o, NTree.num q) := by
  induction qs with
  | nil => rfl
  | cons q qs ih => rw [List.flatMap_cons, ih]; rfl

/-- an evaluation that succeeds is that of a single operand or of operands joined by one and the same operator -/
theorem levels_ok (os : List NOp) (f : NTree) (rest) (v : NVal) (h : ∀ p ∈ rest, p.1 ∈ os)
    (hb : evalNumber (buildLevels os f rest) = .ok v) :
    (rest = [] ∧ evalNumber f = .ok v) ∨
    ∃ (o : NOp) (q : Rat) (qs : List Rat) (r : Rat), f = .num q ∧ rest = qs.map (fun q => (o, NTree.num q)) ∧ foldTo o qs q = .ok r
      ∧ v = .num r := by
  induction os generalizing f rest with
  | nil =>
    cases rest with
    | nil => exact Or.inl ⟨rfl, hb⟩
    | cons p rest => exact absurd (h p (List.mem_cons_self ..)) (by simp)
  | cons o os ih =>
    simp only [buildLevels] at hb
    split at hb
    · rename_i he
      rw [List.isEmpty_iff, split_empty] at he
      exact ih f rest (fun p hp => by have := h p hp; simpa [he p hp] using this) hb
    · rename_i he
      obtain ⟨hs1, hs2⟩ := split_fst o f rest
      obtain ⟨ho1, ho2⟩ := split_ops o f rest os h
      cases hc : (splitChain o f rest).2 with
      | nil => rw [hc] at he; simp at he
      | cons p l =>
        rw [hc] at hb
        simp only [List.flatMap_cons, List.cons_append, List.nil_append, evalNumber] at hb
        cases hx : (buildLevels os (splitChain o f rest).1.1 (splitChain o f rest).1.2).toFloat with
        | error e => rw [hx] at hb; cases hb
        | ok x =>
          have hbx : buildLevels os (splitChain o f rest).1.1 (splitChain o f rest).1.2 = .num x := by
            cases hb' : buildLevels os (splitChain o f rest).1.1 (splitChain o f rest).1.2 with
            | num q => rw [hb'] at hx; simp only [NTree.toFloat] at hx; rw [Except.ok.inj hx]
            | none => rw [hb'] at hx; cases hx
            | str s => rw [hb'] at hx; cases hx
            | list s => rw [hb'] at hx; cases hx
          obtain ⟨h1, h2⟩ := levels_num os _ _ x ho1 hbx
          rw [hx] at hb
          simp only [bind, Except.bind] at hb
          split at hb
          · cases hb
          · rename_i r hr
            have hr' : foldOps ((p :: l).flatMap fun p => [.str o.tok, buildLevels os p.1 p.2]) x = .ok r := by
              simpa [List.flatMap_cons] using hr
            obtain ⟨qs, h3, h4⟩ := foldOps_ok o os (p :: l) (by rw [← hc]; exact ho2) x r hr'
            refine Or.inr ⟨o, x, qs, r, by rw [← hs1]; exact h2, ?_, h4, by cases hb; rfl⟩
            rw [hs2, h1, hc, h3, List.nil_append, List.flatMap_map]
            exact flat_pairs o qs

theorem mem_numLevels (o : NOp) : o ∈ numLevels := by cases o <;> simp [numLevels]

theorem foldTo_foldl (o : NOp) (r : Rat) (qs : List Rat) (q : Rat) (h : foldTo o qs q = .ok r) : qs.foldl o.apply q = r := by
  induction qs generalizing q with
  | nil => exact Except.ok.inj h
  | cons v qs ih =>
    simp only [foldTo] at h
    split at h
    · cases h
    · exact ih _ h

/-- the joint invariant: sound evaluation, and the value of homogeneous chains -/
theorem sound_all (c : NChain) :
    (∀ v, evalNumber (buildLevels numLevels c.flat.1 c.flat.2) = .ok v → v = .num (c.read.1 + c.read.2)) ∧
    ∀ (o : NOp) (q : Rat) (qs : List Rat), c.flat = (.num q, qs.map fun q => (o, NTree.num q)) →
      c.read.1 + c.read.2 = qs.foldl o.apply q ∧ ((o = .mul ∨ o = .div) → c.read.1 = 0) := by
  induction c using NChain.rec (motive_1 := fun a => ∀ v, evalNumber a.tree = .ok v → v = .num a.value) with
  | num q =>
    rename_i v h
    simp only [NAtom.tree, evalNumber, Except.ok.injEq] at h; rw [← h, NAtom.value]
  | paren c ih => rename_i v h; rw [NAtom.tree] at h; rw [NAtom.value]; exact ih.1 v h
  | one a ih =>
    constructor
    · intro v h
      rw [NChain.flat] at h
      have hl : buildLevels numLevels a.tree [] = a.tree := by simp [buildLevels, numLevels, splitChain]
      have := ih v (by rw [← hl]; exact h)
      rw [this]; simp [NChain.read]
    · intro o q qs h
      simp only [NChain.flat, Prod.mk.injEq] at h
      have : qs = [] := by simpa using h.2.symm
      subst this
      have hv := ih (.num q) (by rw [h.1]; rfl)
      simp only [NVal.num.injEq] at hv
      simp [NChain.read, ← hv]
  | snoc c op a ihc iha =>
    have second : ∀ (o : NOp) (q : Rat) (qs : List Rat), (NChain.snoc c op a).flat = (.num q, qs.map fun q => (o, NTree.num q)) →
        (NChain.snoc c op a).read.1 + (NChain.snoc c op a).read.2 = qs.foldl o.apply q
          ∧ ((o = .mul ∨ o = .div) → (NChain.snoc c op a).read.1 = 0) := by
      intro o q qs h
      simp only [NChain.flat, Prod.mk.injEq] at h
      rcases List.eq_nil_or_concat qs with rfl | ⟨qs', v, rfl⟩
      · simp at h
      · simp only [List.concat_eq_append, List.map_append, List.map_cons, List.map_nil] at h
        obtain ⟨h1, h2⟩ := List.append_inj' h.2 rfl
        simp only [List.cons.injEq, Prod.mk.injEq, and_true] at h2
        obtain ⟨rfl, h3⟩ := h2
        obtain ⟨e1, e2⟩ := ihc.2 op q qs' (Prod.ext h.1 h1)
        have hv := iha (.num v) (by rw [h3]; rfl)
        simp only [NVal.num.injEq] at hv
        rw [List.concat_eq_append, List.foldl_append, List.foldl_cons, List.foldl_nil, ← e1]
        cases op
        · simp [NChain.read, NOp.extend, NOp.apply, ← hv]
        · simp [NChain.read, NOp.extend, NOp.apply, ← hv]; ring
        · have := e2 (Or.inl rfl); simp [NChain.read, NOp.extend, NOp.apply, ← hv, this]
        · have := e2 (Or.inr rfl); simp [NChain.read, NOp.extend, NOp.apply, ← hv, this]
    refine ⟨?_, second⟩
    intro v h
    rcases levels_ok numLevels _ _ v (fun p _ => mem_numLevels p.1) h with ⟨h1, _⟩ | ⟨o, q, qs, r, h1, h2, h3, h4⟩
    · simp [NChain.flat] at h1
    · rw [h4, (second o q qs (Prod.ext h1 h2)).1, foldTo_foldl o r qs q h3]

/-- the operators a user wrote at the top level of a chain -/
theorem homogeneous_ok (o : NOp) (q : Rat) (qs : List Rat) (hd : o = .div → ∀ v ∈ qs, v ≠ 0) :
    foldTo o qs q = .ok (qs.foldl o.apply q) := by
  induction qs generalizing q with
  | nil => rfl
  | cons v qs ih =>
    simp only [foldTo]
    rw [if_neg (by rintro ⟨h1, h2⟩; exact hd h1 v (List.mem_cons_self ..) h2)]
    exact ih _ (fun h w hw => hd h w (List.mem_cons_of_mem _ hw))

/-- the chain `q o q₁ o q₂ …` -/
def chainOf (o : NOp) (q : Rat) (qs : List Rat) : NChain := qs.foldl (fun c v => .snoc c o (.num v)) (.one (.num q))

theorem chainOf_flat (o : NOp) (q : Rat) (qs : List Rat) : (chainOf o q qs).flat = (.num q, qs.map fun q => (o, NTree.num q)) := by
  have : ∀ (qs : List Rat) (c : NChain), (qs.foldl (fun c v => NChain.snoc c o (.num v)) c).flat
      = (c.flat.1, c.flat.2 ++ qs.map fun q => (o, NTree.num q)) := by
    intro qs
    induction qs with
    | nil => intro c; simp
    | cons v qs ih => intro c; rw [List.foldl_cons, ih]; simp [NChain.flat, NAtom.tree]
  rw [chainOf, this]; simp [NChain.flat, NAtom.tree]

theorem split_other (o p : NOp) (hp : p ≠ o) (f : NTree) (qs : List Rat) :
    (splitChain o f (qs.map fun q => (p, NTree.num q))).2 = [] := by
  rw [split_empty]; intro x hx; obtain ⟨q, _, rfl⟩ := List.mem_map.mp hx; exact hp

theorem split_same (o : NOp) (f : NTree) (qs : List Rat) :
    splitChain o f (qs.map fun q => (o, NTree.num q)) = ((f, []), qs.map fun q => (NTree.num q, [])) := by
  induction qs generalizing f with
  | nil => rfl
  | cons q qs ih => simp only [List.map_cons, splitChain, if_true, ih]

theorem foldOps_nums (os : List NOp) (o : NOp) (qs : List Rat) (q : Rat) (h : ∀ f : NTree, buildLevels os f [] = f) :
    foldOps ((qs.map fun q => (NTree.num q, ([] : List (NOp × NTree)))).flatMap fun p => [.str o.tok, buildLevels os p.1 p.2]) q
      = foldTo o qs q := by
  induction qs generalizing q with
  | nil => rfl
  | cons v qs ih =>
    simp only [List.map_cons, List.flatMap_cons, List.cons_append, List.nil_append, foldOps, h, NTree.toFloat, foldTo]
    simp only [bind, Except.bind, applyOp_tok]
    by_cases hz : o = .div ∧ v = 0
    · simp [hz]
    · simp only [if_neg hz]; exact ih _

theorem levels_nil (os : List NOp) (f : NTree) : buildLevels os f [] = f := by
  induction os with
  | nil => rfl
  | cons o os ih => simp [buildLevels, splitChain, ih]

theorem levels_chain (os : List NOp) (o : NOp) (ho : o ∈ os) (q : Rat) (qs : List Rat) (hne : qs ≠ []) :
    evalNumber (buildLevels os (.num q) (qs.map fun q => (o, NTree.num q))) = (foldTo o qs q).map NVal.num := by
  induction os with
  | nil => simp at ho
  | cons p os ih =>
    simp only [buildLevels]
    by_cases hp : o = p
    · subst hp
      rw [split_same]
      cases qs with
      | nil => exact absurd rfl hne
      | cons v qs =>
        have := foldOps_nums os o (v :: qs) q (levels_nil os)
        simp only [List.map_cons, List.flatMap_cons, List.cons_append, List.nil_append] at this
        simp only [List.map_cons, List.isEmpty_cons, Bool.false_eq_true, if_false, levels_nil, List.flatMap_cons, List.cons_append,
          List.nil_append, evalNumber, NTree.toFloat, bind, Except.bind]
        simp only [levels_nil] at this
        rw [this]
        cases foldTo o (v :: qs) q <;> rfl
    · rw [split_other p o hp, List.isEmpty_nil, if_pos rfl]
      exact ih (by simpa [hp] using ho)

end PMisc

/-- **C46** (soundness, every expression) whenever the number written in a prior declaration is accepted, its value is the
arithmetic one. -/
theorem C46_sound (c : NChain) (v : NVal) (h : evalNumber c.tree = .ok v) : v = .num c.value :=
  (PMisc.sound_all c).1 v h

/-- **C46** (completeness, one operator) `q o q₁ o q₂ …` with a single operator `o`, of any length, is evaluated to its arithmetic value
unless it divides by zero. What is missing from the full property is `C46_mixed_violated`. -/
theorem C46_one_operator_partial (o : NOp) (q : Rat) (qs : List Rat) (hd : o = .div → ∀ v ∈ qs, v ≠ 0) :
    evalNumber (PMisc.chainOf o q qs).tree = .ok (.num (PMisc.chainOf o q qs).value) := by
  have hok : ∃ r, evalNumber (PMisc.chainOf o q qs).tree = .ok (.num r) := by
    simp only [NChain.tree, PMisc.chainOf_flat]
    by_cases hne : qs = []
    · subst hne; exact ⟨q, by rw [List.map_nil, PMisc.levels_nil]; rfl⟩
    · rw [PMisc.levels_chain numLevels o (PMisc.mem_numLevels o) q qs hne, PMisc.homogeneous_ok o q qs hd]; exact ⟨_, rfl⟩
  obtain ⟨r, hr⟩ := hok
  rw [hr]; rw [C46_sound _ _ hr]

/-- **C46** (violation) an expression that mixes two operators at the same nesting level is never evaluated: the reader gets an
exception instead of the number, whatever the operands. -/
theorem C46_mixed_violated (c : NChain) (p q : NOp × NTree) (hp : p ∈ c.flat.2) (hq : q ∈ c.flat.2) (hne : p.1 ≠ q.1) :
    ∀ v, evalNumber c.tree ≠ .ok v := by
  intro v h
  rcases PMisc.levels_ok numLevels _ _ v (fun p _ => PMisc.mem_numLevels p.1) h with ⟨h1, _⟩ | ⟨o, _, qs, r, _, h2, _, _⟩
  · rw [h1] at hp; simp at hp
  · rw [h2, List.mem_map] at hp hq
    obtain ⟨_, _, rfl⟩ := hp; obtain ⟨_, _, rfl⟩ := hq; exact hne rfl

/-- non-vacuity: `1/4` is read as a quarter, `10 - 2 - 3` as 5; `1 + 2*3` is a TypeError -/
example : evalNumber (NChain.snoc (.one (.num 1)) .div (.num 4)).tree = .ok (.num (1/4)) := by decide +kernel
example : evalNumber (NChain.snoc (.snoc (.one (.num 10)) .sub (.num 2)) .sub (.num 3)).tree = .ok (.num 5) := by decide +kernel
example : evalNumber (NChain.snoc (.snoc (.one (.num 1)) .add (.num 2)) .mul (.num 3)).tree = .error .typeError := by decide +kernel
example : evalNumber (NChain.one (.paren (.snoc (.one (.num 1)) .div (.num 4)))).tree = .ok (.num (1/4)) := by decide +kernel

end GE
