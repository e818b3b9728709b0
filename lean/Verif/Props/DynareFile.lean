import Verif.Props.Dynare3
import Verif.Props.DynareNames
import Mathlib.Tactic.Positivity
import Mathlib.Algebra.Order.Floor.Ring
import Mathlib.Data.Rat.Floor
/-! # C102, C105: declarations and numbers of the exported file -/

namespace GE.Dyn

theorem intercalate_snoc (g : List Str) (hg : g ≠ []) (x : Str) :
    List.intercalate [',', ' '] (g ++ [x]) = List.intercalate [',', ' '] g ++ ([',', ' '] ++ x) := by
  induction g with
  | nil => exact absurd rfl hg
  | cons a g ih =>
    cases g with
    | nil => simp [List.intercalate]
    | cons b g =>
      have := ih (by simp)
      simp only [List.intercalate, List.cons_append, List.intersperse_cons₂, List.flatten_cons] at this ⊢
      rw [this]; simp

/-- the current line holds the names `cur` -/
def lineOf (kw : Str) (cur : List Str) : Str := kw ++ [' '] ++ List.intercalate [',', ' '] cur

theorem lineOf_ne (kw cur) : lineOf kw cur ≠ kw := by
  intro h
  have := congrArg List.length h
  simp [lineOf] at this

theorem lineOf_one (kw x) : lineOf kw [x] = kw ++ ' ' :: x := by simp [lineOf, List.intercalate]
theorem declLine_eq (kw g) : declLine kw g = lineOf kw g ++ [';'] := rfl
theorem lineOf_snoc (kw) {cur : List Str} (h : cur ≠ []) (x) : lineOf kw (cur ++ [x]) = lineOf kw cur ++ ([',', ' '] ++ x) := by
  simp only [lineOf, intercalate_snoc cur h, List.append_assoc]

/-- a line break comes only where the next name would not fit -/
def Greedy (width : Nat) (kw : Str) (gs : List (List Str)) : Prop :=
  gs.IsChain fun g h => ∀ x xs, h = x :: xs → width < (declLine kw (g ++ [x])).length

theorem lines_ok (width : Nat) (kw : Str) : ∀ (items cur : List Str), cur ≠ [] →
    (∀ x ∈ items, (declLine kw [x]).length ≤ width) → (lineOf kw cur).length + 1 ≤ width →
    ∃ g gs, (g :: gs).flatten = cur ++ items ∧ (∀ x ∈ g :: gs, x ≠ []) ∧ cur <+: g ∧
      linesLoop width kw (lineOf kw cur) items = (g :: gs).map (declLine kw) ∧
      (∀ x ∈ g :: gs, (declLine kw x).length ≤ width) ∧ Greedy width kw (g :: gs)
  | [], cur, hc, _, hw =>
    ⟨cur, [], by simp, by simpa using hc, List.prefix_refl _, by simp [linesLoop, declLine_eq],
      by simpa [declLine_eq] using hw, by simp [Greedy]⟩
  | x :: items, cur, hc, hf, hw => by
    have hx := hf x (by simp)
    simp only [declLine_eq, List.length_append, List.length_singleton] at hx
    by_cases hfit : (lineOf kw (cur ++ [x])).length + 1 ≤ width
    · obtain ⟨g, gs, h1, h2, h3, h4, h5, h6⟩ := lines_ok width kw items (cur ++ [x]) (by simp)
        (fun y hy => hf y (by simp [hy])) hfit
      refine ⟨g, gs, by simpa using h1, h2, (List.prefix_append cur [x]).trans h3, ?_, h5, h6⟩
      rw [← h4, linesLoop]
      simp only [lineOf_ne, if_false]
      rw [lineOf_snoc kw hc] at hfit ⊢
      rw [if_neg]
      simp only [List.length_append, List.length_cons, List.length_nil] at hfit ⊢
      omega
    · obtain ⟨g, gs, h1, h2, h3, h4, h5, h6⟩ := lines_ok width kw items [x] (by simp)
        (fun y hy => hf y (by simp [hy])) hx
      refine ⟨cur, g :: gs, ?_, ?_, List.prefix_refl _, ?_, ?_, ?_⟩
      · rw [List.flatten_cons, h1]; simp
      · intro y hy
        rcases List.mem_cons.1 hy with rfl | hy
        · exact hc
        · exact h2 y hy
      · rw [linesLoop]
        simp only [lineOf_ne, if_false]
        rw [lineOf_snoc kw hc] at hfit
        rw [if_pos, List.map_cons, ← h4, lineOf_one, declLine_eq]
        simp only [List.length_append, List.length_cons, List.length_nil] at hfit ⊢
        omega
      · intro y hy
        rcases List.mem_cons.1 hy with rfl | hy
        · simpa [declLine_eq] using hw
        · exact h5 y hy
      · refine List.IsChain.cons_cons ?_ h6
        rintro y ys rfl
        have : y = x := by
          obtain ⟨t, ht⟩ := h3
          simp at ht; exact ht.1.symm
        subst this
        rw [declLine_eq]
        simp only [List.length_append, List.length_singleton]
        omega

/-- the first name does not fit on a line: the statement written before it has no names -/
theorem first_too_long (width : Nat) (kw x : Str) (items : List Str) (h : width < (declLine kw [x]).length) :
    ∃ ls, writeLines width kw (x :: items) = (kw ++ [';']) :: ls := by
  refine ⟨linesLoop width kw (kw ++ ' ' :: x) items, ?_⟩
  unfold writeLines
  rw [linesLoop]
  simp only [if_true]
  rw [if_pos]
  simp only [declLine_eq, lineOf_one, List.length_append, List.length_cons, List.length_nil] at h ⊢
  omega

theorem roundEven_near (x : Rat) : |(roundEven x : Rat) - x| ≤ 1/2 := by
  have h1 : ((x.floor : Int) : Rat) ≤ x := Int.floor_le x
  have h2 : x < (x.floor : Int) + 1 := Int.lt_floor_add_one x
  unfold roundEven
  simp only []
  rw [abs_le]
  split
  · constructor <;> linarith
  · split
    · push_cast; constructor <;> linarith
    · split
      · constructor <;> linarith
      · push_cast; constructor <;> linarith

theorem shown_near (d : Nat) (v : Rat) : |shown d v - v| ≤ 1 / (2 * 10 ^ d) := by
  have h := roundEven_near (v * 10 ^ d)
  have hp : (0 : Rat) < 10 ^ d := by positivity
  have e : shown d v - v = ((roundEven (v * 10 ^ d) : Rat) - v * 10 ^ d) / 10 ^ d := by
    unfold shown; field_simp
  rw [e, abs_div, abs_of_pos hp, div_le_iff₀ hp]
  calc _ ≤ (1/2 : Rat) := h
    _ = _ := by field_simp

theorem roundEven_int (k : Int) : roundEven k = k := by
  have : ((k : Rat)).floor = k := Rat.floor_intCast k
  unfold roundEven
  simp [this]

theorem roundEven_of_near {x : Rat} {k : Int} (h : |x - k| < 1/2) : roundEven x = k := by
  have := roundEven_near x
  rw [abs_lt] at h
  rw [abs_le] at this
  have h1 : ((roundEven x : Int) : Rat) - k < 1 := by linarith
  have h2 : -1 < ((roundEven x : Int) : Rat) - k := by linarith
  have h1' : roundEven x - k < 1 := by exact_mod_cast h1
  have h2' : -1 < roundEven x - k := by exact_mod_cast h2
  omega

end GE.Dyn

namespace GE
open Dyn

/-- **C102** (declarations): whatever names are declared, if each fits on a line by itself then the statements written
hold exactly these names in this order, at least one per statement, every line is within the width, and a new line starts
only where the next name would not have fitted. -/
theorem C102_lines (width : Nat) (kw : Str) (names : List Str) (hne : names ≠ [])
    (hfit : ∀ x ∈ names, (declLine kw [x]).length ≤ width) :
    ∃ gs : List (List Str), gs.flatten = names ∧ (∀ g ∈ gs, g ≠ []) ∧ writeLines width kw names = gs.map (declLine kw) ∧
      (∀ l ∈ writeLines width kw names, l.length ≤ width) ∧
      gs.IsChain fun g h => ∀ x xs, h = x :: xs → width < (declLine kw (g ++ [x])).length := by
  cases names with
  | nil => exact absurd rfl hne
  | cons x items =>
    have hx := hfit x (by simp)
    have hx' : (lineOf kw [x]).length + 1 ≤ width := by simpa [declLine_eq] using hx
    obtain ⟨g, gs, h1, h2, _, h4, h5, h6⟩ := lines_ok width kw items [x] (by simp) (fun y hy => hfit y (by simp [hy])) hx'
    have e : writeLines width kw (x :: items) = linesLoop width kw (lineOf kw [x]) items := by
      unfold writeLines
      rw [linesLoop]
      simp only [if_true]
      rw [if_neg, lineOf_one]; · rfl
      rw [lineOf_one] at hx'
      simp only [List.length_append, List.length_cons, List.length_nil] at hx' ⊢
      omega
    refine ⟨g :: gs, by simpa using h1, h2, by rw [e, h4], ?_, h6⟩
    intro l hl
    rw [e, h4] at hl
    obtain ⟨y, hy, rfl⟩ := List.mem_map.1 hl
    exact h5 y hy

/-- **C102** (what is declared): the variables under `var`, the shocks under `varexo`, the free parameters under
`parameters`, each exactly once and in the model's order. -/
theorem C102_declared (m : ModelView) (width : Nat) (h1 : m.vars ≠ []) (h2 : m.shocks ≠ []) (h3 : m.params ≠ [])
    (w1 : ∀ s ∈ m.vars, s.base.length + 5 ≤ width) (w2 : ∀ s ∈ m.shocks, s.base.length + 8 ≤ width)
    (w3 : ∀ p ∈ m.params, p.length + 12 ≤ width) :
    (∃ gs : List (List Str), gs.flatten = m.vars.map TSym.base ∧ (∀ g ∈ gs, g ≠ []) ∧
      varDecl m width = gs.map (declLine "var".toList)) ∧
    (∃ gs : List (List Str), gs.flatten = m.shocks.map TSym.base ∧ (∀ g ∈ gs, g ≠ []) ∧
      shockDecl m width = gs.map (declLine "varexo".toList)) ∧
    (∃ gs : List (List Str), gs.flatten = m.params ∧ (∀ g ∈ gs, g ≠ []) ∧
      paramDecl m width = gs.map (declLine "parameters".toList)) := by
  have key : ∀ (kw : Str) (ns : List Str), ns ≠ [] → (∀ x ∈ ns, x.length + (kw.length + 2) ≤ width) →
      ∃ gs : List (List Str), gs.flatten = ns ∧ (∀ g ∈ gs, g ≠ []) ∧ writeLines width kw ns = gs.map (declLine kw) := by
    intro kw ns hn hw
    obtain ⟨gs, a, b, c, _⟩ := C102_lines width kw ns hn (by
      intro x hx
      have := hw x hx
      simp only [declLine_eq, lineOf_one, List.length_append, List.length_cons, List.length_nil]
      omega)
    exact ⟨gs, a, b, c⟩
  refine ⟨key _ _ (by simpa using h1) ?_, key _ _ (by simpa using h2) ?_, key _ _ h3 ?_⟩
  · intro x hx
    obtain ⟨s, hs, rfl⟩ := List.mem_map.1 hx
    exact w1 s hs
  · intro x hx
    obtain ⟨s, hs, rfl⟩ := List.mem_map.1 hx
    exact w2 s hs
  · exact w3

/-- **C102** does not hold as stated for every model: with nothing to declare (a model without shocks, or without free
parameters) the statement is the bare keyword, which Dynare rejects; and when the first name is too long for the line, a
bare keyword statement precedes it. -/
theorem C102_bare_keyword_violated :
    (∀ width kw, writeLines width kw [] = [kw ++ [';']]) ∧
    (∀ width kw x items, width < (declLine kw [x]).length →
      ∃ ls, writeLines width kw (x :: items) = (kw ++ [';']) :: ls) :=
  ⟨fun _ _ => rfl, fun width kw x items h => first_too_long width kw x items h⟩

/-- non-trivial instance: three names on two lines -/
example : writeLines 12 "var".toList ["K".toList, "Y".toList, "C_H".toList] = ["var K, Y;".toList, "var C_H;".toList] := by
  decide

/-- **C105** (numbers): the parameter values written are, name by name and in order, the model's values rounded to the
nearest multiple of 1/1000, so within 1/2000 of them, and exact for values with three decimals. -/
theorem C105_values_partial (m : ModelView) :
    (writeValues m.values).map Prod.fst = m.values.map Prod.fst ∧
    (∀ p ∈ m.values, (p.1, shown 3 p.2) ∈ writeValues m.values ∧ |shown 3 p.2 - p.2| ≤ 1/2000) ∧
    (∀ k : Int, shown 3 (k/1000) = k/1000) := by
  refine ⟨by simp [writeValues, Function.comp_def], fun p hp => ⟨List.mem_map.2 ⟨p, hp, rfl⟩, ?_⟩, fun k => ?_⟩
  · have := shown_near 3 p.2
    norm_num at this ⊢
    exact this
  · unfold shown
    rw [show ((k : Rat) / 1000 * 10 ^ 3) = k by ring, roundEven_int]; norm_num

/-- **C105** does not hold as stated: a parameter smaller than 1/2000 in absolute value is exported as 0, and a discount
factor above 0.9995 as 1. -/
theorem C105_rounding_violated :
    (∀ v : Rat, |v| < 1/2000 → shown 3 v = 0) ∧ (∀ v : Rat, 1999/2000 < v → v < 2001/2000 → shown 3 v = 1) := by
  refine ⟨fun v h => ?_, fun v h1 h2 => ?_⟩
  · have : roundEven (v * 10 ^ 3) = 0 := by
      refine roundEven_of_near ?_
      rw [abs_lt] at h ⊢
      push_cast
      constructor <;> linarith
    unfold shown; rw [this]; simp
  · have : roundEven (v * 10 ^ 3) = (1000 : Int) := by
      refine roundEven_of_near ?_
      rw [abs_lt]
      push_cast
      constructor <;> linarith
    unfold shown; rw [this]; norm_num

/-- **C105** (shocks): every shock is exported with standard deviation 0.01, whatever the model says about it. -/
theorem C105_shock_std_violated (m : ModelView) :
    (shockStd m).map Prod.fst = m.shocks.map TSym.base ∧ ∀ p ∈ shockStd m, p.2 = 1/100 := by
  refine ⟨by simp [shockStd, Function.comp_def], ?_⟩
  intro p hp
  obtain ⟨s, _, rfl⟩ := List.mem_map.1 hp
  rfl

end GE
