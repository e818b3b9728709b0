import Verif.Model.DynareGrammar
import Mathlib.Tactic.Linarith
/-! # C101, C103: which names an exported expression mentions -/

namespace GE.Dyn

/-- the text `t` mentions the name `n` -/
def Mentions (t : List DTok) (n : Str) : Prop := DTok.name n ∈ t

/-- the name under which a symbol is exported is `n`, for some symbol of the list -/
def Named (xs : List (TSym ⊕ Str)) (n : Str) : Prop := ∃ x ∈ xs, (dynName x).1 = n

theorem named_nil {n} : Named [] n ↔ False := by simp [Named]
theorem named_append {xs ys n} : Named (xs ++ ys) n ↔ Named xs n ∨ Named ys n := by
  simp [Named, or_and_right, exists_or]

theorem m_inPar {t n} : DTok.name n ∈ inPar t ↔ DTok.name n ∈ t := by simp [inPar]
theorem m_paren {l p t n} : DTok.name n ∈ paren l p t ↔ DTok.name n ∈ t := by unfold paren; split <;> simp [m_inPar]
theorem m_num {v n} : DTok.name n ∈ numToks v ↔ False := by
  unfold numToks; simp only []; split <;> split <;> simp
theorem m_flt {v n} : DTok.name n ∈ fltToks v ↔ False := by unfold fltToks; split <;> simp
theorem m_multjoin {n} : ∀ {l : List (List DTok)}, DTok.name n ∈ multjoin l ↔ ∃ t ∈ l, DTok.name n ∈ t
  | [] => by simp [multjoin]
  | [a] => by simp [multjoin]
  | a :: b :: l => by
    have := m_multjoin (n := n) (l := b :: l)
    rw [multjoin, List.mem_append, List.mem_cons, this]
    · simp
    · simp
theorem m_quotient {a b n} : DTok.name n ∈ quotient a b ↔ (∃ t ∈ a, DTok.name n ∈ t) ∨ ∃ t ∈ b, DTok.name n ∈ t := by
  have top : DTok.name n ∈ multjoin (if a = [] then [[.num 1]] else a) ↔ ∃ t ∈ a, DTok.name n ∈ t := by
    split
    · rename_i h; simp [h, multjoin]
    · exact m_multjoin
  unfold quotient
  simp only []
  split
  · simpa using top
  · rw [List.mem_append, top]; simp
  · rw [List.mem_append, top]; simp [m_inPar, m_multjoin]
theorem m_pow {pb bt lit pe et n} (h : lit ≠ none → DTok.name n ∈ et → False) :
    DTok.name n ∈ powToks pb bt lit pe et ↔ DTok.name n ∈ bt ∨ DTok.name n ∈ et := by
  unfold powToks
  split
  · rename_i hl; have := h (by simp [hl]); simp [m_inPar]; exact fun h => (this h).elim
  · split
    · rename_i hl; have := h (by simp [hl]); simp [m_inPar]; exact fun h => (this h).elim
    · split
      · rename_i hl; have := h (by simp [hl]); simp [m_paren]; exact fun h => (this h).elim
      · simp [m_paren]
theorem m_terms {n} : ∀ {ts : List (Bool × List DTok)} {b}, DTok.name n ∈ addTerms b ts ↔ ∃ p ∈ ts, DTok.name n ∈ p.2
  | [], _ => by simp [addTerms]
  | (s, t) :: ts, b => by
    have ih := m_terms (n := n) (ts := ts) (b := false)
    simp only [addTerms, List.mem_append, ih, List.mem_cons, exists_eq_or_imp]
    refine or_congr ?_ Iff.rfl
    cases s with
    | true => cases b <;> simp [m_inPar]
    | false =>
      simp only [Bool.false_eq_true, if_false]
      split <;> (try cases b) <;> simp

/-- the pieces of a factor mention `n` -/
def PM (p : List (List DTok) × List (List DTok)) (n : Str) : Prop :=
  (∃ t ∈ p.1, DTok.name n ∈ t) ∨ ∃ t ∈ p.2, DTok.name n ∈ t

theorem pm_append {p q n} : PM (p.1 ++ q.1, p.2 ++ q.2) n ↔ PM p n ∨ PM q n := by
  simp only [PM, List.mem_append, or_and_right, exists_or]
  constructor
  · rintro ((h | h) | h | h) <;> simp [h]
  · rintro ((h | h) | h | h) <;> simp [h]
theorem pm_quotient {p n} : DTok.name n ∈ quotient p.1 p.2 ↔ PM p n := m_quotient
theorem pm_nil {n} : PM ([], []) n ↔ False := by simp [PM]
theorem pm_top {t n} : PM ([t], []) n ↔ DTok.name n ∈ t := by simp [PM]
theorem pm_bot {t n} : PM ([], [t]) n ↔ DTok.name n ∈ t := by simp [PM]
theorem pm_num {l v n} : PM (numFactor l v) n ↔ False := by
  simp only [PM, numFactor]
  constructor
  · rintro (⟨t, h1, h2⟩ | ⟨t, h1, h2⟩)
    · split at h1 <;> simp at h1; subst h1; rw [m_paren, m_num] at h2; exact h2
    · split at h1 <;> simp at h1; subst h1; simp at h2
  · exact False.elim

theorem m_tsym {s n} : DTok.name n ∈ tsymToks s ↔ (dynName (.inl s)).1 = n := by
  obtain ⟨b, ix, as⟩ := s
  cases ix with
  | ss => simp [tsymToks, dynName, ssSuffix, eq_comm]
  | t k => simp only [tsymToks, dynName]; split <;> (try split) <;> simp [eq_comm]

theorem factors_names {n} {fs : List DE} (h : ∀ e ∈ fs, ∀ lvl, PM (factor lvl e) n ↔ Named e.syms n) :
    ∀ lvl, PM (factors lvl fs) n ↔ Named (DE.symsL fs) n := by
  intro lvl
  induction fs with
  | nil => simp [factors, DE.symsL, pm_nil, named_nil]
  | cons f fs ih =>
    have h1 := h f (by simp) lvl
    have h2 := ih (fun e he => h e (by simp [he]))
    simp only [factors, DE.symsL, named_append, pm_append, h1, h2]

theorem mul_names {n} {fs : List DE} (h : ∀ e ∈ fs, ∀ lvl, PM (factor lvl e) n ↔ Named e.syms n) :
    DTok.name n ∈ mulToks fs ↔ Named (DE.symsL fs) n := by
  cases fs with
  | nil => simp [mulToks, DE.symsL, named_nil, m_quotient]
  | cons f fs =>
    have ht := fun lvl => factors_names (n := n) (fs := fs) (fun e he => h e (by simp [he])) lvl
    have hh := h f (by simp)
    cases f with
    | num c =>
      simp only [mulToks]
      split
      · rw [List.mem_cons, pm_quotient (p := (_, _))]
        have := pm_append (p := if c = -1 then ([], []) else numFactor pAddLvl (-c)) (q := factors pAddLvl fs) (n := n)
        have h0 : PM (if c = -1 then ([], []) else numFactor pAddLvl (-c)) n ↔ False := by
          split
          · exact pm_nil
          · exact pm_num
        rw [h0, ht, false_or] at this
        simpa [DE.symsL, DE.syms] using this
      · rw [pm_quotient (p := (_, _)), pm_append, pm_num, ht]
        simp [DE.symsL, DE.syms]
    | flt c =>
      simp only [mulToks]
      split
      · rw [List.mem_cons, m_quotient]
        have := pm_append (p := ([[.num (-c)]], [])) (q := factors pAddLvl fs) (n := n)
        rw [pm_top, ht] at this
        simpa [DE.symsL, DE.syms, PM] using this
      · have := pm_append (p := ([[.num c]], [])) (q := factors pMulLvl fs) (n := n)
        rw [pm_top, ht] at this
        rw [m_quotient]
        simpa [DE.symsL, DE.syms, PM] using this
    | _ =>
      simp only [mulToks]
      rw [pm_quotient (p := (_, _)), pm_append, ht, hh, ← named_append]
      rfl

theorem lit_names {e : DE} (h : litOf e ≠ none) (n) : DTok.name n ∈ toks e → False := by
  cases e <;> simp [litOf, toks, m_num, m_flt] at h ⊢

mutual
theorem names : ∀ (e : DE) (n : Str), DTok.name n ∈ toks e ↔ Named e.syms n
  | .num v, n => by simp [toks, m_num, DE.syms, named_nil]
  | .flt v, n => by simp [toks, m_flt, DE.syms, named_nil]
  | .par p, n => by simp [toks, DE.syms, Named, dynName, eq_comm]
  | .tv s, n => by simp [toks, m_tsym, DE.syms, Named]
  | .add ts, n => by
    simp only [toks, m_terms, DE.syms]
    exact namesT ts n
  | .mul fs, n => by
    simp only [toks, DE.syms]
    exact mul_names (namesF fs n)
  | .pow b e, n => by
    simp only [toks, DE.syms, named_append]
    rw [m_pow (fun h => lit_names h n), names b n, names e n]
  | .fn f as, n => by
    simp only [toks, DE.syms, List.mem_cons, reduceCtorEq, false_or, m_inPar]
    exact namesA as n
  termination_by e => (sizeOf e, 0)
theorem namesT : ∀ (es : List DE) (n : Str), (∃ p ∈ termToks es, DTok.name n ∈ p.2) ↔ Named (DE.symsL es) n
  | [], n => by simp [termToks, DE.symsL, named_nil]
  | e :: es, n => by
    simp only [termToks, DE.symsL, named_append, List.mem_cons, exists_eq_or_imp]
    rw [names e n, namesT es n]
  termination_by es => (sizeOf es, 0)
theorem namesA : ∀ (es : List DE) (n : Str), DTok.name n ∈ argToks es ↔ Named (DE.symsL es) n
  | [], n => by simp [argToks, DE.symsL, named_nil]
  | [e], n => by simp [argToks, DE.symsL]; rw [names e n]
  | e :: e' :: es, n => by
    have h1 := names e n
    have h2 := namesA (e' :: es) n
    simp only [argToks, List.mem_append, List.mem_cons, reduceCtorEq, false_or, h1, h2]
    rw [← named_append]
    rfl
  termination_by es => (sizeOf es, 0)
theorem namesF : ∀ (es : List DE) (n : Str), ∀ e ∈ es, ∀ lvl, PM (factor lvl e) n ↔ Named e.syms n
  | [], _ => by simp
  | e :: es, n => by
    intro x hx lvl
    rcases List.mem_cons.1 hx with h | hx
    · rw [h]; exact namesE e n lvl
    · exact namesF es n x hx lvl
  termination_by es => (sizeOf es, 0)
theorem namesE : ∀ (e : DE) (n : Str) (lvl : Nat), PM (factor lvl e) n ↔ Named e.syms n
  | .num v, n, lvl => by simp [factor, pm_num, DE.syms, named_nil]
  | .pow b (.num r), n, lvl => by
    have hb := names b n
    simp only [factor, DE.syms, List.append_nil]
    split
    · split
      · rw [pm_bot]; split <;> simp [m_inPar, m_paren, hb]
      · rw [pm_bot, m_pow (by simp [m_num]), hb]; simp [m_num]
    · rw [pm_top, m_pow (by simp [m_num]), hb]; simp [m_num]
  | .pow b (.flt w), n, lvl => by have := names (.pow b (.flt w)) n; simpa [factor, pm_top, toks] using this
  | .pow b (.par w), n, lvl => by have := names (.pow b (.par w)) n; simpa [factor, pm_top, toks] using this
  | .pow b (.tv w), n, lvl => by have := names (.pow b (.tv w)) n; simpa [factor, pm_top, toks] using this
  | .pow b (.add w), n, lvl => by have := names (.pow b (.add w)) n; simpa [factor, pm_top, toks] using this
  | .pow b (.mul w), n, lvl => by have := names (.pow b (.mul w)) n; simpa [factor, pm_top, toks] using this
  | .pow b (.pow w w'), n, lvl => by have := names (.pow b (.pow w w')) n; simpa [factor, pm_top, toks] using this
  | .pow b (.fn w w'), n, lvl => by have := names (.pow b (.fn w w')) n; simpa [factor, pm_top, toks] using this
  | .flt w, n, lvl => by have := names (.flt w) n; simpa [factor, pm_top, toks, m_paren] using this
  | .par w, n, lvl => by have := names (.par w) n; simpa [factor, pm_top, toks] using this
  | .tv w, n, lvl => by have := names (.tv w) n; simpa [factor, pm_top, toks] using this
  | .add w, n, lvl => by have := names (.add w) n; simpa [factor, pm_top, toks, m_inPar] using this
  | .mul w, n, lvl => by have := names (.mul w) n; simpa [factor, pm_top, toks, m_paren] using this
  | .fn w w', n, lvl => by have := names (.fn w w') n; simpa [factor, pm_top, toks] using this
  termination_by e => (sizeOf e, 1)
end

end GE.Dyn

namespace GE
open Dyn

/-- **C101** (names): the text mentions exactly the exported names of the expression's symbols: nothing is lost and
nothing is invented. -/
theorem C101_names (e : DE) (n : Str) : DTok.name n ∈ toks e ↔ ∃ x ∈ e.syms, (dynName x).1 = n := names e n

end GE
