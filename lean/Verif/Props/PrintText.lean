import Verif.Model.PrintText
import Verif.Model.PrintSpec
import Verif.Props.Grammar
import Verif.Props.Time
/-! # C108, characters: the printed text spells the printed tokens -/

namespace GE.Prt
open Gcn

/-- a character that ends words and numbers -/
def sepChar (c : Char) : Prop := c.isAlphanum = false ∧ c ≠ '_' ∧ c ≠ '.' ∧ c ≠ '['

instance (c : Char) : Decidable (sepChar c) := by unfold sepChar; infer_instance

def Sep (r : List Char) : Prop := ∀ c cs, r = c :: cs → sepChar c
def SepHead (r : List Char) : Prop := ∃ c cs, r = c :: cs ∧ sepChar c

/-- spells the tokens whatever follows -/
def Prints0 (s : List Char) (ts : List Tok) : Prop := ∀ r us, SpellsToks r us → SpellsToks (s ++ r) (ts ++ us)
/-- spells the tokens when a separator follows -/
def Prints (s : List Char) (ts : List Tok) : Prop := ∀ r us, Sep r → SpellsToks r us → SpellsToks (s ++ r) (ts ++ us)

theorem Prints0.weak {s ts} (h : Prints0 s ts) : Prints s ts := fun r us _ hr => h r us hr

theorem comp {a b ts us} (ha : Prints a ts) (hb : Prints b us) (hs : SepHead b) : Prints (a ++ b) (ts ++ us) := by
  intro r vs hr h
  rw [List.append_assoc, List.append_assoc]
  obtain ⟨c, cs, rfl, hc⟩ := hs
  exact ha _ _ (by intro c' cs' e; simp only [List.cons_append, List.cons.injEq] at e; rw [← e.1]; exact hc) (hb r vs hr h)

theorem compA {a b ts us} (ha : Prints a ts) (hb : Prints0 b us) (hs : SepHead b) : Prints0 (a ++ b) (ts ++ us) := by
  intro r vs h
  rw [List.append_assoc, List.append_assoc]
  obtain ⟨c, cs, rfl, hc⟩ := hs
  exact ha _ _ (by intro c' cs' e; simp only [List.cons_append, List.cons.injEq] at e; rw [← e.1]; exact hc) (hb r vs h)

theorem comp0 {a b ts us} (ha : Prints0 a ts) (hb : Prints b us) : Prints (a ++ b) (ts ++ us) := by
  intro r vs hr h
  rw [List.append_assoc, List.append_assoc]
  exact ha _ _ (hb r vs hr h)

theorem comp00 {a b ts us} (ha : Prints0 a ts) (hb : Prints0 b us) : Prints0 (a ++ b) (ts ++ us) := by
  intro r vs h
  rw [List.append_assoc, List.append_assoc]
  exact ha _ _ (hb r vs h)

theorem p_nil : Prints0 [] [] := fun _ _ h => h

theorem p_layout {l} (hl : Layout l) : Prints0 l [] := by
  intro r us h
  exact Lx.spells_layout (l := []) .nil hl h

theorem spells_one {w r t us} (hw : Writes w t) (ha : Apart t r) (h : SpellsToks r us) : SpellsToks (w ++ r) (t :: us) := by
  have := SpellsToks.cons (l := []) .nil hw ha h
  simpa using this

theorem p_fixed (c : Char) (t : Tok) (h : (c, t) ∈ fixedToks) (h1 : t ≠ .op .sub) (h2 : t ≠ .op .mul) : Prints0 [c] [t] := by
  intro r us hr
  refine spells_one (.fixed h) ?_ hr
  simp only [fixedToks, List.mem_cons, Prod.mk.injEq, List.not_mem_nil, or_false] at h
  rcases h with ⟨_, rfl⟩ | ⟨_, rfl⟩ | ⟨_, rfl⟩ | ⟨_, rfl⟩ | ⟨_, rfl⟩ | ⟨_, rfl⟩ | ⟨_, rfl⟩ | ⟨_, rfl⟩ | ⟨_, rfl⟩ | ⟨_, rfl⟩ | ⟨_, rfl⟩ |
    ⟨_, rfl⟩ | ⟨_, rfl⟩ | ⟨_, rfl⟩ | ⟨_, rfl⟩ <;> first | trivial | exact absurd rfl h1 | exact absurd rfl h2

theorem space_layout : Layout [' '] := .white (by simp) .nil
theorem line_layout : Layout ['\n'] := .white (by simp) .nil

/-- an operator between spaces -/
theorem p_op (o : BinOp) : Prints0 [' ', opText o, ' '] [.op o] := by
  intro r us h
  have h1 : SpellsToks (' ' :: r) us := p_layout space_layout r us h
  have : SpellsToks ([opText o] ++ (' ' :: r)) (.op o :: us) := by
    refine spells_one ?_ ?_ h1
    · cases o <;> exact .fixed (by decide)
    · cases o <;> simp [Apart]
  exact p_layout space_layout _ _ this

theorem p_word {n} (h : IsWord n) : Prints n [.id n] := by
  intro r us hr hs
  refine spells_one (.word h) ⟨fun c cs e => ⟨(hr c cs e).1, (hr c cs e).2.1⟩, fun _ r' e => ?_⟩ hs
  exact (hr _ _ e).2.2.2 rfl

theorem p_number {w q} (h : Writes w (.num q)) : Prints w [.num q] := by
  intro r us hr hs
  exact spells_one h (fun c cs e => ⟨(hr c cs e).1, (hr c cs e).2.1, (hr c cs e).2.2.1⟩) hs

/-! ### numbers and dates -/

theorem natStr_digits (n : Nat) : IsDigits (natStr n) := fun _ h => natStr_digit h

theorem natStr_ne (n : Nat) : natStr n ≠ [] := by
  intro h
  have := congrArg (fun l => Nat.ofDigitChars 10 l 0) h
  by_cases hn : n = 0
  · subst hn; exact absurd h (by decide)
  · simp [natStr, Nat.ofDigitChars_toDigits] at this
    exact hn this

theorem decimal_natStr (n : Nat) : decimal (natStr n) = n := by
  rw [← Lx.decVal_eq]
  unfold decVal natStr
  rw [← Nat.ofDigitChars_eq_foldl, Nat.ofDigitChars_toDigits] <;> decide

theorem writes_nat (n : Nat) : Writes (natStr n) (.num n) := by
  have := Writes.number (.int (natStr_digits n) (natStr_ne n)) .none
  rw [List.append_nil, decimal_natStr] at this
  simpa using this

theorem writes_int {v : Rat} (h0 : 0 ≤ v) (h1 : v.den = 1) : Writes (intText v.num) (.num v) := by
  have hn : ¬ v.num < 0 := by rw [not_lt]; exact Rat.num_nonneg.2 h0
  unfold intText
  rw [if_neg hn]
  have e : v = (v.num.natAbs : Rat) := by
    have h2 : (v.num : Rat) = v := by
      have := Rat.num_div_den v
      rw [h1] at this
      simpa using this
    have h3 : (v.num.natAbs : Int) = v.num := Int.natAbs_of_nonneg (not_lt.1 hn)
    rw [← h2, ← h3]; simp
  have := writes_nat v.num.natAbs
  rw [← e] at this
  exact this

theorem writes_index (t : TIdx) : Writes (indexText t) (.tix t) := by
  cases t with
  | ss => exact Writes.index (l := []) (w := ['s', 's']) (l' := []) .nil .steady .nil
  | t k =>
    simp only [indexText]
    split
    · rename_i h; subst h
      exact Writes.index (l := []) (w := []) (l' := []) .nil .now .nil
    · unfold intText
      split
      · rename_i hk
        have h1 := TimeText.lag (natStr_digits k.natAbs) (natStr_ne _)
        rw [decimal_natStr, Int.ofNat_natAbs_of_nonpos (Int.le_of_lt hk), Int.neg_neg] at h1
        have := Writes.index (l := []) (l' := []) .nil h1 .nil
        simpa using this
      · rename_i hk
        have h1 := TimeText.lead (natStr_digits k.natAbs) (natStr_ne _)
        rw [decimal_natStr, Int.natAbs_of_nonneg (not_lt.1 hk)] at h1
        have := Writes.index (l := []) (l' := []) .nil h1 .nil
        simpa using this

theorem index_head (t : TIdx) : ∃ cs, indexText t = '[' :: cs := by
  cases t with
  | ss => exact ⟨_, rfl⟩
  | t k => simp only [indexText]; split <;> exact ⟨_, rfl⟩

/-- a date is not the opening of an expectation -/
theorem index_tail (t : TIdx) {r : List Char} (hr : Sep r) : ∀ r', indexText t ++ r ≠ '[' :: ']' :: '[' :: r' := by
  intro r' e
  cases t with
  | ss => exact absurd e (by simp [indexText])
  | t k =>
    simp only [indexText] at e
    split at e
    · have e' : r = '[' :: r' := by simpa using e
      exact (hr _ _ e').2.2.2 rfl
    · unfold intText at e
      split at e
      · simp at e
      · have hd := natStr_digits k.natAbs
        have hne := natStr_ne k.natAbs
        generalize natStr k.natAbs = ds at *
        cases ds with
        | nil => exact hne rfl
        | cons d ds =>
          simp only [List.cons_append, List.cons.injEq, true_and] at e
          have := hd d (by simp)
          rw [e.1] at this
          exact absurd this (by decide)

theorem p_var {n t} (h : IsWord n) : Prints (n ++ indexText t) [.id n, .tix t] := by
  intro r us hr hs
  rw [List.append_assoc]
  obtain ⟨cs, hcs⟩ := index_head t
  refine spells_one (.word h) ⟨fun c cs' e => ?_, fun _ => index_tail t hr⟩ (spells_one (writes_index t) trivial hs)
  rw [hcs] at e
  simp only [List.cons_append, List.cons.injEq] at e
  rw [← e.1]; exact ⟨by decide, by decide⟩

/-! ### expressions -/

/-- it goes on without making `->` of a minus sign -/
def NoArrow (s : List Char) : Prop := ∃ c cs, s = c :: cs ∧ c ≠ '>'

theorem NoArrow.app {a b} (h : NoArrow a) : NoArrow (a ++ b) := by
  obtain ⟨c, cs, rfl, h⟩ := h
  exact ⟨c, cs ++ b, rfl, h⟩

theorem writes_noarrow {w t} (h : Writes w t) : NoArrow w := by
  cases h with
  | fixed h =>
    refine ⟨_, _, rfl, ?_⟩
    rintro rfl
    simp [fixedToks] at h
  | power => exact ⟨_, _, rfl, by decide⟩
  | arrow => exact ⟨_, _, rfl, by decide⟩
  | word h =>
    obtain ⟨c, cs, rfl, hc, _⟩ := h
    refine ⟨c, cs, rfl, ?_⟩
    rintro rfl
    rcases hc with hc | hc <;> exact absurd hc (by decide)
  | number hm he =>
    cases hm with
    | int hi hne =>
      rename_i m _ _
      cases m with
      | nil => exact absurd rfl hne
      | cons d ds => exact ⟨d, _, rfl, by rintro rfl; exact absurd (hi '>' (by simp)) (by decide)⟩
    | @dec i f hi hf hne =>
      cases i with
      | nil => exact ⟨'.', _, rfl, by decide⟩
      | cons d ds => exact ⟨d, _, rfl, by rintro rfl; exact absurd (hi '>' (by simp)) (by decide)⟩
  | index => exact ⟨_, _, rfl, by decide⟩
  | tag => exact ⟨_, _, rfl, by decide⟩
  | expect => exact ⟨_, _, rfl, by decide⟩

theorem p_minus {s ts} (h : Prints s ts) (ha : NoArrow s) : Prints ('-' :: s) (.op .sub :: ts) := by
  intro r us hr hs
  obtain ⟨c, cs, rfl, hc⟩ := ha
  refine spells_one (w := ['-']) (.fixed (by decide)) ?_ (h r us hr hs)
  intro cs' e
  simp only [List.cons_append, List.cons.injEq] at e
  exact hc e.1

theorem p_expect : Prints0 ['E', '[', ']', '['] [.expectOpen] := fun _ _ hr => spells_one .expect trivial hr

theorem p_lpar : Prints0 ['('] [.lpar] := p_fixed _ _ (by decide) (by decide) (by decide)
theorem p_rpar : Prints0 [')'] [.rpar] := p_fixed _ _ (by decide) (by decide) (by decide)
theorem p_rbr : Prints0 [']'] [.rbr] := p_fixed _ _ (by decide) (by decide) (by decide)
theorem p_comma : Prints0 [','] [.comma] := p_fixed _ _ (by decide) (by decide) (by decide)
theorem p_semi : Prints0 [';'] [.semi] := p_fixed _ _ (by decide) (by decide) (by decide)
theorem p_eq : Prints0 ['='] [.eq] := p_fixed _ _ (by decide) (by decide) (by decide)
theorem p_colon : Prints0 [':'] [.colon] := p_fixed _ _ (by decide) (by decide) (by decide)
theorem p_tilde : Prints0 ['~'] [.tilde] := p_fixed _ _ (by decide) (by decide) (by decide)
theorem p_lbrace : Prints0 ['{'] [.lbrace] := p_fixed _ _ (by decide) (by decide) (by decide)
theorem p_rbrace : Prints0 ['}'] [.rbrace] := p_fixed _ _ (by decide) (by decide) (by decide)
theorem p_space : Prints0 [' '] [] := p_layout space_layout
theorem p_arrow : Prints0 ['-', '>'] [.arrow] := fun _ _ hr => spells_one .arrow trivial hr

theorem sepc (c : Char) (h : sepChar c) (cs : List Char) : SepHead (c :: cs) := ⟨c, cs, rfl, h⟩

mutual
theorem expr_prints (num : Rat → Str) : ∀ (e : Expr) (p : Nat), e.Stable → ExprOk num e →
    Prints (exprText num p e) (e.toks p) ∧ NoArrow (exprText num p e)
  | .num v, p, hs, ho => by
    simp only [Expr.Stable] at hs
    simp only [ExprOk] at ho
    have hw : Writes (exprText num p (.num v)) (.num v) := by
      simp only [exprText]
      split
      · rename_i h; exact writes_int hs h
      · rename_i h; exact ho.resolve_left h
    have : (Expr.num v).toks p = [.num v] := by simp only [Expr.toks]; rw [if_neg (not_lt.2 hs)]
    rw [this]
    exact ⟨p_number hw, writes_noarrow hw⟩
  | .par n, p, _, ho => by
    simp only [ExprOk] at ho
    simp only [exprText, Expr.toks]
    exact ⟨p_word ho, writes_noarrow (.word ho)⟩
  | .var n t, p, _, ho => by
    simp only [ExprOk] at ho
    simp only [exprText, Expr.toks]
    exact ⟨p_var ho, (writes_noarrow (.word ho)).app⟩
  | .neg e, p, hs, ho => by
    simp only [Expr.Stable] at hs
    simp only [ExprOk] at ho
    simp only [exprText, Expr.toks]
    obtain ⟨h1, h2⟩ := expr_prints num e negPrec hs ho
    exact ⟨p_minus h1 h2, ⟨_, _, rfl, by decide⟩⟩
  | .bin o l r, p, hs, ho => by
    simp only [Expr.Stable] at hs
    simp only [ExprOk] at ho
    obtain ⟨h1, h2⟩ := expr_prints num l (prec o) hs.1 ho.1
    obtain ⟨h3, _⟩ := expr_prints num r (rightPrec o) hs.2.1 ho.2
    simp only [exprText, Expr.toks]
    have hb : Prints (exprText num (prec o) l ++ ' ' :: opText o :: ' ' :: exprText num (rightPrec o) r)
        (l.toks (prec o) ++ .op o :: r.toks (rightPrec o)) :=
      comp h1 (comp0 (p_op o) h3) (sepc ' ' (by decide) _)
    split
    · refine ⟨?_, ⟨_, _, rfl, by decide⟩⟩
      exact (comp00 p_lpar (compA hb p_rpar (sepc ')' (by decide) _))).weak
    · exact ⟨hb, h2.app⟩
  | .call f as, p, hs, ho => by
    simp only [Expr.Stable] at hs
    simp only [ExprOk] at ho
    simp only [exprText, Expr.toks]
    refine ⟨?_, (writes_noarrow (.word ho.1)).app⟩
    have := args_prints num as hs.2 ho.2
    exact comp (p_word ho.1) (comp00 p_lpar (compA this p_rpar (sepc ')' (by decide) _))).weak (sepc '(' (by decide) _)
  | .expect e, p, hs, ho => by
    simp only [Expr.Stable] at hs
    simp only [ExprOk] at ho
    simp only [exprText, Expr.toks]
    obtain ⟨h1, _⟩ := expr_prints num e 0 hs ho
    exact ⟨(comp00 p_expect (compA h1 p_rbr (sepc ']' (by decide) _))).weak, ⟨_, _, rfl, by decide⟩⟩
theorem args_prints (num : Rat → Str) : ∀ (as : List Expr), Expr.StableArgs as → ArgsOk num as → Prints (argsText num as) (Expr.toksArgs as)
  | [], _, _ => by simp only [argsText, Expr.toksArgs]; exact p_nil.weak
  | [a], hs, ho => by
    simp only [Expr.StableArgs] at hs
    simp only [ArgsOk] at ho
    simp only [argsText, Expr.toksArgs]
    exact (expr_prints num a 0 hs.1 ho.1).1
  | a :: b :: as, hs, ho => by
    simp only [Expr.StableArgs] at hs
    simp only [ArgsOk] at ho
    have h1 := (expr_prints num a 0 hs.1 ho.1).1
    have h2 := args_prints num (b :: as) (by simpa [Expr.StableArgs] using hs.2) (by simpa [ArgsOk] using ho.2)
    simp only [argsText, Expr.toksArgs]
    exact comp h1 (comp0 (comp00 p_comma p_space) h2) (sepc ',' (by decide) _)
end

/-! ### equations -/

theorem compOpt {a s ts us} (ha : Prints a ts) (h : (s = [] ∧ us = []) ∨ (Prints s us ∧ SepHead s)) : Prints (a ++ s) (ts ++ us) := by
  rcases h with ⟨rfl, rfl⟩ | ⟨h1, h2⟩
  · simpa using ha
  · exact comp ha h1 h2

theorem p_eq_spaced : Prints0 " = ".toList [.eq] := comp00 p_space (comp00 p_eq p_space)

theorem eqn_prints (num : Rat → Str) {e : Eqn} (h : EqnOk num e) : Prints0 (eqnText num e ++ [';']) e.toks := by
  obtain ⟨hl, hr, hm, hc⟩ := h
  have h1 := (expr_prints num e.lhs 0 hl.1 hl.2).1
  have h2 := (expr_prints num e.rhs 0 hr.1 hr.2).1
  have h12 := comp h1 (comp0 p_eq_spaced h2) (sepc ' ' (by decide) _)
  have hL : ∀ (o : Option Str), (∀ n, o = some n → IsWord n) →
      ((match given o with | some n => " : ".toList ++ n ++ "[]".toList | none => []) = ([] : Str) ∧
        (match o with | some (c :: cs) => [Tok.colon, .id (c :: cs), .tix (.t 0)] | _ => []) = []) ∨
      (Prints (match given o with | some n => " : ".toList ++ n ++ "[]".toList | none => [])
        (match o with | some (c :: cs) => [Tok.colon, .id (c :: cs), .tix (.t 0)] | _ => []) ∧
        SepHead (match given o with | some n => " : ".toList ++ n ++ "[]".toList | none => [])) := by
    intro o ho
    match o with
    | none => exact .inl ⟨rfl, rfl⟩
    | some [] => exact .inl ⟨rfl, rfl⟩
    | some (c :: cs) =>
      right
      have := p_var (t := .t 0) (ho _ rfl)
      have h3 := comp0 (comp00 p_space (comp00 p_colon p_space)) this
      exact ⟨by simpa [given, indexText] using h3, sepc ' ' (by decide) _⟩
  have hC : ∀ (o : Option Str), (∀ n, o = some n → IsWord n) →
      ((match given o with | some n => " -> ".toList ++ n | none => []) = ([] : Str) ∧
        (match o with | some (c :: cs) => [Tok.arrow, .id (c :: cs)] | _ => []) = []) ∨
      (Prints (match given o with | some n => " -> ".toList ++ n | none => [])
        (match o with | some (c :: cs) => [Tok.arrow, .id (c :: cs)] | _ => []) ∧
        SepHead (match given o with | some n => " -> ".toList ++ n | none => [])) := by
    intro o ho
    match o with
    | none => exact .inl ⟨rfl, rfl⟩
    | some [] => exact .inl ⟨rfl, rfl⟩
    | some (c :: cs) =>
      right
      have h3 := comp0 (comp00 p_space (comp00 p_arrow p_space)) (p_word (ho _ rfl))
      exact ⟨by simpa [given] using h3, sepc ' ' (by decide) _⟩
  have h3 := compA (compOpt (compOpt h12 (hL _ hm)) (hC _ hc)) p_semi (sepc ';' (by decide) _)
  unfold eqnText Eqn.toks
  simp only [List.append_assoc, List.cons_append, List.nil_append] at h3 ⊢
  exact h3

end GE.Prt
