import Verif.Model.Structural
import Verif.Props.ErrorText
import Mathlib.Tactic.Set
/-! # C145: a syntax error is reported under one documented code -/

namespace GE.Cat
open Prt Err

theorem isIn_iff (sep s : Str) : isIn sep s = true ↔ sep <:+: s := by
  induction s with
  | nil => simp [isIn, List.isEmpty_iff]
  | cons c cs ih =>
    simp only [isIn, Bool.or_eq_true, ih, List.isPrefixOf_iff_prefix]
    constructor
    · rintro (h | h)
      · exact h.isInfix
      · exact h.trans (List.suffix_cons c cs).isInfix
    · intro h
      exact List.infix_cons_iff.1 h

theorem isIn_false (sep s : Str) : isIn sep s = false ↔ ¬ sep <:+: s := by
  rw [← isIn_iff]; simp

theorem catalog_names : catalog.map (·.1) = codes := by decide

theorem dget_none {α} (l : List (Str × α)) (c : Str) (h : c ∉ l.map (·.1)) : dget l c = none := by
  induction l with
  | nil => rfl
  | cons p l ih =>
    simp only [List.map_cons, List.mem_cons, not_or] at h
    simp only [dget]
    rw [if_neg (fun e => h.1 e.symm), ih h.2]

theorem splitNl_line {x : Str} (hx : '\n' ∉ x) : ∀ y, splitNl (x ++ '\n' :: y) = x :: splitNl y := by
  induction x with
  | nil => intro y; simp [splitNl]
  | cons c x ih =>
    intro y
    simp only [List.mem_cons, not_or] at hx
    rw [List.cons_append]
    simp only [splitNl]
    rw [if_neg (fun e => hx.1 e.symm), ih hx.2]

theorem splitNl_one {x : Str} (hx : '\n' ∉ x) : splitNl x = [x] := by
  induction x with
  | nil => rfl
  | cons c x ih =>
    simp only [List.mem_cons, not_or] at hx
    simp only [splitNl]
    rw [if_neg (fun e => hx.1 e.symm), ih hx.2]

theorem splitNl_join {l : List Str} (hl : l ≠ []) (h : ∀ x ∈ l, '\n' ∉ x) : splitNl (joinText ['\n'] l) = l := by
  induction l with
  | nil => exact absurd rfl hl
  | cons x l ih =>
    cases l with
    | nil => simpa [joinText] using splitNl_one (h x (by simp))
    | cons y l =>
      have e : joinText ['\n'] (x :: y :: l) = x ++ ('\n' :: joinText ['\n'] (y :: l)) := by simp [joinText, List.intercalate_cons_cons]
      rw [e, splitNl_line (h x (by simp)), ih (by simp) (fun z hz => h z (List.mem_cons_of_mem _ hz))]

theorem catalog_good : ∀ p ∈ catalog, errorInfo p.1 = some p.2 ∧ memberName p.1 = some p.1 ∧ p.2.title ≠ [] ∧ p.2.explanation ≠ [] ∧
    p.2.causes ≠ [] ∧ p.2.fixes ≠ [] ∧ ∀ x ∈ helpLines p.1 p.2, '\n' ∉ x := by decide +kernel

theorem titles_distinct : (catalog.map fun p => p.2.title).Nodup := by decide +kernel

theorem nodup_names : codes.Nodup := by decide

end GE.Cat

namespace GE
open Prt Err Cat

/-- C145: the catalog knows exactly the codes there are; each has a title, an explanation, causes and fixes of its own, and its help
text is those, line by line, under its own name -/
theorem C145_catalog (c : Str) :
    (c ∈ codes → ∃ i, errorInfo c = some i ∧ memberName c = some c ∧ i.title ≠ [] ∧ i.explanation ≠ [] ∧ i.causes ≠ [] ∧ i.fixes ≠ [] ∧
      splitNl (help c) = [c ++ ": ".toList ++ i.title, [], i.explanation, [], "Common causes:".toList]
        ++ i.causes.map ("  - ".toList ++ ·) ++ [[], "How to fix:".toList] ++ i.fixes.map ("  - ".toList ++ ·)) ∧
    (c ∉ codes → errorInfo c = none ∧ help c = []) := by
  constructor
  · intro hc
    rw [← catalog_names, List.mem_map] at hc
    obtain ⟨p, hp, rfl⟩ := hc
    obtain ⟨h1, h2, h3, h4, h5, h6, h7⟩ := catalog_good p hp
    refine ⟨p.2, h1, h2, h3, h4, h5, h6, ?_⟩
    simp only [help, h1, h2]
    refine splitNl_join (by simp [helpLines]) ?_
    exact h7
  · intro hc
    rw [← catalog_names] at hc
    have h1 : errorInfo c = none := dget_none _ _ hc
    exact ⟨h1, by simp only [help, h1]⟩

/-- C145: no two codes have the same title, nor the same help text -/
theorem C145_distinct (c c' : Str) (h : c ∈ codes) (h' : c' ∈ codes) (e : title c = title c' ∨ help c = help c') : c = c' := by
  have key : title c = title c' → c = c' := by
    intro e
    rw [← catalog_names, List.mem_map] at h h'
    obtain ⟨p, hp, rfl⟩ := h
    obtain ⟨p', hp', rfl⟩ := h'
    have g := catalog_good p hp
    have g' := catalog_good p' hp'
    simp only [title, g.1, g'.1, Option.map_some, Option.getD_some] at e
    have := List.inj_on_of_nodup_map titles_distinct hp hp' e
    rw [this]
  rcases e with e | e
  · exact key e
  · obtain ⟨i, a1, -, -, -, -, -, a2⟩ := (C145_catalog c).1 h
    obtain ⟨i', b1, -, -, -, -, -, b2⟩ := (C145_catalog c').1 h'
    have hl := a2.symm.trans ((congrArg splitNl e).trans b2)
    simp only [List.cons_append, List.nil_append, List.cons.injEq] at hl
    have h4 : c.length = 4 := (show ∀ c ∈ codes, c.length = 4 by decide) c h
    have h4' : c'.length = 4 := (show ∀ c ∈ codes, c.length = 4 by decide) c' h'
    have := hl.1
    rw [List.append_assoc, List.append_assoc] at this
    exact (List.append_inj this (by omega)).1

example : (splitNl (help "E001".toList)).length = 13 := by decide +kernel
example : help "E999".toList = [] := by decide +kernel

/-! ## which code -/

/-- the message says that `x` was expected -/
def Cat.Says (x : String) (msg : Str) : Prop := ("Expected '".toList ++ x.toList ++ "'".toList) <:+: msg

/-- a parenthesis is at fault: one was found, or one was expected -/
def Cat.ParenFault (msg word : Str) : Prop := word = "(".toList ∨ word = ")".toList ∨ Says "(" msg ∨ Says ")" msg

/-- a semicolon is missing: one was expected; or a component starts; or a block should have ended where a word starts -/
def Cat.SemicolonFault (alpha : Char → Bool) (msg expected word : Str) : Prop :=
  Says ";" msg ∨ expected = ";".toList ∨ expected = "';'".toList ∨ lowerStr word ∈ componentKeywords ∨
    (Says "}" msg ∧ (∃ c t, word = c :: t ∧ alpha c = true) ∧ ¬ "end of text".toList <:+: lowerStr word)

/-- a brace is at fault: one was found; or one was expected where the text ends -/
def Cat.BraceFault (msg word : Str) : Prop :=
  word = "{".toList ∨ word = "}".toList ∨ ((Says "{" msg ∨ Says "}" msg) ∧ (word = [] ∨ "end of text".toList <:+: lowerStr word))

/-- an operator was expected -/
def Cat.OperandFault (msg : Str) : Prop := Says "+" msg ∨ "operations".toList <:+: lowerStr msg

namespace Cat

theorem says_iff (x : String) (lit : Str) (h : lit = "Expected '".toList ++ x.toList ++ "'".toList) (msg : Str) :
    isIn lit msg = true ↔ Says x msg := by rw [isIn_iff, h]; rfl

theorem paren_iff (h : Handler) : h.isParen = true ↔ ParenFault h.msg h.clean := by
  have e1 := says_iff ")" "Expected ')'".toList (by decide) h.msg
  have e2 := says_iff "(" "Expected '('".toList (by decide) h.msg
  unfold Handler.isParen ParenFault
  rw [← e1, ← e2]
  clear e1 e2
  generalize isIn "Expected ')'".toList h.msg = x, isIn "Expected '('".toList h.msg = y, h.clean = w
  generalize ")".toList = s, "(".toList = t
  by_cases a : w = s <;> by_cases b : w = t <;> simp [a, b, or_comm]

theorem semicolon_iff (alpha : Char → Bool) (h : Handler) : h.isSemicolon alpha = true ↔ SemicolonFault alpha h.msg h.expected h.clean := by
  have e1 := says_iff ";" "Expected ';'".toList (by decide) h.msg
  have e2 := says_iff "}" "Expected '}'".toList (by decide) h.msg
  have e3 := isIn_iff "end of text".toList (lowerStr h.clean)
  have e4 : (h.clean.head?.map alpha).getD false = true ↔ ∃ c t, h.clean = c :: t ∧ alpha c = true := by
    cases hc : h.clean with
    | nil => simp
    | cons c t => simp
  unfold Handler.isSemicolon SemicolonFault
  rw [← e1, ← e2, ← e3, ← e4]
  clear e1 e2 e3 e4
  generalize isIn "Expected ';'".toList h.msg = x, isIn "Expected '}'".toList h.msg = y,
    isIn "end of text".toList (lowerStr h.clean) = z, (h.clean.head?.map alpha).getD false = v
  generalize ";".toList = s, "';'".toList = t, componentKeywords = K
  by_cases a : x = true
  · simp [a]
  · by_cases b : h.expected = s
    · simp [b]
    · by_cases c : h.expected = t
      · simp [c]
      · by_cases d : lowerStr h.clean ∈ K
        · simp [d]
        · simp [a, b, c, d, and_assoc]

theorem brace_iff (h : Handler) : h.isBrace = true ↔ BraceFault h.msg h.clean := by
  have e1 := says_iff "{" "Expected '{'".toList (by decide) h.msg
  have e2 := says_iff "}" "Expected '}'".toList (by decide) h.msg
  have e3 := isIn_iff "end of text".toList (lowerStr h.clean)
  unfold Handler.isBrace BraceFault
  rw [← e1, ← e2, ← e3]
  clear e1 e2 e3
  generalize isIn "Expected '{'".toList h.msg = x, isIn "Expected '}'".toList h.msg = y, isIn "end of text".toList (lowerStr h.clean) = z
  generalize "{".toList = s, "}".toList = t
  by_cases a : h.clean = s
  · simp [a]
  · by_cases b : h.clean = t
    · simp [b]
    · simp [a, b, List.isEmpty_iff]

theorem rhs_iff (h : Handler) : h.isMissingRhs = true ↔ OperandFault h.msg := by
  have e1 := says_iff "+" "Expected '+'".toList (by decide) h.msg
  have e3 := isIn_iff "operations".toList (lowerStr h.msg)
  unfold Handler.isMissingRhs OperandFault
  rw [← e1, ← e3, Bool.or_eq_true]

theorem code_mem (alpha : Char → Bool) (h : Handler) : h.code alpha ∈ codes := by
  unfold Handler.code
  split
  · decide
  · split
    · decide
    · split
      · decide
      · split <;> decide

theorem stripQuotes_quoted {w : Str} (h1 : '\'' ∉ w) (h2 : '"' ∉ w) : stripQuotes (quoted w) = w := by
  have hq : ∀ c ∈ w, (c == '\'' || c == '"') = false := by
    intro c hc
    have a : c ≠ '\'' := fun e => h1 (e ▸ hc)
    have b : c ≠ '"' := fun e => h2 (e ▸ hc)
    simp [a, b]
  have hd : ∀ l : Str, (∀ c ∈ l, (c == '\'' || c == '"') = false) → l.dropWhile (fun c => c == '\'' || c == '"') = l := by
    intro l hl
    cases l with
    | nil => rfl
    | cons c l => rw [List.dropWhile_cons, hl c (by simp)]; rfl
  cases w with
  | nil => rfl
  | cons c t =>
    have h0 := hq c (by simp)
    unfold stripQuotes quoted
    simp only [List.cons_append]
    rw [List.dropWhile_cons]
    simp only [beq_self_eq_true, Bool.true_or, if_true]
    rw [List.dropWhile_cons, h0]
    simp only [Bool.false_eq_true, if_false]
    rw [← List.cons_append, List.reverse_append, List.reverse_singleton, List.singleton_append, List.dropWhile_cons]
    simp only [beq_self_eq_true, Bool.true_or, if_true]
    rw [hd _ (fun x hx => hq x (List.mem_reverse.1 hx)), List.reverse_reverse]

end Cat

/-- C145: which of the codes an error of pyparsing's own gets: the first fault, in the order parenthesis, semicolon, brace, operand -/
theorem C145_code (alpha : Char → Bool) (msg expected found : Str) :
    let code := (Handler.mk msg expected found).code alpha
    let word := stripQuotes found
    (code = "E007".toList ↔ ParenFault msg word) ∧
    (code = "E001".toList ↔ ¬ ParenFault msg word ∧ SemicolonFault alpha msg expected word) ∧
    (code = "E002".toList ↔ ¬ ParenFault msg word ∧ ¬ SemicolonFault alpha msg expected word ∧ BraceFault msg word) ∧
    (code = "E005".toList ↔ ¬ ParenFault msg word ∧ ¬ SemicolonFault alpha msg expected word ∧ ¬ BraceFault msg word ∧ OperandFault msg) ∧
    (code = "E000".toList ↔ ¬ ParenFault msg word ∧ ¬ SemicolonFault alpha msg expected word ∧ ¬ BraceFault msg word ∧ ¬ OperandFault msg) := by
  intro code word
  have a := paren_iff ⟨msg, expected, found⟩
  have b := semicolon_iff alpha ⟨msg, expected, found⟩
  have c := brace_iff ⟨msg, expected, found⟩
  have d := rhs_iff ⟨msg, expected, found⟩
  simp only [Handler.clean] at a b c d
  have d1 : "E007".toList ≠ "E001".toList := by decide
  have d2 : "E007".toList ≠ "E002".toList := by decide
  have d3 : "E007".toList ≠ "E005".toList := by decide
  have d4 : "E007".toList ≠ "E000".toList := by decide
  have d5 : "E001".toList ≠ "E002".toList := by decide
  have d6 : "E001".toList ≠ "E005".toList := by decide
  have d7 : "E001".toList ≠ "E000".toList := by decide
  have d8 : "E002".toList ≠ "E005".toList := by decide
  have d9 : "E002".toList ≠ "E000".toList := by decide
  have d10 : "E005".toList ≠ "E000".toList := by decide
  simp only [code, word, Handler.code]
  rw [← a, ← b, ← c, ← d]
  generalize "E000".toList = s0, "E001".toList = s1, "E002".toList = s2, "E005".toList = s5, "E007".toList = s7 at *
  by_cases ha : Handler.isParen ⟨msg, expected, found⟩ = true
  · simp only [ha, if_true]; simp [d1, d2, d3, d4]
  · by_cases hb : Handler.isSemicolon alpha ⟨msg, expected, found⟩ = true
    · simp only [ha, hb, if_true]; simp [d1.symm, d5, d6, d7]
    · by_cases hc : Handler.isBrace ⟨msg, expected, found⟩ = true
      · simp only [ha, hb, hc, if_true]; simp [d2.symm, d5.symm, d8, d9]
      · by_cases hd : Handler.isMissingRhs ⟨msg, expected, found⟩ = true
        · simp only [ha, hb, hc, hd, if_true]; simp [d3.symm, d6.symm, d8.symm, d10]
        · simp only [ha, hb, hc, hd]; simp [d4.symm, d7.symm, d9.symm, d10.symm]

/-- C145: the report of an error of pyparsing's own: a code of the catalog; its title begins the message; unless it is the code for
everything else, the annotation and the notes are the title and the fixes of that code, and otherwise the message of pyparsing is kept -/
theorem C145_report (alpha : Char → Bool) (comps : Str → List Str) (msg expected found text : Str) (loc : Nat) (filename : Str)
    (hp : ¬ separator <:+: msg) :
    let e := convertException alpha comps msg expected found text loc filename
    ∃ c ∈ codes, ∃ i, errorInfo c = some i ∧ e.code = some c ∧ i.title <+: e.message ∧ e.found = found ∧
      (found ≠ [] → (". Found '".toList ++ found ++ "'".toList) <:+ e.message) ∧
      (c ≠ "E000".toList → e.annotation = lowerStr i.title ∧ e.notes = i.fixes) ∧
      (c = "E000".toList → ("Syntax error: ".toList ++ msg) <+: e.message ∧ e.notes = []) := by
  intro e
  have hd : decode msg found = ⟨msg, "E000".toList, found, []⟩ := C109_plain _ _ ((isIn_false _ _).2 hp)
  set h : Handler := ⟨msg, expected, found⟩ with hh
  have he : e = {
      cls := .grammar
      message := grammarMessage (h.message alpha) [] h.found
      location := some (gcnLocation text loc h.found filename)
      code := some (h.code alpha)
      annotation := h.annotation alpha
      notes := h.notes alpha
      found := h.found } := by
    simp only [e, convertException, hd, if_true]
    rfl
  have hc := code_mem alpha h
  obtain ⟨i, h1, -⟩ := (C145_catalog (h.code alpha)).1 hc
  have ht : title (h.code alpha) = i.title := by simp [title, h1]
  have hf : fixes (h.code alpha) = i.fixes := by simp [fixes, h1]
  have pre : ∀ m f : Str, m <+: grammarMessage m [] f := by
    intro m f
    by_cases hf : f = [] <;> simp [grammarMessage, hf]
  refine ⟨h.code alpha, hc, i, h1, by rw [he], ?_, by rw [he], ?_, ?_, ?_⟩
  · rw [he]
    refine List.IsPrefix.trans ?_ (pre _ _)
    unfold Handler.message
    by_cases h0 : h.code alpha = "E000".toList
    · rw [if_neg (not_not.2 h0)]
      rw [h0] at h1
      have : i = infoE000 := by
        have : errorInfo "E000".toList = some infoE000 := by decide +kernel
        rw [h1] at this; exact Option.some.inj this
      rw [this]
      exact ⟨": ".toList ++ h.msg, by rw [← List.append_assoc]; congr 1⟩
    · rw [if_pos h0, ht]
      split
      · exact List.prefix_append _ _
      · exact List.prefix_refl _
  · intro hne
    rw [he]
    have e0 : ". Found '".toList = ". Found ".toList ++ ['\''] := by decide
    refine ⟨h.message alpha, ?_⟩
    simp [grammarMessage, hh, hne, quoted]
  · intro h0
    rw [he]
    exact ⟨by simp only [Handler.annotation, if_pos h0, ht], by simp only [Handler.notes, if_pos h0, hf]⟩
  · intro h0
    rw [he]
    refine ⟨?_, by simp only [Handler.notes, h0]; simp⟩
    have : h.message alpha = "Syntax error: ".toList ++ msg := by
      unfold Handler.message
      rw [if_neg (not_not.2 h0)]
    simp only [this]
    exact pre _ _

end GE
