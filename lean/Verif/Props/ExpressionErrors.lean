import Verif.Props.Structural
/-! # C145: what the reports of common mistakes look like, and the errors of `parse_expression` -/

namespace GE.Cat
open Prt Err

theorem empty_in (name : Str) : "Empty function call".toList <:+: encode (emptyCall name) := by
  rw [encode_eq]
  refine List.IsInfix.trans ?_ (List.prefix_append _ _).isInfix
  refine List.IsInfix.trans ?_ (List.prefix_append _ _).isInfix
  change _ <:+: "Empty function call '".toList ++ name ++ "()'".toList
  refine List.IsInfix.trans ?_ (List.prefix_append _ _).isInfix
  refine List.IsInfix.trans ?_ (List.prefix_append _ _).isInfix
  exact (isIn_iff _ _).1 (by decide)

theorem invalid_in (name content : Str) : "Invalid time index".toList <:+: encode (badIndex name content) := by
  rw [encode_eq]
  refine List.IsInfix.trans ?_ (List.prefix_append _ _).isInfix
  refine List.IsInfix.trans ?_ (List.prefix_append _ _).isInfix
  change _ <:+: "Invalid time index '[".toList ++ content ++ "]' for variable '".toList ++ name ++ "'".toList
  refine List.IsInfix.trans ?_ (List.prefix_append _ _).isInfix
  refine List.IsInfix.trans ?_ (List.prefix_append _ _).isInfix
  refine List.IsInfix.trans ?_ (List.prefix_append _ _).isInfix
  refine List.IsInfix.trans ?_ (List.prefix_append _ _).isInfix
  exact (isIn_iff _ _).1 (by decide)

theorem na {c : Char} {a b : Str} (ha : c ∉ a) (hb : c ∉ b) : c ∉ a ++ b := by
  rw [List.mem_append]; exact fun h => h.elim ha hb

theorem badIndex_msg {c : Char} {name content : Str} (hn : c ∉ name) (hc : c ∉ content)
    (h : c ∉ "Invalid time index '[".toList ∧ c ∉ "]' for variable '".toList ∧ c ∉ "'".toList) : c ∉ (badIndex name content).msg :=
  na (na (na (na h.1 hc) h.2.1) hn) h.2.2

theorem badIndex_found {c : Char} {name content : Str} (hc : c ∉ content) (h : c ≠ '[' ∧ c ≠ ']') : c ∉ (badIndex name content).found := by
  change c ∉ '[' :: (content ++ [']'])
  simp only [List.mem_cons, List.mem_append, List.not_mem_nil, or_false, not_or]
  exact ⟨h.1, hc, h.2⟩

theorem encode_dot {f : Fail} (h1 : '.' ∉ f.msg) (h2 : '.' ∉ f.code) (h3 : '.' ∉ f.found) (h4 : f.suggestions = []) : '.' ∉ encode f := by
  rw [encode_eq, h4]
  exact na (na h1 (by decide)) (na (na h2 (by decide)) (na (na h3 (by decide)) (by decide)))

end GE.Cat

namespace GE
open Prt Err Cat

/-- C145: a missing `;` before any word but a parenthesis is reported as a missing semicolon -/
theorem C145_semicolon (alpha : Char → Bool) (expected w : Str) (h1 : '\'' ∉ w) (h2 : '"' ∉ w) (hl : w ≠ "(".toList) (hr : w ≠ ")".toList) :
    (Handler.mk "Expected ';'".toList expected (pyFound w)).code alpha = "E001".toList := by
  rw [(C145_code alpha _ _ _).2.1]
  rw [show stripQuotes (pyFound w) = w from stripQuotes_quoted h1 h2]
  refine ⟨?_, .inl ?_⟩
  · rintro (h | h | h | h)
    · exact hl h
    · exact hr h
    · have := (says_iff "(" "Expected '('".toList (by decide) _).2 h
      revert this; decide
    · have := (says_iff ")" "Expected ')'".toList (by decide) _).2 h
      revert this; decide
  · exact (says_iff ";" "Expected ';'".toList (by decide) _).1 (by decide)

/-- C145: a block that is not closed at the end of the text is reported as unbalanced braces -/
theorem C145_unclosed (alpha : Char → Bool) (found : Str) (h : found = "end of text".toList ∨ found = []) :
    (Handler.mk "Expected '}'".toList [] found).code alpha = "E002".toList := by
  rw [(C145_code alpha _ _ _).2.2.1]
  have hw : stripQuotes found = found := by rcases h with rfl | rfl <;> decide
  rw [hw]
  refine ⟨?_, ?_, ?_⟩
  · rintro (h' | h' | h' | h')
    · subst h'; revert h; decide
    · subst h'; revert h; decide
    · have := (says_iff "(" "Expected '('".toList (by decide) _).2 h'
      revert this; decide
    · have := (says_iff ")" "Expected ')'".toList (by decide) _).2 h'
      revert this; decide
  · rintro (h' | h' | h' | h' | ⟨-, ⟨c, t, h', -⟩, h3⟩)
    · have := (says_iff ";" "Expected ';'".toList (by decide) _).2 h'
      revert this; decide
    · revert h'; decide
    · revert h'; decide
    · rcases h with rfl | rfl <;> revert h' <;> decide
    · rcases h with rfl | rfl
      · exact h3 ((isIn_iff _ _).1 (by decide))
      · cases h'
  · refine .inr (.inr ⟨.inr ((says_iff "}" "Expected '}'".toList (by decide) _).1 (by decide)), ?_⟩)
    rcases h with rfl | rfl
    · exact .inr ((isIn_iff _ _).1 (by decide))
    · exact .inl rfl

/-- C145: a parenthesis that is not closed is reported as unbalanced parentheses, whatever follows -/
theorem C145_parenthesis (alpha : Char → Bool) (expected found : Str) :
    (Handler.mk "Expected ')'".toList expected found).code alpha = "E007".toList := by
  rw [(C145_code alpha _ _ _).1]
  exact .inr (.inr (.inr ((says_iff ")" "Expected ')'".toList (by decide) _).1 (by decide))))

/-- C145: the next component where a statement should have ended is reported as a semicolon missing after the statement before it,
however the component is written -/
theorem C145_component (alpha : Char → Bool) (msg expected w : Str) (h1 : '\'' ∉ w) (h2 : '"' ∉ w) (hw : lowerStr w ∈ componentKeywords)
    (hl : ¬ Says "(" msg) (hr : ¬ Says ")" msg) :
    let h := Handler.mk msg expected (pyFound w)
    h.code alpha = "E001".toList ∧ h.message alpha = "Missing semicolon after previous statement".toList := by
  intro h
  have hc : h.code alpha = "E001".toList := by
    rw [(C145_code alpha _ _ _).2.1]
    rw [show stripQuotes (pyFound w) = w from stripQuotes_quoted h1 h2]
    refine ⟨?_, .inr (.inr (.inr (.inl hw)))⟩
    rintro (h' | h' | h' | h')
    · subst h'; revert hw; decide
    · subst h'; revert hw; decide
    · exact hl h'
    · exact hr h'
  refine ⟨hc, ?_⟩
  unfold Handler.message
  rw [hc, if_pos (by decide), if_pos]
  · decide +kernel
  · refine ⟨rfl, ?_⟩
    rw [show h.clean = w from stripQuotes_quoted h1 h2]
    exact hw

/-- C145: the annotation of an error with a code of its own -/
theorem C145_annotation (alpha : Char → Bool) (comps : Str → List Str) (f : Fail) (expected excFound text : Str) (loc : Nat) (filename : Str)
    (hf : Clean f) (h0 : f.code ≠ "E000".toList) :
    let e := convertException alpha comps (encode f) expected excFound text loc filename
    e.code = some f.code ∧ fixes f.code <:+ e.notes ∧
    (f.code = "E010".toList → e.annotation = "invalid time index '".toList ++ f.found ++ "'".toList) ∧
    (f.code = "E005".toList → f.msg ≠ [] → e.annotation = lowerStr f.msg) ∧
    (f.code ≠ "E010".toList → f.code ≠ "E005".toList → e.annotation = lowerStr (title f.code)) := by
  intro e
  have he : e = convertFailure fixes comps semanticAnnotation text loc (decode (encode f) excFound) filename := by
    simp only [e, convertException]
    rw [C109_carried f hf, if_neg h0]
  have hs := C109_shown fixes comps semanticAnnotation text loc f filename excFound hf
  simp only at hs
  rw [← he] at hs
  obtain ⟨a1, -, -, -, ⟨before, a2, -⟩, -⟩ := hs
  have ha : e.annotation = semanticAnnotation f := by rw [he, C109_carried f hf]; rfl
  refine ⟨a1, ⟨before, a2.symm⟩, ?_, ?_, ?_⟩
  · intro h
    rw [ha]; unfold semanticAnnotation
    rw [if_pos h]; rfl
  · intro h hm
    rw [ha]; unfold semanticAnnotation
    rw [if_neg (by rw [h]; decide), if_pos ⟨h, hm⟩]
  · intro h h'
    rw [ha]; unfold semanticAnnotation
    rw [if_neg h, if_neg (fun x => h' x.1)]

/-- C145, fails: where a `;` was expected and a `(` stands, as in `Y[] = A[] (B[] + C[]);`, the report is "Unbalanced parentheses",
although no parenthesis is missing -/
theorem C145_semicolon_violated (alpha : Char → Bool) (comps : Str → List Str) (text : Str) (loc : Nat) (filename : Str) :
    let e := convertException alpha comps "Expected ';'".toList [] (pyFound "(".toList) text loc filename
    e.code = some "E007".toList ∧ e.annotation = "unbalanced parentheses".toList := by
  have hd : decode "Expected ';'".toList (pyFound "(".toList) = ⟨"Expected ';'".toList, "E000".toList, pyFound "(".toList, []⟩ :=
    C109_plain _ _ (by decide)
  have hc : (Handler.mk "Expected ';'".toList [] (pyFound "(".toList)).code alpha = "E007".toList := by
    rw [(C145_code alpha _ _ _).1]
    exact .inl (by decide)
  simp only [convertException, hd, if_true]
  refine ⟨by rw [hc], ?_⟩
  unfold Handler.annotation
  rw [hc, if_pos (by decide)]
  decide +kernel

/-- C145, fails: the offending word of an error of pyparsing's own is quoted twice -/
theorem C145_quoted_violated (alpha : Char → Bool) (comps : Str → List Str) (msg expected w text : Str) (loc : Nat) (filename : Str)
    (hp : ¬ separator <:+: msg) :
    (". Found ''".toList ++ w ++ "''".toList) <:+ (convertException alpha comps msg expected (pyFound w) text loc filename).message := by
  obtain ⟨c, -, i, -, -, -, -, h, -⟩ := C145_report alpha comps msg expected (pyFound w) text loc filename hp
  have := h (by simp [pyFound, quoted])
  convert this using 1
  have e1 : ". Found ''".toList = ". Found '".toList ++ ['\''] := by decide
  have e2 : "''".toList = ['\''] ++ "'".toList := by decide
  rw [e1, e2]
  simp only [pyFound, quoted, List.append_assoc, List.cons_append, List.nil_append]

/-! ## `parse_expression` -/

/-- C145: an expression that cannot be read is reported under a code of the catalog -/
theorem C145_expression (msg expected : Str) : expressionCode msg expected ∈ ["E006".toList, "E007".toList, "E008".toList, "E010".toList] := by
  unfold expressionCode
  split
  · decide
  · split
    · decide
    · split
      · decide
      · split
        · decide
        · split <;> decide

/-- C145: a call without arguments is reported as such; an index that is no index too, unless its text reads like another code -/
theorem C145_expression_code (expected : Str) :
    (∀ name, expressionCode (encode (emptyCall name)) expected = "E008".toList) ∧
    (∀ name content, ¬ "E008".toList <:+: encode (badIndex name content) → ¬ "Empty function call".toList <:+: encode (badIndex name content) →
      expressionCode (encode (badIndex name content)) expected = "E010".toList) := by
  constructor
  · intro name
    have := (isIn_iff _ _).2 (empty_in name)
    unfold expressionCode
    rw [if_pos (by rw [this, Bool.or_true])]
  · intro name content h1 h2
    have := (isIn_iff _ _).2 (invalid_in name content)
    unfold expressionCode
    rw [(isIn_false _ _).2 h1, (isIn_false _ _).2 h2, this, if_neg (by decide), Bool.or_true, if_pos rfl]

/-- C145, fails: `parse_expression` shows the text under which the failure was sent through pyparsing, separators and all -/
theorem C145_expression_violated (name expected found : Str) (hn : '.' ∉ name) (content : Str) (hc : '.' ∉ content) :
    (encode (emptyCall name)) <+: (expressionError (encode (emptyCall name)) expected found).1 ∧
    separator <:+: (expressionError (encode (emptyCall name)) expected found).1 ∧
    (¬ "Empty function call".toList <:+: encode (badIndex name content) →
      separator <:+: (expressionError (encode (badIndex name content)) expected found).1) := by
  have pre : ∀ m l f, m <+: grammarMessage m l f := by
    intro m l f
    unfold grammarMessage
    simp only
    split
    · simp only [List.append_assoc]; exact List.prefix_append _ _
    · split
      · exact List.prefix_append _ _
      · split
        · simp only [List.append_assoc]; exact List.prefix_append _ _
        · exact List.prefix_refl _
  have dot : ∀ t s : Str, '.' ∉ s → splitSep ('.' :: t) s = [s] := by
    intro t s hs
    have := split_join '.' t s [] (by simpa using hs)
    simpa [joinText] using this
  have inf : ∀ f : Fail, ∀ x : Str, encode f <+: x → separator <:+: x := fun f x h => ((isIn_iff _ _).1 (encode_has f)).trans h.isInfix
  have c1 : classify (encode (emptyCall name)) expected found = encode (emptyCall name) := by
    have hi := (isIn_iff _ _).2 (empty_in name)
    unfold classify
    rw [if_pos hi, show ". E008".toList = '.' :: " E008".toList by decide, dot]
    · rfl
    · exact encode_dot (na (na (by decide) hn) (by decide)) (by change '.' ∉ "E008".toList; decide) (na hn (by decide)) rfl
  refine ⟨?_, ?_, ?_⟩
  · have := pre (classify (encode (emptyCall name)) expected found) (if expected = [] then [] else [expected]) found
    unfold expressionError
    rw [c1] at this ⊢
    exact this
  · refine inf (emptyCall name) _ ?_
    have := pre (classify (encode (emptyCall name)) expected found) (if expected = [] then [] else [expected]) found
    unfold expressionError
    rw [c1] at this ⊢
    exact this
  · intro he
    refine inf (badIndex name content) _ ?_
    have c2 : classify (encode (badIndex name content)) expected found = encode (badIndex name content) := by
      have hi := (isIn_iff _ _).2 (invalid_in name content)
      unfold classify
      rw [(isIn_false _ _).2 he, hi, if_neg (by decide), if_pos rfl, show ". E010".toList = '.' :: " E010".toList by decide, dot]
      · rfl
      · exact encode_dot (badIndex_msg hn hc (by decide)) (by change '.' ∉ "E010".toList; decide) (badIndex_found hc (by decide)) rfl
    have := pre (classify (encode (badIndex name content)) expected found) (if expected = [] then [] else [expected]) found
    unfold expressionError
    rw [c2] at this ⊢
    exact this

/-- C145, fails: a wrong index of a variable whose name contains `E008` is reported by `parse_expression` as a call without arguments,
and by `parse_gcn` as what it is -/
theorem C145_index_violated (alpha : Char → Bool) (comps : Str → List Str) (name content expected excFound text : Str) (loc : Nat)
    (filename : Str) (hn : "E008".toList <:+: name) (h1 : '|' ∉ name) (h2 : '|' ∉ content) :
    expressionCode (encode (badIndex name content)) expected = "E008".toList ∧
    (convertException alpha comps (encode (badIndex name content)) expected excFound text loc filename).code = some "E010".toList := by
  constructor
  · have : isIn "E008".toList (encode (badIndex name content)) = true := by
      rw [isIn_iff, encode_eq]
      refine hn.trans ?_
      refine List.IsInfix.trans ?_ (List.prefix_append _ _).isInfix
      refine List.IsInfix.trans ?_ (List.prefix_append _ _).isInfix
      exact ⟨"Invalid time index '[".toList ++ content ++ "]' for variable '".toList, "'".toList, rfl⟩
    unfold expressionCode
    rw [this, Bool.true_or, if_pos rfl]
  · refine (C145_annotation alpha comps (badIndex name content) expected excFound text loc filename ?_ (show "E010".toList ≠ "E000".toList by decide)).1
    refine ⟨by change "E010".toList ∈ codes; decide, ?_, ?_, fun s hs => absurd hs (List.not_mem_nil)⟩
    · exact badIndex_msg h1 h2 (by decide)
    · exact badIndex_found h2 (by decide)

/-- C145, fails: text left over after an expression, an operator as in `a +` included, is reported as "Incomplete expression": the
message about an operator is never given, because pyparsing quotes what it found -/
theorem C145_operator_violated (expected w : Str) : classify "Expected end of text".toList expected (pyFound w) = "Incomplete expression".toList ∧
    expressionCode "Expected end of text".toList [] = "E006".toList := by
  refine ⟨?_, by decide⟩
  unfold classify
  rw [if_neg (by decide), if_neg (by decide), if_pos (by decide), if_neg]
  have hq : ∃ t, pyFound w = '\'' :: t := ⟨_, rfl⟩
  obtain ⟨t, ht⟩ := hq
  rw [ht]
  intro h
  have h2 : ∀ s ∈ ["^".toList, "**".toList, "*".toList, "/".toList, "+".toList, "-".toList], s.head? ≠ some '\'' := by decide
  exact h2 _ h rfl

/-! concrete cases -/
example : (Handler.mk "Expected ';'".toList [] (pyFound "Y".toList)).code Char.isAlpha = "E001".toList := by decide
example : (Handler.mk "Expected '}'".toList [] (pyFound "Y".toList)).code Char.isAlpha = "E001".toList := by decide
example : (Handler.mk "Expected '}'".toList [] "end of text".toList).code Char.isAlpha = "E002".toList := by decide
example : (Handler.mk "Expected '}'".toList [] (pyFound "Shocks".toList)).message Char.isAlpha =
    "Missing semicolon after previous statement".toList := (C145_component _ _ _ _ (by decide) (by decide) (by decide)
      (fun h => absurd ((says_iff "(" "Expected '('".toList (by decide) _).2 h) (by decide))
      (fun h => absurd ((says_iff ")" "Expected ')'".toList (by decide) _).2 h) (by decide))).2
example : (expressionError (encode (emptyCall "f".toList)) [] []).1 = "Empty function call 'f()'||GCN||E008||GCN||f()||GCN||".toList := by decide
example : expressionCode (encode (badIndex "K".toList "abc".toList)) [] = "E010".toList :=
  (C145_expression_code []).2 _ _ (fun h => absurd ((isIn_iff _ _).2 h) (by decide)) (fun h => absurd ((isIn_iff _ _).2 h) (by decide))

end GE
