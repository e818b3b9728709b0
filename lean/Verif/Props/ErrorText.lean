import Verif.Model.ErrorSpec
import Verif.Props.PrintText
/-! # C109–C111: failures keep their data, errors are where they are said to be, reports show them -/

namespace GE.Err
open Prt

/-! ## lines -/

theorem splitNl_ne (s : Str) : splitNl s ≠ [] := by
  cases s with
  | nil => simp [splitNl]
  | cons c cs => simp only [splitNl]; split; · simp
                 · split <;> simp

theorem splitNl_cons {c : Char} (s : Str) (hc : c ≠ '\n') : ∃ l ls, splitNl s = l :: ls ∧ splitNl (c :: s) = (c :: l) :: ls := by
  cases h : splitNl s with
  | nil => exact absurd h (splitNl_ne s)
  | cons l ls => exact ⟨l, ls, rfl, by simp [splitNl, hc, h]⟩

theorem head_line (b : Str) : ∃ post tl, b = post ++ tl ∧ '\n' ∉ post ∧ (tl = [] ∨ ∃ t, tl = '\n' :: t) ∧ (splitNl b)[0]? = some post := by
  induction b with
  | nil => exact ⟨[], [], rfl, by simp, .inl rfl, rfl⟩
  | cons c b ih =>
    by_cases hc : c = '\n'
    · exact ⟨[], c :: b, rfl, by simp, .inr ⟨b, by rw [hc]⟩, by simp [splitNl, hc]⟩
    · obtain ⟨post, tl, h1, h2, h3, h4⟩ := ih
      obtain ⟨l, ls, e1, e2⟩ := splitNl_cons b hc
      refine ⟨c :: post, tl, by rw [h1]; rfl, ?_, h3, ?_⟩
      · simp only [List.mem_cons, not_or]; exact ⟨fun h => hc h.symm, h2⟩
      · rw [e1] at h4; rw [e2]; simp only [List.getElem?_cons_zero, Option.some.injEq] at h4 ⊢; rw [h4]

theorem split_at (a b : Str) : ∃ pre mid post tl, a = pre ++ mid ∧ b = post ++ tl ∧ '\n' ∉ mid ∧ '\n' ∉ post ∧
    (pre = [] ∨ ∃ p, pre = p ++ ['\n']) ∧ (tl = [] ∨ ∃ t, tl = '\n' :: t) ∧ (splitNl (a ++ b))[a.count '\n']? = some (mid ++ post) ∧
    pre.count '\n' = a.count '\n' := by
  induction a with
  | nil =>
    obtain ⟨post, tl, h1, h2, h3, h4⟩ := head_line b
    exact ⟨[], [], post, tl, rfl, h1, by simp, h2, .inl rfl, h3, by simpa using h4, rfl⟩
  | cons c a ih =>
    obtain ⟨pre, mid, post, tl, h1, h2, h3, h4, h5, h6, h7, h8⟩ := ih
    by_cases hc : c = '\n'
    · subst hc
      refine ⟨'\n' :: pre, mid, post, tl, by rw [h1]; rfl, h2, h3, h4, .inr ?_, h6, ?_, ?_⟩
      · rcases h5 with h5 | ⟨p, h5⟩
        · exact ⟨[], by rw [h5]; rfl⟩
        · exact ⟨'\n' :: p, by rw [h5]; rfl⟩
      · simpa [splitNl] using h7
      · simp [h8]
    · obtain ⟨l, ls, e1, e2⟩ := splitNl_cons (a ++ b) hc
      have hcount : (c :: a).count '\n' = a.count '\n' := by simp [List.count_cons, hc]
      rcases h5 with h5 | ⟨p, h5⟩
      · subst h5
        simp only [List.nil_append] at h1
        subst h1
        have h0 : a.count '\n' = 0 := by simpa using h8.symm
        refine ⟨[], c :: a, post, tl, rfl, h2, ?_, h4, .inl rfl, h6, ?_, by rw [hcount, h0]; rfl⟩
        · simp only [List.mem_cons, not_or]; exact ⟨fun h => hc h.symm, h3⟩
        · rw [hcount, h0, List.cons_append, e2]
          rw [h0, e1] at h7
          simp only [List.getElem?_cons_zero, Option.some.injEq] at h7 ⊢
          rw [h7]; rfl
      · refine ⟨c :: pre, mid, post, tl, by rw [h1]; rfl, h2, h3, h4, .inr ⟨c :: p, by rw [h5]; rfl⟩, h6, ?_, ?_⟩
        · rw [hcount, List.cons_append, e2]
          rw [e1] at h7
          obtain ⟨k, hk⟩ : ∃ k, a.count '\n' = k + 1 := ⟨p.count '\n', by rw [← h8, h5]; simp⟩
          rw [hk] at h7 ⊢
          simpa using h7
        · rw [hcount, ← h8]; simp [List.count_cons, hc]

theorem rfind_go (mid : Str) (h : '\n' ∉ mid) : ∀ i acc, rfindNl.go i mid acc = acc := by
  induction mid with
  | nil => intros; rfl
  | cons c cs ih =>
    intro i acc
    simp only [List.mem_cons, not_or] at h
    simp only [rfindNl.go]
    rw [if_neg (fun e => h.1 e.symm), ih h.2]

theorem rfind_go' (p mid : Str) (h : '\n' ∉ mid) : ∀ i acc, rfindNl.go i (p ++ '\n' :: mid) acc = ((i + p.length : Nat) : Int) := by
  induction p with
  | nil => intro i acc; simp only [List.nil_append, rfindNl.go, if_true]; rw [rfind_go _ h]; simp
  | cons c cs ih =>
    intro i acc
    simp only [List.cons_append, rfindNl.go, List.length_cons]
    rw [ih]; congr 1; omega

theorem rfind_split (pre mid b : Str) (h : '\n' ∉ mid) (hp : pre = [] ∨ ∃ p, pre = p ++ ['\n']) :
    rfindNl (pre ++ mid ++ b) (pre ++ mid).length = (pre.length : Int) - 1 := by
  unfold rfindNl
  rw [List.take_left' rfl]
  rcases hp with rfl | ⟨p, rfl⟩
  · rw [List.nil_append, rfind_go _ h]; rfl
  · rw [List.append_assoc, List.singleton_append, rfind_go' _ _ h]
    simp

theorem col_split (pre mid b : Str) (h : '\n' ∉ mid) (hp : pre = [] ∨ ∃ p, pre = p ++ ['\n']) :
    col (pre ++ mid ++ b) (pre ++ mid).length = mid.length + 1 := by
  unfold col
  rw [rfind_split pre mid b h hp]
  split
  · rename_i hh
    obtain ⟨h0, h1, h2⟩ := hh
    cases hm : mid.reverse with
    | nil => simp only [List.reverse_eq_nil_iff] at hm; rw [hm]; rfl
    | cons x xs =>
      exfalso
      have hmid : mid = xs.reverse ++ [x] := by rw [← List.reverse_reverse mid, hm]; simp
      rw [hmid] at h2
      have : (pre ++ (xs.reverse ++ [x]) ++ b)[(pre ++ (xs.reverse ++ [x])).length - 1]? = some x := by
        rw [List.getElem?_append_left (by simp only [List.length_append, List.length_singleton]; omega)]
        rw [List.getElem?_append_right (by simp only [List.length_append, List.length_singleton]; omega)]
        rw [List.getElem?_append_right (by simp only [List.length_append, List.length_singleton]; omega)]
        simp only [List.length_append, List.length_singleton]
        rw [show pre.length + (xs.reverse.length + 1) - 1 - pre.length - xs.reverse.length = 0 by omega]; rfl
      rw [this] at h2
      apply h; rw [hmid]; simp only [Option.some.injEq] at h2; rw [h2]; simp
  · simp only [List.length_append]; push_cast; omega

theorem lineno_split (a b : Str) : lineno (a ++ b) a.length = a.count '\n' + 1 := by
  unfold lineno; rw [List.take_left' rfl]

/-- what the code reports about position `a.length` of `a ++ b` -/
theorem report_at (a b : Str) : IsAt (a ++ b) a.length (lineno (a ++ b) a.length) (col (a ++ b) a.length)
      ((splitNl (a ++ b))[lineno (a ++ b) a.length - 1]?.getD []) ∧
    ∃ mid post tl, b = post ++ tl ∧ (tl = [] ∨ ∃ t, tl = '\n' :: t) ∧ (splitNl (a ++ b))[lineno (a ++ b) a.length - 1]?.getD [] = mid ++ post ∧
      col (a ++ b) a.length = mid.length + 1 := by
  obtain ⟨pre, mid, post, tl, h1, h2, h3, h4, h5, h6, h7, h8⟩ := split_at a b
  have hc : col (a ++ b) a.length = mid.length + 1 := by rw [h1]; exact col_split pre mid b h3 h5
  rw [lineno_split, hc, Nat.add_sub_cancel, h7]
  refine ⟨⟨pre, tl, ?_, h5, h6, ?_, by rw [h8], by omega, ?_, ?_⟩, mid, post, tl, h2, h6, rfl, rfl⟩
  · rw [h1, h2]; simp
  · simp only [Option.getD_some, List.mem_append, not_or]; exact ⟨h3, h4⟩
  · simp only [Option.getD_some, List.length_append]; push_cast; omega
  · rw [h1, List.length_append]; push_cast; omega

theorem report_pos (s : Str) (loc : Nat) (h : loc ≤ s.length) :
    IsAt s loc (lineno s loc) (col s loc) ((splitNl s)[lineno s loc - 1]?.getD []) ∧
    ∃ mid post tl, s.drop loc = post ++ tl ∧ (tl = [] ∨ ∃ t, tl = '\n' :: t) ∧ (splitNl s)[lineno s loc - 1]?.getD [] = mid ++ post ∧
      col s loc = mid.length + 1 := by
  have := report_at (s.take loc) (s.drop loc)
  rw [List.take_append_drop, List.length_take, Nat.min_eq_left h] at this
  exact this

/-! ## tabs -/

theorem expand_id (s : Str) (h : '\t' ∉ s) : ∀ k, expandTabs k s = s := by
  induction s with
  | nil => intro k; rfl
  | cons c cs ih =>
    intro k
    simp only [List.mem_cons, not_or] at h
    simp only [expandTabs]
    rw [if_neg (fun e => h.1 e.symm), ih h.2]

theorem expand_append (a b : Str) : ∀ k, ∃ k', expandTabs k (a ++ b) = expandTabs k a ++ expandTabs k' b := by
  induction a with
  | nil => intro k; exact ⟨k, rfl⟩
  | cons c a ih =>
    intro k
    simp only [List.cons_append, expandTabs]
    split
    · obtain ⟨k', h⟩ := ih 0; exact ⟨k', by rw [h, List.append_assoc]⟩
    · obtain ⟨k', h⟩ := ih (if c = '\n' ∨ c = '\r' then 0 else k + 1); exact ⟨k', by rw [h]; rfl⟩

theorem expand_count (a : Str) : ∀ k, (expandTabs k a).count '\n' = a.count '\n' := by
  induction a with
  | nil => intro k; rfl
  | cons c a ih =>
    intro k
    simp only [expandTabs]
    split
    · rename_i hc
      rw [List.count_append, ih, List.count_replicate, hc]
      simp [List.count_cons]
    · rw [List.count_cons, List.count_cons, ih]

theorem prefix_take {w post tl : Str} (h : '\n' ∉ w) (hp : w <+: post ++ tl) (ht : tl = [] ∨ ∃ t, tl = '\n' :: t) : w <+: post := by
  rcases ht with rfl | ⟨t, rfl⟩
  · simpa using hp
  · rcases Nat.lt_or_ge post.length w.length with hl | hl
    · exfalso
      obtain ⟨r, hr⟩ := hp
      have : (w ++ r)[post.length]? = some '\n' := by rw [hr]; simp
      rw [List.getElem?_append_left hl] at this
      exact h (List.mem_of_getElem? this)
    · exact List.prefix_of_prefix_length_le hp (List.prefix_append _ _) hl

/-- the carets of `l` cover `w` -/
theorem carets_span {l : Loc} {w : Str} (hw : w ≠ []) (he : l.endColumn = some (l.column + w.length)) (hl : l.endLine = some l.line) :
    l.carets = w.length := by
  have : 0 < w.length := List.length_pos_iff.2 hw
  unfold Loc.carets
  rw [he, hl]
  simp only [if_true]
  omega

/-! ## splitting and joining -/

theorem split_go_word (h : Char) (t x : Str) (hx : h ∉ x) : ∀ rest cur, splitSep.go (h :: t) (x ++ rest) 0 cur = splitSep.go (h :: t) rest 0 (cur ++ x) := by
  induction x with
  | nil => intro rest cur; simp
  | cons c x ih =>
    intro rest cur
    simp only [List.mem_cons, not_or] at hx
    simp only [List.cons_append, splitSep.go]
    have : (h :: t).isPrefixOf (c :: (x ++ rest)) = false := by
      simp only [List.isPrefixOf, Bool.and_eq_false_iff]; left; simpa using hx.1
    rw [if_neg (by simp [this]), ih hx.2]
    simp

theorem split_go_skip (sep x rest cur : Str) : splitSep.go sep (x ++ rest) x.length cur = splitSep.go sep rest 0 cur := by
  induction x with
  | nil => rfl
  | cons c x ih => simp only [List.cons_append, List.length_cons, splitSep.go]; exact ih

theorem isPrefixOf_append (x rest : Str) : x.isPrefixOf (x ++ rest) = true := by
  induction x with
  | nil => rfl
  | cons c x ih => simp [List.isPrefixOf, ih]

theorem split_go_sep (h : Char) (t rest cur : Str) : splitSep.go (h :: t) (h :: t ++ rest) 0 cur = cur :: splitSep.go (h :: t) rest 0 [] := by
  have : (h :: t).isPrefixOf (h :: t ++ rest) = true := isPrefixOf_append _ _
  rw [List.cons_append] at this ⊢
  simp only [splitSep.go]
  rw [if_pos this]
  simp only [List.length_cons, Nat.add_sub_cancel]
  rw [split_go_skip]

theorem split_join (h : Char) (t : Str) : ∀ (x : Str) (l : List Str), (∀ y ∈ x :: l, h ∉ y) → splitSep (h :: t) (joinText (h :: t) (x :: l)) = x :: l := by
  have key : ∀ (l : List Str) (x cur : Str), (∀ y ∈ x :: l, h ∉ y) → splitSep.go (h :: t) (joinText (h :: t) (x :: l)) 0 cur = (cur ++ x) :: l := by
    intro l
    induction l with
    | nil =>
      intro x cur hx
      have := split_go_word h t x (hx x (by simp)) [] cur
      simp only [List.append_nil] at this
      simp only [joinText, List.intercalate_singleton]
      rw [this]; rfl
    | cons y l ih =>
      intro x cur hx
      have e : joinText (h :: t) (x :: y :: l) = x ++ (h :: t ++ joinText (h :: t) (y :: l)) := by
        simp [joinText, List.intercalate_cons_cons]
      rw [e, split_go_word h t x (hx x (by simp)), split_go_sep, ih y [] (fun z hz => hx z (List.mem_cons_of_mem _ hz))]
      rfl
  intro x l hx
  have := key l x [] hx
  simpa [splitSep] using this

theorem isIn_append (sep a b : Str) : isIn sep (a ++ sep ++ b) = true := by
  induction a with
  | nil =>
    rw [List.nil_append]
    cases sep with
    | nil => cases b <;> simp [isIn]
    | cons c t =>
      have := isPrefixOf_append (c :: t) b
      rw [List.cons_append] at this ⊢
      simp only [isIn, this, Bool.true_or]
  | cons c a ih => simp only [List.cons_append, isIn]; simp only [List.append_assoc] at ih; simp [ih]

theorem separator_eq : separator = '|' :: ['|', 'G', 'C', 'N', '|', '|'] := by decide

/-- text the transport keeps apart -/
structure Clean (f : Fail) : Prop where
  code : f.code ∈ codes
  msg : '|' ∉ f.msg
  found : '|' ∉ f.found
  suggestions : ∀ s ∈ f.suggestions, s ≠ [] ∧ ',' ∉ s ∧ '|' ∉ s

theorem codes_clean : ∀ c ∈ codes, '|' ∉ c := by decide

theorem join_clean {l : List Str} (h : ∀ s ∈ l, '|' ∉ s) : '|' ∉ joinText [','] l := by
  induction l with
  | nil => simp [joinText]
  | cons x l ih =>
    cases l with
    | nil => simpa [joinText] using h x (by simp)
    | cons y l =>
      have e : joinText [','] (x :: y :: l) = x ++ (',' :: joinText [','] (y :: l)) := by simp [joinText, List.intercalate_cons_cons]
      rw [e]
      simp only [List.mem_append, List.mem_cons, not_or]
      exact ⟨h x (by simp), by decide, ih (fun s hs => h s (List.mem_cons_of_mem _ hs))⟩

theorem split_suggestions {l : List Str} (h : ∀ s ∈ l, s ≠ [] ∧ ',' ∉ s) : (splitSep [','] (joinText [','] l)).filter (· ≠ []) = l := by
  cases l with
  | nil => decide
  | cons x l =>
    rw [split_join ',' [] x l (fun y hy => (h y hy).2)]
    rw [List.filter_eq_self]
    intro s hs
    simpa using (h s hs).1

theorem clean_parts {f : Fail} (h : Clean f) : ∀ y ∈ [f.msg, f.code, f.found, joinText [','] f.suggestions], '|' ∉ y := by
  intro y hy
  simp only [List.mem_cons, List.not_mem_nil, or_false] at hy
  rcases hy with rfl | rfl | rfl | rfl
  · exact h.msg
  · exact codes_clean _ h.code
  · exact h.found
  · exact join_clean (fun s hs => (h.suggestions s hs).2.2)

theorem encode_eq (f : Fail) : encode f = f.msg ++ separator ++ (f.code ++ separator ++ (f.found ++ separator ++ joinText [','] f.suggestions)) := by
  simp [encode, joinText, List.intercalate_cons_cons]

theorem encode_has (f : Fail) : isIn separator (encode f) = true := by
  rw [encode_eq]; exact isIn_append _ _ _

theorem split_encode {f : Fail} (h : Clean f) : splitSep separator (encode f) = [f.msg, f.code, f.found, joinText [','] f.suggestions] := by
  unfold encode
  rw [separator_eq]
  exact split_join _ _ _ _ (clean_parts h)

/-! ## rows -/

theorem contextRows_append (lines : List Str) (l : Loc) (ann : Str) (n : Nat) : ∀ a m, contextRows lines l ann a (n + m) =
    contextRows lines l ann a n ++ contextRows lines l ann (a + n) m := by
  induction n with
  | zero => intro a m; simp [contextRows]
  | succ n ih =>
    intro a m
    rw [show n + 1 + m = (n + m) + 1 by omega]
    simp only [contextRows]
    rw [ih (a + 1) m, show a + 1 + n = a + (n + 1) by omega]
    simp

theorem contextRows_plain (lines : List Str) (l : Loc) (ann : Str) (n : Nat) : ∀ a, (∀ i, i < n → a + i ≠ l.line) →
    contextRows lines l ann a n = (List.range' a n).map fun i => sourceRow i (lines[i - 1]?.getD []) := by
  induction n with
  | zero => intro a _; rfl
  | succ n ih =>
    intro a h
    simp only [contextRows, List.range'_succ, List.map_cons]
    rw [if_neg (by simpa using h 0 (by omega)), ih (a + 1) (fun i hi => by have := h (i + 1) (by omega); omega)]
    rfl

theorem rstrip_append (x y : Str) (c : Char) (hc : isWs c = false) : ∃ z, rstrip (x ++ [c] ++ y) = x ++ [c] ++ z := by
  have key : ∀ (r q : Str), (r ++ c :: q).dropWhile isWs = (r.dropWhile isWs) ++ c :: q := by
    intro r q
    induction r with
    | nil => simp [List.dropWhile, hc]
    | cons d r ih =>
      simp only [List.cons_append, List.dropWhile]
      cases isWs d
      · rfl
      · exact ih
  refine ⟨(y.reverse.dropWhile isWs).reverse, ?_⟩
  unfold rstrip
  rw [show (x ++ [c] ++ y).reverse = y.reverse ++ c :: x.reverse by simp, key]
  simp

theorem pad4_length {n : Nat} (h : n ≤ 9999) : (pad4 n).length = 4 := by
  have : (natStr n).length ≤ 4 := (Nat.length_toDigits_le_iff (b := 10) (by decide) (by decide)).2 (by omega)
  unfold pad4
  rw [List.length_append, List.length_replicate]; omega

theorem pad4_long {n : Nat} (h : 10000 ≤ n) : 4 < (pad4 n).length := by
  have : ¬ (natStr n).length ≤ 4 := by
    intro hh
    have := (Nat.length_toDigits_le_iff (b := 10) (n := n) (k := 4) (by decide) (by decide)).1 hh
    omega
  unfold pad4
  rw [List.length_append, List.length_replicate]; omega

end GE.Err

namespace GE
open Err Prt

/-- C110: a text without tabs: the reported line, column and source line are those of the reported position -/
theorem C110_location (text : Str) (loc : Nat) (found filename : Str) (ht : '\t' ∉ text) (hl : loc ≤ text.length) :
    IsAt text loc (gcnLocation text loc found filename).line (gcnLocation text loc found filename).column
      (gcnLocation text loc found filename).sourceLine := by
  have h := (report_pos text loc hl).1
  simp only [gcnLocation, expand_id text ht]
  exact h

/-- C110: line and source line are right whatever tabs the text has; `a` is the text before the error -/
theorem C110_line (a b : Str) (found filename : Str) :
    let l := gcnLocation (a ++ b) (expandTabs 0 a).length found filename
    ∃ column, IsAt (a ++ b) a.length l.line column l.sourceLine := by
  intro l
  obtain ⟨k', hk⟩ := expand_append a b 0
  have hline : l.line = a.count '\n' + 1 := by
    simp only [l, gcnLocation]; rw [hk, lineno_split, expand_count]
  refine ⟨col (a ++ b) a.length, ?_⟩
  have h := (report_at a b).1
  have hs : l.sourceLine = (splitNl (a ++ b))[l.line - 1]?.getD [] := rfl
  rw [hs, hline]
  rw [lineno_split] at h
  exact h

/-- C110: when the text goes on with the offending word, the column, the end column, the carets and the range handed to editors
all cover exactly that word -/
theorem C110_span (text : Str) (loc : Nat) (w filename : Str) (ht : '\t' ∉ text) (hl : loc ≤ text.length) (hw : w ≠ [])
    (hq : stripQuotes w = w) (hn : '\n' ∉ w) (hp : w <+: text.drop loc) :
    let l := gcnLocation text loc w filename
    (∃ k : Nat, l.column = k + 1 ∧ StandsAt w l.sourceLine k ∧
      l.pointer = [l.sourceLine, List.replicate k ' ' ++ List.replicate w.length '^'] ∧
      l.lsp = ((l.line : Int) - 1, (k : Int), (l.line : Int) - 1, (k : Int) + w.length)) := by
  obtain ⟨_, mid, post, tl, h1, h2, h3, h4⟩ := report_pos text loc hl
  intro l
  have hcol : l.column = mid.length + 1 := by simp only [l, gcnLocation, expand_id text ht]; exact h4
  have hsrc : l.sourceLine = mid ++ post := by simp only [l, gcnLocation, expand_id text ht]; exact h3
  have hec : l.endColumn = some (l.column + w.length) := by
    have : (stripQuotes w ≠ [] ∧ col (expandTabs 0 text) loc > 0) := by
      rw [hq, expand_id text ht, h4]; exact ⟨hw, by omega⟩
    simp only [l, gcnLocation]; rw [if_pos this, hq]
  have hel : l.endLine = some l.line := by
    have : (stripQuotes w ≠ [] ∧ col (expandTabs 0 text) loc > 0) := by
      rw [hq, expand_id text ht, h4]; exact ⟨hw, by omega⟩
    simp only [l, gcnLocation]; rw [if_pos this]; rfl
  rw [h1] at hp
  obtain ⟨r, hr⟩ := prefix_take hn hp h2
  refine ⟨mid.length, hcol, ⟨mid, r, by rw [hsrc, ← hr]; simp, rfl⟩, ?_, ?_⟩
  · unfold Loc.pointer
    rw [if_neg, carets_span hw hec hel, hcol]
    · congr 3; congr 1; omega
    · rw [hsrc, ← hr]; simp [hw]
  · unfold Loc.lsp
    rw [hec, hel, hcol]
    simp only [Option.getD_some]
    refine Prod.ext rfl (Prod.ext ?_ (Prod.ext rfl ?_)) <;> simp only <;> omega

/-- C110: parameters know where they are -/
theorem C110_parameter (s : Str) (loc : Nat) (name : Str) (hl : loc ≤ s.length) (hw : name ≠ []) (hn : '\n' ∉ name) (hp : name <+: s.drop loc) :
    let l := parameterLocation s loc name
    IsAt s loc l.line l.column l.sourceLine ∧ l.endLine = some l.line ∧ l.endColumn = some (l.column + name.length) ∧
      StandsAt name l.sourceLine (l.column - 1).toNat ∧ l.carets = name.length := by
  obtain ⟨h, mid, post, tl, h1, h2, h3, h4⟩ := report_pos s loc hl
  intro l
  refine ⟨h, rfl, rfl, ?_, carets_span hw rfl rfl⟩
  rw [h1] at hp
  obtain ⟨r, hr⟩ := prefix_take hn hp h2
  have hsrc : l.sourceLine = mid ++ post := h3
  have hcol : l.column = mid.length + 1 := h4
  exact ⟨mid, r, by rw [hsrc, ← hr]; simp, by rw [hcol]; omega⟩

/-- C110: a variable written `X[]` knows where it is -/
theorem C110_variable (s : Str) (loc : Nat) (name : Str) (hl : loc ≤ s.length) (hn : '\n' ∉ name)
    (hp : name ++ ['[', ']'] <+: s.drop loc) :
    let l := variableLocation s loc name (.t 0)
    IsAt s loc l.line l.column l.sourceLine ∧ StandsAt (name ++ ['[', ']']) l.sourceLine (l.column - 1).toNat ∧
      l.carets = (name ++ ['[', ']']).length := by
  obtain ⟨h, mid, post, tl, h1, h2, h3, h4⟩ := report_pos s loc hl
  intro l
  have hn' : '\n' ∉ name ++ ['[', ']'] := by
    simp only [List.mem_append, not_or]; exact ⟨hn, by decide⟩
  refine ⟨h, ?_, carets_span (by simp) ?_ rfl⟩
  · rw [h1] at hp
    obtain ⟨r, hr⟩ := prefix_take hn' hp h2
    have hsrc : l.sourceLine = mid ++ post := h3
    have hcol : l.column = mid.length + 1 := h4
    exact ⟨mid, r, by rw [hsrc, ← hr]; simp, by rw [hcol]; omega⟩
  · simp [l, variableLocation]

/-- C110, fails: a variable written with any other date is marked two characters too far -/
theorem C110_variable_violated (s : Str) (loc : Nat) (name : Str) (t : TIdx) (h : t ≠ .t 0) (hl : loc ≤ s.length) :
    let l := variableLocation s loc name t
    IsAt s loc l.line l.column l.sourceLine ∧ l.carets = (name ++ indexText t).length + 2 := by
  intro l
  refine ⟨(report_pos s loc hl).1, ?_⟩
  unfold Loc.carets
  have : l.endColumn = some (l.column + ((name ++ indexText t).length + 2 : Nat)) := by
    simp only [l, variableLocation, if_neg h, List.length_append]
    congr 2; omega
  have h2 : l.endLine = some l.line := rfl
  rw [this, h2]
  simp only [if_true]
  omega

/-- C110, fails: behind a tab the column counts the expanded tab, and the carets stand somewhere else than the word -/
theorem C110_tab_violated : ∃ (a w b : Str), w ≠ [] ∧
    let l := gcnLocation (a ++ w ++ b) (expandTabs 0 a).length w []
    StandsAt w l.sourceLine 1 ∧ l.column = 9 ∧ ¬ IsAt (a ++ w ++ b) a.length l.line l.column l.sourceLine := by
  refine ⟨['\t'], ['Q', 'Q'], [';'], by decide, ⟨['\t'], [';'], by decide, rfl⟩, by decide, ?_⟩
  rintro ⟨pre, post, h1, _, _, _, _, _, h2, h3⟩
  have e1 : (gcnLocation (['\t'] ++ ['Q', 'Q'] ++ [';']) (expandTabs 0 ['\t']).length ['Q', 'Q'] []).column = 9 := by decide
  rw [e1] at h3
  simp at h3
  omega

example : (gcnLocation "block A\n  x[] @ y;".toList 14 "@".toList "f.gcn".toList).pointer = ["  x[] @ y;".toList, "      ^".toList] := by decide
example : (gcnLocation "block A\n  x[] @ y;".toList 14 "@".toList "f.gcn".toList).text = "f.gcn:2:7".toList := by decide

/-! ## C109 -/

/-- C109: message, code, offending text and suggestions survive being carried through pyparsing -/
theorem C109_carried (f : Fail) (h : Clean f) (excFound : Str) : decode (encode f) excFound = f := by
  unfold decode
  rw [if_pos (encode_has f), split_encode h]
  simp only [if_pos h.code]
  rw [split_suggestions (fun s hs => ⟨(h.suggestions s hs).1, (h.suggestions s hs).2.1⟩)]

/-- C109: and a copy of the failure carries the same -/
theorem C109_copy (f : Fail) (h : Clean f) (excFound : Str) : decode (copyMsg f) excFound = f := by
  have : copyMsg f = encode f := by
    simp only [copyMsg]
    rw [if_pos (encode_has f), split_encode h]
    rfl
  rw [this, C109_carried f h]

/-- C109: a failure of pyparsing's own keeps its message -/
theorem C109_plain (msg excFound : Str) (h : isIn separator msg = false) : decode msg excFound = ⟨msg, "E000".toList, excFound, []⟩ := by
  simp [decode, h]

/-- C109, fails: offending text with the separator in it, here the index of `C[||GCN||]`, loses code, text and message -/
theorem C109_separator_violated : ∃ f : Fail, f.code ∈ codes ∧ f.code ≠ "E000".toList ∧ ∀ x, (decode (encode f) x).code = "E000".toList ∧
    (decode (encode f) x).found = [] ∧ (decode (encode f) x).msg ≠ f.msg :=
  ⟨⟨"Invalid time index".toList, "E003".toList, "||GCN||".toList, []⟩, by decide, by decide, fun _ => ⟨rfl, rfl, by change encode _ ≠ _; decide⟩⟩

/-- C109: the error the user sees has the code, the message, the offending text and the first suggestion of the failure -/
theorem C109_shown (fixes comps : Str → List Str) (annot : Fail → Str) (text : Str) (loc : Nat) (f : Fail) (filename excFound : Str) (h : Clean f) :
    let e := convertFailure fixes comps annot text loc (decode (encode f) excFound) filename
    e.code = some f.code ∧ f.msg <+: e.message ∧ (f.found ≠ [] → e.message = f.msg ++ ". Found '".toList ++ f.found ++ ['\'']) ∧
    e.found = f.found ∧ (∃ before, e.notes = before ++ fixes f.code ∧ before.length ≤ 1) ∧
    (∀ s l, f.suggestions = s :: l → (∃ n ∈ e.notes, isIn "Did you mean".toList n = true)) ∧
    (∀ s l, f.suggestions = s :: l → (∀ n ∈ fixes f.code, isIn "Did you mean".toList n = false) → f.code ≠ "E013".toList →
      e.notes = ("Did you mean '".toList ++ s ++ "'?".toList) :: fixes f.code) := by
  rw [C109_carried f h]
  intro e
  have did : ∀ s : Str, isIn "Did you mean".toList ("Did you mean '".toList ++ s ++ "'?".toList) = true := by
    intro s
    have := isIn_append "Did you mean".toList [] (" '".toList ++ s ++ "'?".toList)
    simp only [List.nil_append] at this
    have e : "Did you mean '".toList = "Did you mean".toList ++ " '".toList := by decide
    rw [e, List.append_assoc, List.append_assoc]
    simpa [List.append_assoc] using this
  refine ⟨rfl, ?_, ?_, rfl, ?_, ?_, ?_⟩
  · simp only [e, convertFailure, grammarMessage]
    by_cases hf : f.found = []
    · simp [hf]
    · simp [hf]
  · intro hf
    have e0 : ". Found '".toList = ". Found ".toList ++ ['\''] := by decide
    simp only [e, convertFailure, grammarMessage, quoted]
    simp [hf]
  · simp only [e, convertFailure, semanticNotes]
    by_cases hc : f.code = "E013".toList
    · rw [if_pos hc]
      cases hcomp : comps f.found with
      | nil =>
        simp only [List.nil_append]
        cases f.suggestions with
        | nil => exact ⟨[], rfl, by simp⟩
        | cons s l =>
          simp only
          split
          · exact ⟨[], rfl, by simp⟩
          · exact ⟨[_], rfl, by simp⟩
      | cons c cs =>
        simp only
        cases f.suggestions with
        | nil => exact ⟨[_], rfl, by simp⟩
        | cons s l =>
          simp only
          rw [if_pos (by rw [List.any_append]; simp only [List.any_cons, did, Bool.true_or])]
          exact ⟨[_], rfl, by simp⟩
    · rw [if_neg hc]
      simp only [List.nil_append]
      cases f.suggestions with
      | nil => exact ⟨[], rfl, by simp⟩
      | cons s l =>
        simp only
        split
        · exact ⟨[], rfl, by simp⟩
        · exact ⟨[_], rfl, by simp⟩
  · intro s l hs
    simp only [e, convertFailure, semanticNotes, hs]
    generalize (if f.code = "E013".toList then
      match comps f.found with
      | s :: _ => ["Did you mean '".toList ++ s ++ "'?".toList]
      | [] => []
    else []) ++ fixes f.code = notes
    by_cases hh : notes.any (isIn "Did you mean".toList) = true
    · rw [if_pos hh]
      exact List.any_eq_true.1 hh
    · rw [if_neg hh]
      exact ⟨_, List.mem_cons_self, did s⟩
  · intro s l hs hfix hc
    simp only [e, convertFailure, semanticNotes, hs]
    rw [if_neg hc, List.nil_append, if_neg]
    rw [List.any_eq_true]
    rintro ⟨n, hn, hh⟩
    rw [hfix n hn] at hh
    cases hh

/-- C109: a parse or grammar error moved elsewhere keeps message, code, severity, context, suggestions, annotation and notes -/
theorem C109_moved (e : Error) (l : Loc) (h : e.cls ≠ .semantic) : ∃ e', e.withLocation l = .ok e' ∧ e'.location = some l ∧ e'.cls = e.cls ∧
    e'.message = e.message ∧ e'.code = e.code ∧ e'.severity = e.severity ∧ e'.context = e.context ∧ e'.suggestions = e.suggestions ∧
    e'.annotation = e.annotation ∧ e'.notes = e.notes := by
  obtain ⟨cls, _⟩ := e
  cases cls with
  | semantic => exact absurd rfl h
  | parse => exact ⟨_, rfl, rfl, rfl, rfl, rfl, rfl, rfl, rfl, rfl, rfl⟩
  | grammar => exact ⟨_, rfl, rfl, rfl, rfl, rfl, rfl, rfl, rfl, rfl, rfl⟩

/-- C109: the same for a context -/
theorem C109_context (e : Error) (c : Str) (h : e.cls ≠ .semantic) : ∃ e', e.withContext c = .ok e' ∧ e'.context = c ∧ e'.cls = e.cls ∧
    e'.message = e.message ∧ e'.code = e.code ∧ e'.severity = e.severity ∧ e'.location = e.location ∧ e'.suggestions = e.suggestions ∧
    e'.annotation = e.annotation ∧ e'.notes = e.notes := by
  obtain ⟨cls, _⟩ := e
  cases cls with
  | semantic => exact absurd rfl h
  | parse => exact ⟨_, rfl, rfl, rfl, rfl, rfl, rfl, rfl, rfl, rfl, rfl⟩
  | grammar => exact ⟨_, rfl, rfl, rfl, rfl, rfl, rfl, rfl, rfl, rfl, rfl⟩

/-- C109, fails: no semantic error can be moved or given a context, and a moved grammar error forgets what it found -/
theorem C109_moved_violated (e : Error) :
    (e.cls = .semantic → (∀ l, e.withLocation l = .error "TypeError") ∧ ∀ c, e.withContext c = .error "TypeError") ∧
    (e.cls = .grammar → ∀ l e', e.withLocation l = .ok e' → e'.found = [] ∧ e'.expected = []) := by
  obtain ⟨cls, _⟩ := e
  constructor
  · rintro rfl
    exact ⟨fun _ => rfl, fun _ => rfl⟩
  · rintro rfl l e' h
    cases h
    exact ⟨rfl, rfl⟩

example : Clean ⟨"Unknown block component".toList, "E013".toList, "identites".toList, ["identities".toList]⟩ :=
  ⟨by decide, by decide, by decide, by decide⟩

/-! ## C111 -/

/-- C111: the report of an error in line `l` of a source shows that line with the carets right below, the `context` lines before
and after it as far as the source has them, each with its number -/
theorem C111_context (context : Nat) (e : Error) (l : Loc) (source : Str) (hs : source ≠ []) (he : e.location = some l) (h1 : 1 ≤ l.line)
    (hn : l.line ≤ (splitNl source).length) :
    let lines := splitNl source
    let row := fun i => sourceRow i (lines[i - 1]?.getD [])
    ∃ label file bottom before after help, formatError context e (some source) =
        [label ++ ": ".toList ++ e.message, "  --> ".toList ++ file ++ ':' :: (natStr l.line ++ ':' :: intText l.column), "     |".toList]
        ++ before ++ [row l.line, pointerRow l.column l.span e.annotation] ++ after ++ bottom ∧
      (∀ c, e.code = some c → label = e.severity ++ '[' :: (c ++ [']'])) ∧ (l.filename ≠ [] → file = l.filename) ∧
      bottom = "     |".toList :: (help ++ e.notes.map ("   = note: ".toList ++ ·)) ∧
      (e.suggestions = [] → help = []) ∧ (∀ s, e.suggestions = [s] → help = ["   = help: Did you mean '".toList ++ s ++ "'?".toList]) ∧
      (2 ≤ e.suggestions.length → help = ["   = help: Did you mean one of: ".toList ++ joinText ", ".toList e.suggestions ++ ['?']]) ∧
      before = (List.range' (l.line - min context (l.line - 1)) (min context (l.line - 1))).map row ∧
      after = (List.range' (l.line + 1) (min context (lines.length - l.line))).map row := by
  intro lines row
  have hne : lines ≠ [] := splitNl_ne source
  have hn' : l.line ≤ lines.length := hn
  obtain ⟨label, file, hlabel, hfile, hunf⟩ : ∃ label file : Str, (∀ c, e.code = some c → label = e.severity ++ '[' :: (c ++ [']'])) ∧
      (l.filename ≠ [] → file = l.filename) ∧ formatError context e (some source) = [label ++ ": ".toList ++ e.message]
      ++ (["  --> ".toList ++ file ++ ':' :: (natStr l.line ++ ':' :: intText l.column), "     |".toList]
        ++ contextRows lines l e.annotation (max 1 (l.line - context)) (min lines.length (l.line + context) + 1 - max 1 (l.line - context))
        ++ ["     |".toList]) ++ helpRows e.suggestions ++ e.notes.map ("   = note: ".toList ++ ·) := by
    refine ⟨match e.code with | some c => e.severity ++ '[' :: (c ++ [']']) | none => e.severity,
      if l.filename ≠ [] then l.filename else "<input>".toList, fun c hc => by rw [hc], fun h => by rw [if_pos h], ?_⟩
    cases source with
    | nil => exact absurd rfl hs
    | cons c cs =>
      unfold formatError
      rw [he]
      have hcond : splitNl (c :: cs) ≠ [] ∧ l.line ≤ (splitNl (c :: cs)).length := ⟨hne, hn⟩
      simp only [if_pos hcond, lines]
      rfl
  rw [hunf]
  set p := min context (l.line - 1) with hp
  set q := min context (lines.length - l.line) with hq
  have hlen : min lines.length (l.line + context) + 1 - max 1 (l.line - context) = p + (1 + q) := by omega
  have ha : max 1 (l.line - context) = l.line - p := by omega
  rw [hlen, ha, contextRows_append, contextRows_append]
  have hb : contextRows lines l e.annotation (l.line - p) p = (List.range' (l.line - p) p).map row :=
    contextRows_plain _ _ _ _ _ (fun i hi => by omega)
  have hm : contextRows lines l e.annotation (l.line - p + p) 1 = [row l.line, pointerRow l.column l.span e.annotation] := by
    rw [show l.line - p + p = l.line by omega]
    simp [contextRows, row]
  have hc : contextRows lines l e.annotation (l.line - p + p + 1) q = (List.range' (l.line + 1) q).map row := by
    rw [show l.line - p + p + 1 = l.line + 1 by omega]
    exact contextRows_plain _ _ _ _ _ (fun i hi => by omega)
  rw [hb, hm, hc]
  refine ⟨label, file, _, _, _, helpRows e.suggestions, by simp only [List.append_assoc, List.cons_append, List.nil_append], hlabel, hfile, rfl, ?_, ?_, ?_, rfl, rfl⟩
  · intro h; rw [h]; rfl
  · intro s h; rw [h]; rfl
  · intro h
    obtain ⟨a, b, t, ht⟩ : ∃ a b t, e.suggestions = a :: b :: t := by
      match hq : e.suggestions, h with
      | a :: b :: t, _ => exact ⟨a, b, t, rfl⟩
    rw [ht]; rfl

/-- C111: in the report the carets stand exactly below the offending word, up to line 9999 -/
theorem C111_aligned (context : Nat) (e : Error) (text : Str) (loc : Nat) (w filename : Str) (ht : '\t' ∉ text) (hl : loc ≤ text.length)
    (hq : stripQuotes w = w) (hn : '\n' ∉ w) (hp : w <+: text.drop loc) (hws : ∃ v c, w = v ++ [c] ∧ isWs c = false)
    (he : e.location = some (gcnLocation text loc w filename)) (h9 : (gcnLocation text loc w filename).line ≤ 9999) (ha : e.annotation = []) :
    ∃ above below src carets k, formatError context e (some text) = above ++ [src, carets] ++ below ∧ StandsAt w src k ∧
      carets = "     | ".toList ++ List.replicate (k - 7) ' ' ++ List.replicate w.length '^' ∧ 7 ≤ k := by
  obtain ⟨v, c, hv, hc⟩ := hws
  have hw : w ≠ [] := by rw [hv]; simp
  set l := gcnLocation text loc w filename with hldef
  obtain ⟨k, h1, ⟨a, b, h2, h2'⟩, h3, h4⟩ := C110_span text loc w filename ht hl hw hq hn hp
  have hspan : l.span = w.length := by
    have hlsp := h4
    unfold Loc.lsp at hlsp
    simp only [Prod.mk.injEq] at hlsp
    have hcond : (stripQuotes w ≠ [] ∧ col (expandTabs 0 text) loc > 0) := by
      rw [hq]; exact ⟨hw, by have : l.column = k + 1 := h1; change l.column > 0; omega⟩
    have hec : l.endColumn = some (l.column + w.length) := by
      simp only [hldef, gcnLocation]; rw [if_pos hcond, hq]
    have hel : l.endLine = some l.line := by
      simp only [hldef, gcnLocation]; rw [if_pos hcond]; rfl
    have hcol : l.column = k + 1 := h1
    unfold Loc.span
    rw [hec, hel]
    simp only [and_true]
    rw [if_pos (by rw [hcol]; omega)]
    omega
  have hsne : text ≠ [] := by
    rintro rfl
    rw [List.drop_nil] at hp
    exact hw (List.prefix_nil.1 hp)
  have hline1 : 1 ≤ l.line := by simp only [hldef, gcnLocation, lineno]; omega
  have hlen : l.line ≤ (splitNl text).length := by
    by_contra hcon
    have : l.sourceLine = [] := by
      simp only [hldef, gcnLocation]
      rw [List.getElem?_eq_none]
      · rfl
      · have : (gcnLocation text loc w filename).line = lineno (expandTabs 0 text) loc := rfl
        rw [← this]; change _ ≤ l.line - 1; omega
    rw [this] at h2
    have := congrArg List.length h2
    simp only [List.length_nil, List.length_append] at this
    have hw' : 0 < w.length := List.length_pos_iff.2 hw
    omega
  obtain ⟨label, file, bottom, before, after, _, hf, -⟩ := C111_context context e l text hsne he hline1 hlen
  have hsrc : (splitNl text)[l.line - 1]?.getD [] = a ++ w ++ b := h2
  refine ⟨[label ++ ": ".toList ++ e.message, "  --> ".toList ++ file ++ ':' :: (natStr l.line ++ ':' :: intText l.column), "     |".toList] ++ before, after ++ bottom, sourceRow l.line ((splitNl text)[l.line - 1]?.getD []), pointerRow l.column l.span e.annotation, k + 7, ?_, ?_, ?_, by omega⟩
  · rw [hf]; simp only [List.append_assoc]
  · rw [hsrc, hv]
    obtain ⟨z, hz⟩ := rstrip_append (a ++ v) b c hc
    have hz' : rstrip (a ++ (v ++ [c]) ++ b) = a ++ (v ++ [c]) ++ z := by simpa [List.append_assoc] using hz
    unfold sourceRow
    simp only
    rw [hz', if_pos (by simp)]
    refine ⟨pad4 l.line ++ " | ".toList ++ a, z, by simp only [List.append_assoc], ?_⟩
    have : (" | ".toList).length = 3 := by decide
    rw [List.length_append, List.length_append, pad4_length h9, this, h2']; omega
  · unfold pointerRow
    rw [ha, hspan]
    have hcol : l.column = k + 1 := h1
    rw [hcol]
    simp only [ne_eq, not_true_eq_false, if_false, List.append_nil]
    congr 2
    · congr 1; congr 1; omega
    · have hw' : 0 < w.length := List.length_pos_iff.2 hw
      omega

/-- C111, fails: from line 10000 on the carets are to the left of the word -/
theorem C111_aligned_violated (n : Nat) (h : 10000 ≤ n) (a w : Str) (hw : w ≠ []) (hws : ∀ c ∈ w, isWs c = false) (column : Int)
    (hc : column = a.length + 1) :
    ∃ k, StandsAt w (sourceRow n (a ++ w)) k ∧ pointerRow column w.length [] = "     | ".toList ++ List.replicate a.length ' ' ++ List.replicate w.length '^' ∧
      7 + a.length < k := by
  obtain ⟨v, c, hv⟩ : ∃ v c, w = v ++ [c] := ⟨w.dropLast, w.getLast hw, (List.dropLast_append_getLast hw).symm⟩
  obtain ⟨z, hz⟩ := rstrip_append (a ++ v) [] c (hws c (by rw [hv]; simp))
  have hz' : rstrip (a ++ w) = a ++ w ++ z := by rw [hv]; simpa [List.append_assoc] using hz
  refine ⟨(pad4 n ++ " | ".toList ++ a).length, ?_, ?_, ?_⟩
  · unfold sourceRow
    simp only
    rw [hz', if_pos (by rw [hv]; simp)]
    exact ⟨_, z, by simp only [List.append_assoc], rfl⟩
  · have hw' : 0 < w.length := List.length_pos_iff.2 hw
    unfold pointerRow
    rw [if_neg (by simp), hc, List.append_nil]
    congr 2
    · congr 1; congr 1; omega
    · omega
  · have : (" | ".toList).length = 3 := by decide
    have := pad4_long h
    simp only [List.length_append]
    omega

example : formatError 2 { cls := .grammar, message := "Invalid".toList, code := some "E003".toList, location := some (gcnLocation "a;\n  K[x];\nb;".toList 7 "x".toList []) } (some "a;\n  K[x];\nb;".toList) =
    ["error[E003]: Invalid".toList, "  --> <input>:2:5".toList, "     |".toList, "   1 | a;".toList, "   2 |   K[x];".toList,
     "     |     ^".toList, "   3 | b;".toList, "     |".toList] := by decide +kernel

end GE

namespace GE.Err

theorem expand_stop (a : Str) : ∀ k, '\n' ∉ a → '\r' ∉ a → (k + (expandTabs k (a ++ ['\t'])).length) % 8 = 0 := by
  induction a with
  | nil => intro k _ _; simp [expandTabs]; omega
  | cons c a ih =>
    intro k hn hr
    simp only [List.mem_cons, not_or] at hn hr
    simp only [List.cons_append, expandTabs]
    split
    · have := ih 0 hn.2 hr.2
      simp only [List.length_append, List.length_replicate]; omega
    · rw [if_neg (by rintro (h | h); exacts [hn.1 h.symm, hr.1 h.symm])]
      have := ih (k + 1) hn.2 hr.2
      simp only [List.length_cons]; omega

theorem expand_grow (a : Str) : ∀ k, (expandTabs k a).length < (expandTabs k (a ++ ['\t'])).length ∧
    (expandTabs k (a ++ ['\t'])).length ≤ (expandTabs k a).length + 8 := by
  induction a with
  | nil => intro k; simp [expandTabs]; omega
  | cons c a ih =>
    intro k
    simp only [List.cons_append, expandTabs]
    split
    · have := ih 0; simp only [List.length_append, List.length_replicate]; omega
    · have := ih (if c = '\n' ∨ c = '\r' then 0 else k + 1); simp only [List.length_cons]; omega

theorem strip_quoted (q : Char) (hq : q = '\'' ∨ q = '"') (w : Str) (h1 : '\'' ∉ w) (h2 : '"' ∉ w) : stripQuotes (q :: (w ++ [q])) = w := by
  have key : ∀ (v t : Str), '\'' ∉ v → '"' ∉ v → v ≠ [] →
      (v ++ t).dropWhile (fun c : Char => c == '\'' || c == '"') = v ++ t := by
    intro v t a b c
    cases v with
    | nil => exact absurd rfl c
    | cons x v =>
      simp only [List.mem_cons, not_or] at a b
      have : (x == '\'' || x == '"') = false := by
        simp only [Bool.or_eq_false_iff, beq_eq_false_iff_ne]; exact ⟨fun e => a.1 e.symm, fun e => b.1 e.symm⟩
      simp [List.dropWhile, this]
  have hqq : (q == '\'' || q == '"') = true := by rcases hq with rfl | rfl <;> rfl
  unfold stripQuotes
  cases w with
  | nil => simp [List.dropWhile, hqq]
  | cons x w =>
    simp only [List.dropWhile, hqq]
    rw [key (x :: w) [q] h1 h2 (by simp)]
    rw [List.reverse_append, List.reverse_singleton, List.singleton_append]
    simp only [List.dropWhile, hqq]
    have := key (x :: w).reverse [] (fun h => h1 (List.mem_reverse.1 h)) (fun h => h2 (List.mem_reverse.1 h)) (by simp)
    simp only [List.append_nil] at this
    rw [this, List.reverse_reverse]

end GE.Err

namespace GE
open Err Prt

/-- C110: with tabs in front, all the text `a` of the line before the error included, the reported column is the one on a screen with
tab stops every eight characters: every tab goes on to the next stop, and one past the last column is reported -/
theorem C110_tab_column (a b found filename : Str) (hn : '\n' ∉ a) (hr : '\r' ∉ a) :
    (gcnLocation (a ++ b) (expandTabs 0 a).length found filename).column = (expandTabs 0 a).length + 1 ∧
    8 ∣ (expandTabs 0 (a ++ ['\t'])).length ∧ (expandTabs 0 a).length < (expandTabs 0 (a ++ ['\t'])).length ∧
    (expandTabs 0 (a ++ ['\t'])).length ≤ (expandTabs 0 a).length + 8 := by
  refine ⟨?_, by have := expand_stop a 0 hn hr; omega, (expand_grow a 0).1, (expand_grow a 0).2⟩
  obtain ⟨k', hk⟩ := expand_append a b 0
  simp only [gcnLocation]
  rw [hk]
  have hc : '\n' ∉ expandTabs 0 a := by
    rw [← List.count_eq_zero, expand_count, List.count_eq_zero]; exact hn
  have := col_split [] (expandTabs 0 a) (expandTabs k' b) hc (.inl rfl)
  simpa using this

example : (expandTabs 0 "ab\tc\t".toList).length = 16 := by decide

/-- C110: pyparsing's habit of putting the offending text in quotes does not move the marks -/
theorem C110_quotes (text : Str) (loc : Nat) (q : Char) (w filename : Str) (hq : q = '\'' ∨ q = '"') (h1 : '\'' ∉ w) (h2 : '"' ∉ w) :
    gcnLocation text loc (q :: (w ++ [q])) filename = gcnLocation text loc w filename := by
  have e : stripQuotes w = w := by
    cases w with
    | nil => rfl
    | cons x w =>
      have := strip_quoted '\'' (.inl rfl) (x :: w) h1 h2
      unfold stripQuotes at this ⊢
      have hx : (x == '\'' || x == '"') = false := by
        simp only [List.mem_cons, not_or] at h1 h2
        simp only [Bool.or_eq_false_iff, beq_eq_false_iff_ne]; exact ⟨fun e => h1.1 e.symm, fun e => h2.1 e.symm⟩
      simp only [List.dropWhile, List.cons_append, hx] at this ⊢
      simpa [List.dropWhile] using this
  unfold gcnLocation
  simp only [strip_quoted q hq w h1 h2, e]

/-- C110: whatever the end column, there is a caret; without an end column exactly one, and editors get a range of one character -/
theorem C110_caret (l : Loc) : 1 ≤ l.carets ∧ (l.endColumn = none → l.carets = 1 ∧ ∃ a b c, l.lsp = (a, b, c, b + 1)) := by
  refine ⟨?_, fun h => ⟨by simp [Loc.carets, h], ?_⟩⟩
  · unfold Loc.carets
    split
    · split <;> omega
    · omega
  · unfold Loc.lsp
    rw [h]
    refine ⟨_, _, _, Prod.ext rfl (Prod.ext rfl (Prod.ext rfl ?_))⟩
    simp only [Option.getD_none]; omega

/-- C111: `str(error)` of an error with code, context and place: code and message, context, place, the source line and the carets under
it with the same indentation, then the suggestions -/
theorem C111_str (e : Error) (l : Loc) (c : Str) (hc : e.code = some c) (hx : e.context ≠ []) (he : e.location = some l)
    (hs : l.sourceLine ≠ []) : ∃ help n, 1 ≤ n ∧
    e.lines = ["[".toList ++ c ++ "] ".toList ++ e.message, "  in ".toList ++ e.context,
      "  at ".toList ++ (if l.filename ≠ [] then l.filename ++ ":".toList ++ natStr l.line ++ ":".toList ++ intText l.column
        else "line ".toList ++ natStr l.line ++ ", column ".toList ++ intText l.column),
      "    ".toList ++ l.sourceLine, "    ".toList ++ List.replicate (l.column - 1).toNat ' ' ++ List.replicate n '^'] ++ help ∧
    (e.suggestions = [] → help = []) ∧ (∀ s, e.suggestions = [s] → help = ["  Did you mean: ".toList ++ s ++ ['?']]) ∧
    (∀ s t r, e.suggestions = s :: t :: r → help = ["  Did you mean one of: ".toList ++ joinText ", ".toList (s :: t :: r) ++ ['?']]) := by
  refine ⟨match e.suggestions with
    | [] => []
    | [s] => ["  Did you mean: ".toList ++ s ++ ['?']]
    | l => ["  Did you mean one of: ".toList ++ joinText ", ".toList l ++ ['?']], l.carets, (C110_caret l).1, ?_, fun h => by rw [h],
    fun s h => by rw [h], fun s t r h => by rw [h]⟩
  · unfold Error.lines Loc.pointer Loc.text
    rw [hc, he]
    simp only [if_neg hs, if_pos hx]
    have e1 : ":".toList = [':'] := by decide
    have e2 : "[".toList = ['['] := by decide
    have e3 : "] ".toList = [']', ' '] := by decide
    have e4 : (max 0 (l.column - 1)).toNat = (l.column - 1).toNat := by omega
    rw [e1, e2, e3, e4]
    by_cases hf : l.filename ≠ []
    · simp only [if_pos hf]; simp; rfl
    · simp only [if_neg hf]; simp; rfl

/-- C111: the message of a grammar error ends with what was expected and what was found -/
theorem C111_expected (message : Str) (expected : List Str) (found : Str) :
    let one := match expected with
      | [e] => ". Expected '".toList ++ e ++ "'".toList
      | l => ". Expected one of ".toList ++ joinText ", ".toList (l.map fun e => "'".toList ++ e ++ "'".toList)
    (expected ≠ [] → found ≠ [] → grammarMessage message expected found = message ++ one ++ ", found '".toList ++ found ++ "'".toList) ∧
    (expected ≠ [] → found = [] → grammarMessage message expected found = message ++ one) ∧
    (expected = [] → found ≠ [] → grammarMessage message expected found = message ++ ". Found '".toList ++ found ++ "'".toList) ∧
    (expected = [] → found = [] → grammarMessage message expected found = message) := by
  have e1 : ". Expected '".toList = ". Expected ".toList ++ ['\''] := by decide
  have e2 : ", found '".toList = ", found ".toList ++ ['\''] := by decide
  have e3 : ". Found '".toList = ". Found ".toList ++ ['\''] := by decide
  have e4 : "'".toList = ['\''] := by decide
  have hq : (fun e : Str => ['\''] ++ e ++ ['\'']) = quoted := by funext e; simp [quoted]
  rw [e1, e2, e3, e4, hq]
  intro one
  have ho : one = (match expected with
      | [e] => ". Expected ".toList ++ quoted e
      | l => ". Expected one of ".toList ++ joinText ", ".toList (l.map quoted)) := by
    simp only [one]
    match expected with
    | [] => rfl
    | [e] => simp [quoted]
    | _ :: _ :: _ => rfl
  rw [ho]
  unfold grammarMessage
  refine ⟨fun a b => ?_, fun a b => ?_, fun a b => ?_, fun a b => ?_⟩
  · rw [if_pos ⟨a, b⟩]; simp [quoted]; rfl
  · rw [if_neg (fun h => h.2 b), if_pos a]; rfl
  · rw [if_neg (fun h => h.1 a), if_neg (fun h => h a), if_pos b]; simp [quoted]
  · rw [if_neg (fun h => h.1 a), if_neg (fun h => h a), if_neg (fun h => h b)]

end GE
