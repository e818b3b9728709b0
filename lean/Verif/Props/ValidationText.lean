import Verif.Model.ValidationText
import Verif.Props.ErrorText
/-! # C126: the text of an error found while a block is checked -/

namespace GE.VTx
open Prt Err

/-- `row` shows line number `n`, which reads `line`: two blanks, the number right-aligned in `width` characters, a bar, and the line
without the white space at its end -/
def IsRow (width n : Nat) (line row : Str) : Prop :=
  ∃ pad shown rest : Str, row = ' ' :: ' ' :: (pad ++ natStr n ++ " |".toList ++ (if shown = [] then [] else ' ' :: shown)) ∧
    (∀ c ∈ pad, c = ' ') ∧ (pad ++ natStr n).length = width ∧ line = shown ++ rest ∧ (∀ c ∈ rest, isSpace c = true) ∧
    (∀ s c, shown = s ++ [c] → isSpace c = false)

/-- every line break of the text is a `"\n"` -/
def PlainBreaks (s : Str) : Prop := ∀ c ∈ s, isBreak c = true → c = '\n'

theorem rstrip_spec (s : Str) : ∃ rest, s = rstripPy s ++ rest ∧ (∀ c ∈ rest, isSpace c = true) ∧
    (∀ x c, rstripPy s = x ++ [c] → isSpace c = false) := by
  refine ⟨(s.reverse.takeWhile isSpace).reverse, ?_, ?_, ?_⟩
  · unfold rstripPy
    rw [← List.reverse_append, List.takeWhile_append_dropWhile, List.reverse_reverse]
  · intro c hc
    have hc' := List.mem_reverse.1 hc
    have hall := List.all_takeWhile (p := isSpace) (l := s.reverse)
    exact (List.all_eq_true.1 hall) c hc'
  · intro x c h
    unfold rstripPy at h
    have h' : s.reverse.dropWhile isSpace = c :: x.reverse := by
      have := congrArg List.reverse h
      simpa using this
    have := List.head?_dropWhile_not isSpace s.reverse
    rw [h'] at this
    simpa using this

theorem natStr_mono {n m : Nat} (h : n ≤ m) : (natStr n).length ≤ (natStr m).length := by
  have hpos : 0 < (natStr m).length := by
    unfold natStr
    exact Nat.length_toDigits_pos
  have hm : m < 10 ^ (natStr m).length := (Nat.length_toDigits_le_iff (b := 10) (by decide) hpos).1 (Nat.le_refl _)
  exact (Nat.length_toDigits_le_iff (b := 10) (by decide) hpos).2 (by omega)

theorem vRow_spec {n stop : Nat} (h : n ≤ stop) (line : Str) : IsRow (natStr stop).length n line (vRow (natStr stop).length n line) := by
  obtain ⟨rest, h1, h2, h3⟩ := rstrip_spec line
  refine ⟨List.replicate ((natStr stop).length - (natStr n).length) ' ', rstripPy line, rest, ?_, ?_, ?_, h1, h2, h3⟩
  · unfold vRow padTo
    by_cases hc : rstripPy line = []
    · simp [hc]
    · simp [hc]
  · intro c hc; exact List.eq_of_mem_replicate hc
  · have := natStr_mono h
    simp only [List.length_append, List.length_replicate]; omega

theorem vRows_append (width : Nat) (lines : List Str) (l : Loc) (ann : Str) (n : Nat) : ∀ a m, vRows width lines l ann a (n + m) =
    vRows width lines l ann a n ++ vRows width lines l ann (a + n) m := by
  induction n with
  | zero => intro a m; simp [vRows]
  | succ n ih =>
    intro a m
    rw [show n + 1 + m = (n + m) + 1 by omega]
    simp only [vRows]
    rw [ih (a + 1) m, show a + 1 + n = a + (n + 1) by omega]
    simp

theorem vRows_plain (width : Nat) (lines : List Str) (l : Loc) (ann : Str) (n : Nat) : ∀ a, (∀ i, i < n → a + i ≠ l.line) →
    vRows width lines l ann a n = (List.range' a n).map fun i => vRow width i (lines[i - 1]?.getD []) := by
  induction n with
  | zero => intro a _; rfl
  | succ n ih =>
    intro a h
    simp only [vRows, List.range'_succ, List.map_cons]
    rw [if_neg (by simpa using h 0 (by omega)), ih (a + 1) (fun i hi => by have := h (i + 1) (by omega); omega)]
    rfl

theorem plain_cons {c : Char} {s : Str} (h : PlainBreaks (c :: s)) : PlainBreaks s := fun d hd => h d (List.mem_cons_of_mem _ hd)

theorem splitlines_cons {c : Char} {s : Str} (h : PlainBreaks (c :: s)) :
    splitlines (c :: s) = if c = '\n' then [] :: splitlines s else match splitlines s with | [] => [[c]] | l :: ls => (c :: l) :: ls := by
  have hr : c ≠ '\r' := by
    rintro rfl
    have := h '\r' (by simp) (by decide)
    exact absurd this (by decide)
  have hb : isBreak c = true ↔ c = '\n' := ⟨h c (by simp), by rintro rfl; decide⟩
  have key : splitlines (c :: s) = if isBreak c then [] :: splitlines s else match splitlines s with | [] => [[c]] | l :: ls => (c :: l) :: ls := by
    rw [splitlines]
    · rfl
    · intro cs hc
      first | exact absurd hc hr | (intro h2; exact absurd hc hr)
  rw [key]
  by_cases hc : c = '\n'
  · rw [if_pos (hb.2 hc), if_pos hc]
  · rw [if_neg (by simpa [hb] using hc), if_neg hc]

/-- without other breaks the two ways of splitting a text differ at most by an empty line at the end -/
theorem splitlines_plain (s : Str) (h : PlainBreaks s) : splitNl s = splitlines s ∨ splitNl s = splitlines s ++ [[]] := by
  induction s with
  | nil => right; rfl
  | cons c s ih =>
    rw [splitlines_cons h]
    by_cases hc : c = '\n'
    · subst hc
      rw [if_pos rfl]
      have : splitNl ('\n' :: s) = [] :: splitNl s := by simp [splitNl]
      rw [this]
      rcases ih (plain_cons h) with e | e
      · left; rw [e]
      · right; rw [e]; rfl
    · rw [if_neg hc]
      obtain ⟨l, ls, e1, e2⟩ := splitNl_cons s hc
      rw [e2]
      rcases ih (plain_cons h) with e | e
      · rw [e1] at e
        rw [← e]
        left; rfl
      · rw [e1] at e
        cases hs : splitlines s with
        | nil =>
          rw [hs] at e
          simp only [List.nil_append, List.cons.injEq] at e
          left
          simp [e.1, e.2]
        | cons x xs =>
          rw [hs] at e
          simp only [List.cons_append, List.cons.injEq] at e
          right
          simp [e.1, e.2]

theorem line_plain {s : Str} (h : PlainBreaks s) {i : Nat} {src : Str} (hs : (splitNl s)[i]?.getD [] = src) (hne : src ≠ []) :
    (splitlines s)[i]? = some src := by
  rcases splitlines_plain s h with e | e
  · rw [e] at hs
    cases hg : (splitlines s)[i]? with
    | none => rw [hg] at hs; exact absurd hs.symm hne
    | some x => rw [hg] at hs; simpa using hs
  · rw [e] at hs
    by_cases hi : i < (splitlines s).length
    · rw [List.getElem?_append_left hi] at hs
      rw [List.getElem?_eq_getElem hi] at hs ⊢
      simpa using hs
    · rw [List.getElem?_append_right (by omega)] at hs
      exfalso
      apply hne
      rw [← hs]
      cases i - (splitlines s).length <;> simp

theorem noted (name : Str) (l : Loc) : ∀ (xs : List (Option Str × Option Loc)) (d : List (Str × Loc)), dget (xs.foldl noteLoc d) name = some l ↔
      (∃ before after, xs = before ++ (some name, some l) :: after ∧ ∀ l', (some name, some l') ∉ after) ∨
      ((∀ l', (some name, some l') ∉ xs) ∧ dget d name = some l) := by
  intro xs
  induction xs with
  | nil => intro d; simp
  | cons x xs ih =>
    intro d
    rw [List.foldl_cons, ih]
    constructor
    · rintro (⟨p, q, h1, h2⟩ | ⟨h1, h2⟩)
      · exact Or.inl ⟨x :: p, q, by rw [h1]; rfl, h2⟩
      · obtain ⟨n, o⟩ := x
        by_cases hx : ∃ l', (n, o) = (some name, some l')
        · obtain ⟨l', hx⟩ := hx
          rw [hx] at h2
          simp only [noteLoc, dget_dset_self, Option.some.injEq] at h2
          subst h2
          exact Or.inl ⟨[], xs, by rw [hx]; rfl, h1⟩
        · refine Or.inr ⟨fun l' hm => ?_, ?_⟩
          · rcases List.mem_cons.1 hm with hm | hm
            · exact hx ⟨l', hm.symm⟩
            · exact h1 l' hm
          · cases n with
            | none => exact h2
            | some n =>
              cases o with
              | none => exact h2
              | some o =>
                simp only [noteLoc] at h2
                rw [dget_dset, if_neg (by rintro rfl; exact hx ⟨o, rfl⟩)] at h2
                exact h2
    · rintro (⟨p, q, h1, h2⟩ | ⟨h1, h2⟩)
      · cases p with
        | nil =>
          simp only [List.nil_append, List.cons.injEq] at h1
          obtain ⟨rfl, rfl⟩ := h1
          exact Or.inr ⟨h2, by simp only [noteLoc, dget_dset_self]⟩
        | cons y p =>
          simp only [List.cons_append, List.cons.injEq] at h1
          exact Or.inl ⟨p, q, h1.2, h2⟩
      · refine Or.inr ⟨fun l' hm => h1 l' (List.mem_cons_of_mem _ hm), ?_⟩
        obtain ⟨n, o⟩ := x
        cases n with
        | none => exact h2
        | some n =>
          cases o with
          | none => exact h2
          | some o =>
            simp only [noteLoc]
            rw [dget_dset, if_neg (by rintro rfl; exact h1 o (by simp))]
            exact h2

theorem noted_none (name : Str) : ∀ (xs : List (Option Str × Option Loc)) (d : List (Str × Loc)), dget (xs.foldl noteLoc d) name = none →
    (∀ l, (some name, some l) ∉ xs) ∧ dget d name = none := by
  intro xs
  induction xs with
  | nil => intro d h; exact ⟨fun l hm => by simp at hm, h⟩
  | cons x xs ih =>
    intro d h
    rw [List.foldl_cons] at h
    obtain ⟨h1, h2⟩ := ih _ h
    obtain ⟨n, o⟩ := x
    refine ⟨fun l hm => ?_, ?_⟩
    · rcases List.mem_cons.1 hm with hm | hm
      · rw [← hm] at h2
        simp [noteLoc, dget_dset_self] at h2
      · exact h1 l hm
    · cases n with
      | none => exact h2
      | some n =>
        cases o with
        | none => exact h2
        | some o =>
          simp only [noteLoc] at h2
          rw [dget_dset] at h2
          split at h2
          · simp at h2
          · exact h2

theorem dget_rev {ν : Type} (d : List (Str × ν)) (hn : (dkeys d).Nodup) (k : Str) : dget d.reverse k = dget d k := by
  have hr : (dkeys d.reverse).Nodup := by simpa [dkeys] using hn
  cases h : dget d k with
  | none =>
    rw [dget_eq_none] at h ⊢
    simpa [dkeys] using h
  | some v => exact dget_of_mem _ hr k v (by simpa using mem_of_dget _ _ _ h)

theorem dup_message (names : List Str) (block : Str) (source : Option Str) (l : Option Loc) (h : block ≠ []) :
    (duplicateParameter names block source l).message = "Duplicate parameter declaration in block ".toList ++ block := by
  have e : (duplicateParameter names block source l).message = "Duplicate parameter declaration in ".toList ++
    (if block ≠ [] then "block ".toList ++ block else "calibration blocks".toList) := rfl
  rw [e, if_pos h, ← List.append_assoc]
  have : ("Duplicate parameter declaration in ".toList ++ "block ".toList : Str) = "Duplicate parameter declaration in block ".toList := by decide +kernel
  rw [this]

theorem dup_annotation (names : List Str) (block : Str) (source : Option Str) (l : Option Loc) :
    (duplicateParameter names block source l).annotation = "'".toList ++ joinText ", ".toList names ++ "' already defined".toList := by
  have e : (duplicateParameter names block source l).annotation = ['\''] ++ joinText ", ".toList names ++ "' already defined".toList := rfl
  have h : "'".toList = ['\''] := by decide
  rw [e, h]

end GE.VTx

namespace GE
open VTx Err Prt

/-- C126: without a source, without a place, or with a place outside the source, the text is the message -/
theorem C126_plain (e : VErrIn)
    (h : e.source = none ∨ e.location = none ∨ ∃ s l, e.source = some s ∧ e.location = some l ∧ (l.line = 0 ∨ (splitlines s).length < l.line)) :
    e.text = e.message := by
  unfold VErrIn.text
  rcases h with h | h | ⟨s, l, h1, h2, h3⟩
  · rw [h]
  · rw [h]; cases e.source <;> rfl
  · rw [h1, h2]
    simp only [withSource]
    rw [if_pos (by omega)]

theorem char_eq_iff (c d : Char) : c = d ↔ c.toNat = d.toNat := by
  constructor
  · rintro rfl; rfl
  · intro h
    exact Char.ext (UInt32.toNat_inj.1 h)
/-- C126: what counts as a line break and as white space: the characters of `str.splitlines` and `str.isspace`, by code point -/
theorem C126_characters (c : Char) :
    (isBreak c = true ↔ (0x0A ≤ c.toNat ∧ c.toNat ≤ 0x0D) ∨ (0x1C ≤ c.toNat ∧ c.toNat ≤ 0x1E) ∨ c.toNat = 0x85 ∨ c.toNat = 0x2028 ∨ c.toNat = 0x2029) ∧
    (isSpace c = true ↔ (0x09 ≤ c.toNat ∧ c.toNat ≤ 0x0D) ∨ (0x1C ≤ c.toNat ∧ c.toNat ≤ 0x20) ∨ c.toNat = 0x85 ∨ c.toNat = 0xA0 ∨ c.toNat = 0x1680 ∨
      (0x2000 ≤ c.toNat ∧ c.toNat ≤ 0x200A) ∨ c.toNat = 0x2028 ∨ c.toNat = 0x2029 ∨ c.toNat = 0x202F ∨ c.toNat = 0x205F ∨ c.toNat = 0x3000) := by
  have hb : isBreak c = true ↔ (0x0A ≤ c.toNat ∧ c.toNat ≤ 0x0D) ∨ (0x1C ≤ c.toNat ∧ c.toNat ≤ 0x1E) ∨ c.toNat = 0x85 ∨ c.toNat = 0x2028 ∨ c.toNat = 0x2029 := by
    simp only [isBreak, decide_eq_true_eq, List.mem_cons, List.not_mem_nil, or_false, char_eq_iff, Char.reduceToNat]
    omega
  refine ⟨hb, ?_⟩
  simp only [isSpace, Bool.or_eq_true, hb, decide_eq_true_eq, List.mem_cons, List.not_mem_nil, or_false, char_eq_iff, Char.reduceToNat]
  omega

/-- C126: the whole text: code and message, the place, the line before, the line itself with the carets right below it, two lines after,
as far as the source has them, each with its number, and the notes -/
theorem C126_text (e : VErrIn) (s : Str) (l : Loc) (hs : e.source = some s) (hl : e.location = some l) (h1 : 1 ≤ l.line)
    (hn : l.line ≤ (splitlines s).length) :
    ∃ (width : Nat) (row : Nat → Str) (carets : Str),
      width = (natStr (min (splitlines s).length (l.line + 2))).length ∧
      (∀ n, n ≤ min (splitlines s).length (l.line + 2) → IsRow width n ((splitlines s)[n - 1]?.getD []) (row n)) ∧
      carets = List.replicate ((width + 5 : Nat) + (l.column - 1)).toNat ' '
        ++ List.replicate (match l.endColumn with | some c => (max 1 (c - l.column)).toNat | none => 3) '^'
        ++ (if e.annotation = [] then [] else ' ' :: e.annotation) ∧
      e.text = joinText ['\n'] (
        [if e.code = [] then e.message else "error[".toList ++ e.code ++ "]: ".toList ++ e.message,
          "  --> ".toList ++ (if e.filepath = [] then "<source>".toList else e.filepath) ++ ":".toList ++ natStr l.line ++ ":".toList
            ++ intText (if l.column = 0 then 1 else l.column),
          "     |".toList]
        ++ (if l.line = 1 then [] else [row (l.line - 1)])
        ++ [row l.line, carets]
        ++ (if l.line + 1 ≤ (splitlines s).length then [row (l.line + 1)] else [])
        ++ (if l.line + 2 ≤ (splitlines s).length then [row (l.line + 2)] else [])
        ++ ["     |".toList]
        ++ e.notes.map fun n => "   = note: ".toList ++ n) := by
  set lines := splitlines s with hlines
  set stop := min lines.length (l.line + 2) with hstop
  refine ⟨(natStr stop).length, fun n => vRow (natStr stop).length n (lines[n - 1]?.getD []), vCarets (natStr stop).length l e.annotation, rfl,
    fun n hn => vRow_spec hn _, ?_, ?_⟩
  · unfold vCarets
    by_cases ha : e.annotation = []
    · rw [if_neg (by simpa using ha), if_pos ha]; rfl
    · rw [if_pos ha, if_neg ha]; rfl
  · set row := fun n => vRow (natStr stop).length n (lines[n - 1]?.getD []) with hrow
    have hrows : vRows (natStr stop).length lines l e.annotation (l.line - 2 + 1) (stop - (l.line - 2)) =
        (if l.line = 1 then [] else [row (l.line - 1)]) ++ [row l.line, vCarets (natStr stop).length l e.annotation]
        ++ (if l.line + 1 ≤ lines.length then [row (l.line + 1)] else [])
        ++ (if l.line + 2 ≤ lines.length then [row (l.line + 2)] else []) := by
      have hafter : ∀ q, q = stop - l.line → vRows (natStr stop).length lines l e.annotation (l.line + 1) q =
          (if l.line + 1 ≤ lines.length then [row (l.line + 1)] else []) ++ (if l.line + 2 ≤ lines.length then [row (l.line + 2)] else []) := by
        intro q hq
        rw [vRows_plain _ _ _ _ _ _ (fun i hi => by omega)]
        by_cases h2 : l.line + 2 ≤ lines.length
        · rw [if_pos (by omega), if_pos h2]
          have : q = 2 := by omega
          subst this; simp [hrow, List.range'_succ]
        · rw [if_neg h2]
          by_cases h3 : l.line + 1 ≤ lines.length
          · rw [if_pos h3]
            have : q = 1 := by omega
            subst this; simp [hrow, List.range'_succ]
          · rw [if_neg h3]
            have : q = 0 := by omega
            subst this; rfl
      have hmid : vRows (natStr stop).length lines l e.annotation l.line 1 = [row l.line, vCarets (natStr stop).length l e.annotation] := by
        simp [vRows, hrow]
      by_cases hone : l.line = 1
      · rw [if_pos hone, show l.line - 2 + 1 = l.line by omega, show stop - (l.line - 2) = 1 + (stop - l.line) by omega, vRows_append, hmid,
          hafter _ rfl]
        simp only [List.nil_append, List.append_assoc]
      · rw [if_neg hone, show stop - (l.line - 2) = 1 + (1 + (stop - l.line)) by omega, vRows_append, vRows_append,
          show l.line - 2 + 1 + 1 = l.line by omega, hmid, hafter _ rfl, vRows_plain _ _ _ _ _ _ (fun i hi => by omega),
          show l.line - 2 + 1 = l.line - 1 by omega]
        simp [hrow, List.range'_succ]
    unfold VErrIn.text
    rw [hs, hl]
    simp only [withSource]
    rw [if_neg (by rw [← hlines]; omega), ← hlines, ← hstop, hrows]
    congr 1
    have i1 : (if e.code ≠ [] then "error[".toList ++ e.code ++ "]: ".toList ++ e.message else e.message)
        = if e.code = [] then e.message else "error[".toList ++ e.code ++ "]: ".toList ++ e.message := by
      by_cases hc : e.code = [] <;> simp [hc]
    have i2 : (if e.filepath ≠ [] then e.filepath else "<source>".toList) = if e.filepath = [] then "<source>".toList else e.filepath := by
      by_cases hc : e.filepath = [] <;> simp [hc]
    rw [i1, i2]
    simp only [List.append_assoc, List.cons_append, List.nil_append, show ":".toList = [':'] from rfl]


/-- C126: in a text without tabs whose only line breaks are `"\n"`, the carets stand exactly below the parameter, or the variable
written `X[]`, at the place the parser recorded, whatever the number of the line -/
theorem C126_aligned (e : VErrIn) (text : Str) (loc : Nat) (w : Str) (ht : '\t' ∉ text) (hb : PlainBreaks text) (hl : loc ≤ text.length)
    (hn : '\n' ∉ w) (hp : w <+: text.drop loc) (hw : ∃ v c, w = v ++ [c] ∧ isSpace c = false) (hs : e.source = some text)
    (he : e.location = some (parameterLocation (expandTabs 0 text) loc w) ∨
      ∃ name, w = name ++ ['[', ']'] ∧ e.location = some (variableLocation (expandTabs 0 text) loc name (.t 0))) :
    ∃ above below src carets k line column source, IsAt text loc line column source ∧
      e.text = joinText ['\n'] (above ++ [src, carets] ++ below) ∧
      StandsAt w src k ∧ StandsAt (natStr line ++ " | ".toList) src (k - (natStr line ++ " | ".toList).length - (column - 1).toNat) ∧
      carets = List.replicate k ' ' ++ List.replicate w.length '^' ++ (if e.annotation = [] then [] else ' ' :: e.annotation) := by
  obtain ⟨v, c, hv, hc⟩ := hw
  have hne : w ≠ [] := by rw [hv]; simp
  have hwpos : 0 < w.length := List.length_pos_iff.2 hne
  rw [expand_id text ht] at he
  obtain ⟨l, hel, hat, hst, hec⟩ : ∃ l, e.location = some l ∧ IsAt text loc l.line l.column l.sourceLine ∧
      StandsAt w l.sourceLine (l.column - 1).toNat ∧ l.endColumn = some (l.column + w.length) ∧
      l.sourceLine = (splitNl text)[l.line - 1]?.getD [] := by
    rcases he with he | ⟨name, hwn, he⟩
    · have := C110_parameter text loc w hl hne hn hp
      exact ⟨_, he, this.1, this.2.2.2.1, this.2.2.1, rfl⟩
    · subst hwn
      have := C110_variable text loc name hl (fun h => hn (List.mem_append_left _ h)) hp
      exact ⟨_, he, this.1, this.2.1, by simp [variableLocation], rfl⟩
  obtain ⟨hec, hsl⟩ := hec
  have hsne : l.sourceLine ≠ [] := by
    obtain ⟨a, b, h1, -⟩ := hst
    rw [h1]; simp [hne]
  have hline := line_plain hb hsl.symm hsne
  have hcol : 1 ≤ l.column := by obtain ⟨_, _, _, _, _, _, _, h, _⟩ := hat; exact h
  have h1 : 1 ≤ l.line := by obtain ⟨_, _, _, _, _, _, h, _⟩ := hat; omega
  have hlen : l.line ≤ (splitlines text).length := by
    have := (List.getElem?_eq_some_iff.1 hline).1
    omega
  obtain ⟨width, row, carets, hwid, hrow, hcar, htext⟩ := C126_text e text l hs hel h1 hlen
  obtain ⟨pad, shown, rest, r1, r2, r3, r4, r5, r6⟩ := hrow l.line (by omega)
  rw [hline] at r4
  simp only [Option.getD_some] at r4
  obtain ⟨a, b, ha, hk⟩ := hst
  -- the word is not in the white space cut off
  have hshown : ∃ z, shown = a ++ w ++ z := by
    have hx : shown ++ rest = a ++ w ++ b := by rw [← r4, ha]
    rcases List.append_eq_append_iff.1 hx with ⟨t, e1, e2⟩ | ⟨t, e1, e2⟩
    · -- `a ++ w = shown ++ t`, `rest = t ++ b`
      rcases List.eq_nil_or_concat t with rfl | ⟨t', d, rfl⟩
      · exact ⟨[], by simpa using e1.symm⟩
      · exfalso
        have e3 : (a ++ v) ++ [c] = (shown ++ t') ++ [d] := by
          rw [hv] at e1
          simpa [List.append_assoc] using e1
        have hcd : c = d := by
          have := (List.append_inj' e3 rfl).2
          simpa using this
        have := r5 d (by rw [e2]; simp)
        rw [← hcd, hc] at this
        exact absurd this (by decide)
    · exact ⟨t, e1⟩
  obtain ⟨z, hz⟩ := hshown
  have hzne : shown ≠ [] := by rw [hz]; simp [hne]
  have hrowl : row l.line = ' ' :: ' ' :: (pad ++ natStr l.line ++ " | ".toList ++ (a ++ w ++ z)) := by
    rw [r1, if_neg hzne, hz]
    simp [show " | ".toList = [' ', '|', ' '] from rfl, show " |".toList = [' ', '|'] from rfl]
  have h3 : (" | ".toList).length = 3 := rfl
  have r3' : pad.length + (natStr l.line).length = width := by simpa using r3
  have split : ∀ p q r s t u v : List Str, ∃ x y, p ++ q ++ r ++ s ++ t ++ u ++ v = x ++ r ++ y := fun p q r s t u v =>
    ⟨p ++ q, s ++ (t ++ (u ++ v)), by simp only [List.append_assoc]⟩
  obtain ⟨above, below, hab⟩ := split _ _ [row l.line, carets] _ _ _ _
  refine ⟨above, below, row l.line, carets, width + 5 + a.length, l.line, l.column, l.sourceLine, hat, by rw [htext, hab], ?_, ?_, ?_⟩
  · exact ⟨' ' :: ' ' :: (pad ++ natStr l.line ++ " | ".toList ++ a), z, by rw [hrowl]; simp only [List.append_assoc, List.cons_append],
      by simp only [List.length_cons, List.length_append, h3]; omega⟩
  · refine ⟨' ' :: ' ' :: pad, a ++ w ++ z, by rw [hrowl]; simp only [List.append_assoc, List.cons_append], ?_⟩
    simp only [List.length_cons, List.length_append, h3]
    omega
  · rw [hcar, hec]
    have i1 : ((width + 5 : Nat) + (l.column - 1)).toNat = width + 5 + a.length := by omega
    have i2 : (max 1 (l.column + w.length - l.column)).toNat = w.length := by omega
    simp only [i1, i2]

/-- C126: the place shown for a name is the last one recorded for it in the calibration of the block or, when the calibration records
none, the last one recorded among its controls and shocks -/
theorem C126_place (b : Declared) (name : Str) (l : Loc) :
    dget (symbolLocations b) name = some l ↔
      (∃ before after, b.calibration = before ++ (some name, some l) :: after ∧ ∀ l', (some name, some l') ∉ after) ∨
      ((∀ l', (some name, some l') ∉ b.calibration) ∧
        ∃ before after, b.controls ++ b.shocks = before ++ (name, some l) :: after ∧ ∀ l', (name, some l') ∉ after) := by
  have hnd : ∀ (xs : List (Option Str × Option Loc)) (d : List (Str × Loc)), (dkeys d).Nodup → (dkeys (xs.foldl noteLoc d)).Nodup := by
    intro xs
    induction xs with
    | nil => intro d h; exact h
    | cons x xs ih =>
      intro d h
      rw [List.foldl_cons]
      apply ih
      unfold noteLoc
      split
      · exact dset_nodup _ _ _ h
      · exact h
  have hmap : ∀ (xs : List (Str × Option Loc)), (∃ before after, xs.map (fun p => (some p.1, p.2)) = before ++ (some name, some l) :: after ∧
      ∀ l', (some name, some l') ∉ after) ↔ ∃ before after, xs = before ++ (name, some l) :: after ∧ ∀ l', (name, some l') ∉ after := by
    intro xs
    constructor
    · rintro ⟨p, q, h1, h2⟩
      obtain ⟨p', r', rfl, rfl, hr⟩ := List.map_eq_append_iff.1 h1
      obtain ⟨⟨n, o⟩, q', rfl, hy, rfl⟩ := List.map_eq_cons_iff.1 hr
      simp only [Prod.mk.injEq, Option.some.injEq] at hy
      obtain ⟨rfl, rfl⟩ := hy
      refine ⟨p', q', rfl, fun l' hm => h2 l' (List.mem_map.2 ⟨_, hm, rfl⟩)⟩
    · rintro ⟨p, q, rfl, h2⟩
      refine ⟨p.map _, q.map _, by rw [List.map_append, List.map_cons], fun l' hm => ?_⟩
      obtain ⟨⟨n, o⟩, hm, hy⟩ := List.mem_map.1 hm
      simp only [Prod.mk.injEq, Option.some.injEq] at hy
      obtain ⟨rfl, rfl⟩ := hy
      exact h2 l' hm
  unfold symbolLocations
  rw [dget_dupdate, dget_rev _ (hnd b.calibration [] (by simp [dkeys]))]
  have k1 := noted name l b.calibration []
  have k2 := noted name l ((b.controls ++ b.shocks).map fun p => (some p.1, p.2)) []
  rw [hmap] at k2
  simp only [dget, reduceCtorEq, and_false, or_false] at k1 k2
  cases hc : dget (b.calibration.foldl noteLoc []) name with
  | some l0 =>
    simp only [Option.some_or]
    rw [← hc, k1]
    constructor
    · exact Or.inl
    · rintro (h | ⟨h, -⟩)
      · exact h
      · exfalso
        have := (noted name l0 b.calibration []).1 hc
        simp only [dget, reduceCtorEq, and_false, or_false] at this
        obtain ⟨p, q, h1, -⟩ := this
        exact h l0 (by rw [h1]; simp)
  | none =>
    simp only [Option.none_or]
    rw [k2]
    constructor
    · intro h
      exact Or.inr ⟨(noted_none name _ _ hc).1, h⟩
    · rintro (h | ⟨-, h⟩)
      · rw [← k1, hc] at h; simp at h
      · exact h

/-- C126: the three errors of a block show the block, the name or names, the source of the file and the place recorded for the name
(for duplicates: for the first one); no duplicates, no error -/
theorem C126_errors (b : Declared) (block name control : Str) (names : List Str) (source : Option Str) :
    (∃ e, duplicateError b block source (name :: names) = some e ∧ e.source = source ∧ e.location = dget (symbolLocations b) name ∧
      e.code = "V003".toList ∧ (block ≠ [] → e.message = "Duplicate parameter declaration in block ".toList ++ block) ∧
      e.annotation = "'".toList ++ joinText ", ".toList (name :: names) ++ "' already defined".toList) ∧
    duplicateError b block source [] = none ∧
    (∃ e, controlError b block name control source = e ∧ e.source = source ∧ e.location = dget (symbolLocations b) name ∧
      e.code = "V002".toList ∧
      e.message = "Control variable '".toList ++ control ++ "' in block ".toList ++ block ++ " not found in equations".toList) ∧
    (∃ e, calibratingError b block name source = e ∧ e.source = source ∧ e.location = dget (symbolLocations b) name ∧
      e.code = "V001".toList ∧ e.message = "Calibrating equation in block ".toList ++ block ++ " uses non-steady-state variables".toList ∧
      e.annotation = "variables must use [ss] time index".toList) := by
  refine ⟨⟨duplicateParameter (name :: names) block source (dget (symbolLocations b) name), rfl, rfl, rfl, rfl, dup_message _ _ _ _, dup_annotation _ _ _ _⟩,
    rfl, ⟨_, rfl, rfl, rfl, rfl, rfl⟩, ⟨_, rfl, rfl, rfl, rfl, rfl, rfl⟩⟩

/-- C126, fails: a line break the parser does not count, here a form feed in a comment, and the line shown is another one, in which the
name does not stand at all -/
theorem C126_break_violated : ∃ (text : Str) (loc : Nat) (w : Str), '\t' ∉ text ∧ w <+: text.drop loc ∧
    (∃ src, IsAt text loc 2 1 src ∧ w <+: src) ∧
    ∀ e : VErrIn, e.source = some text → e.location = some (parameterLocation (expandTabs 0 text) loc w) →
      (splitlines text)[1]? = some "b".toList ∧
      ∃ above below, e.text = joinText ['\n'] (above ++ ["  2 | b".toList] ++ below) := by
  refine ⟨"#a\x0cb\nalpha = 1;".toList, 5, "alpha".toList, by decide, by decide, ?_, ?_⟩
  · exact ⟨"alpha = 1;".toList, ⟨"#a\x0cb\n".toList, [], by decide, Or.inr ⟨"#a\x0cb".toList, by decide⟩, Or.inl rfl, by decide, by decide, by decide,
      by decide, by decide⟩, by decide⟩
  · intro e hs hl
    have hb : splitlines "#a\x0cb\nalpha = 1;".toList = ["#a".toList, "b".toList, "alpha = 1;".toList] := by decide +kernel
    refine ⟨by rw [hb]; rfl, ?_⟩
    have hline : (parameterLocation (expandTabs 0 "#a\x0cb\nalpha = 1;".toList) 5 "alpha".toList).line = 2 := by decide +kernel
    obtain ⟨width, row, carets, hwid, hrow, -, htext⟩ := C126_text e _ _ hs hl (by rw [hline]; omega) (by rw [hline, hb]; decide)
    rw [hline, hb] at hrow htext
    rw [hline, hb] at hwid
    have hw1 : width = 1 := by rw [hwid]; decide +kernel
    obtain ⟨pad, shown, rest, r1, r2, r3, r4, r5, r6⟩ := hrow 2 (by decide)
    have hpad : pad = [] := by
      rw [hw1] at r3
      have : (natStr 2).length = 1 := by decide +kernel
      rw [List.length_append, this] at r3
      exact List.length_eq_zero_iff.1 (by omega)
    have hshown : shown = ['b'] := by
      have r4' : shown ++ rest = ['b'] := r4.symm
      rcases List.append_eq_singleton_iff.1 r4' with ⟨rfl, rfl⟩ | ⟨rfl, -⟩
      · exact absurd (r5 'b' (by simp)) (by decide)
      · rfl
    have hrow2 : row 2 = "  2 | b".toList := by
      rw [r1, hpad, hshown]; decide +kernel
    have split : ∀ p q r s t u v : List Str, ∃ x y, p ++ q ++ r ++ s ++ t ++ u ++ v = x ++ r ++ y := fun p q r s t u v =>
      ⟨p ++ q, s ++ (t ++ (u ++ v)), by simp only [List.append_assoc]⟩
    obtain ⟨above, below, hab⟩ := split _ _ [row 2, carets] _ _ _ _
    exact ⟨above, [carets] ++ below, by rw [htext, hab, hrow2]; simp⟩

/-- C126, fails: behind a tab the carets are not below the name, neither counted in characters (position 7) nor on a screen with a tab
stop every eight columns (position 8) -/
theorem C126_tab_violated : ∃ (text : Str) (loc : Nat) (w : Str), w <+: (expandTabs 0 text).drop loc ∧ PlainBreaks text ∧
    ∃ src carets above below, (calibratingError { calibration := [(some w, some (parameterLocation (expandTabs 0 text) loc w))] } "B".toList w (some text)).text
        = joinText ['\n'] (above ++ [src, carets] ++ below) ∧
      StandsAt w src 7 ∧ StandsAt w (expandTabs 0 src) 8 ∧
      carets = List.replicate 14 ' ' ++ List.replicate w.length '^' ++ " variables must use [ss] time index".toList := by
  refine ⟨"\talpha = 1;".toList, 8, "alpha".toList, by decide, by unfold PlainBreaks; decide, "  1 | \talpha = 1;".toList,
    List.replicate 14 ' ' ++ List.replicate 5 '^' ++ " variables must use [ss] time index".toList,
    ["error[V001]: Calibrating equation in block B uses non-steady-state variables".toList, "  --> <source>:1:9".toList, "     |".toList],
    ["     |".toList, "   = note: Calibrating equations define steady-state relationships".toList,
      "   = note: Use X[ss] instead of X[] for all variables".toList], by decide +kernel, ⟨"  1 | \t".toList, " = 1;".toList, by decide, by decide⟩,
    ⟨"  1 |   ".toList, " = 1;".toList, by decide, by decide⟩, rfl⟩

/-- C126 is not vacuous: a name in line 6 of a source -/
example : (duplicateParameter ["alpha".toList] "HH".toList (some "block HH\n{\n  calibration\n  {\n    alpha = 1;\n    alpha = 2;\n  };\n};".toList)
      (some (parameterLocation "block HH\n{\n  calibration\n  {\n    alpha = 1;\n    alpha = 2;\n  };\n};".toList 48 "alpha".toList))).text =
    ("error[V003]: Duplicate parameter declaration in block HH\n  --> <source>:6:5\n     |\n  5 |     alpha = 1;\n  6 |     alpha = 2;\n" ++
      "          ^^^^^ 'alpha' already defined\n  7 |   };\n  8 | };\n     |\n   = note: Each parameter should be declared only once\n" ++
      "   = note: Remove the duplicate declaration").toList := by decide +kernel

end GE
