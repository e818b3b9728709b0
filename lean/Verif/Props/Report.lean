import Verif.Model.Report
import Verif.Props.Build
/-! # C124: the report after building a model says what was built -/

namespace GE

/-- specification: `l` is a line of the text -/
def HasLine (text l : Str) : Prop := ∃ a b, text = a ++ l ++ '\n' :: b ∧ (a = [] ∨ ∃ a', a = a' ++ ['\n'])

/-- specification: names over several lines, commas between all of them: the first line begins with `start`, the others with `indent` -/
def wrappedLines (start indent : Str) : List (List Str) → Str
  | [] => []
  | [g] => start ++ commaJoin g ++ ['\n']
  | g :: gs => start ++ commaJoin g ++ ", \n".toList ++ wrappedLines indent indent gs

/-- specification: the column reached after one line of text, on a screen with a tab stop every eight columns -/
def screenWidth (line : Str) : Nat := line.foldl (fun col c => if c = '\t' then 8 * (col / 8 + 1) else col + 1) 0

/-- specification: no line with more than one name is wider than `width`, and a line ends only where the next name would not fit; `m` is
the width of a line -/
def WrapsWell (m : Str → Nat) (width : Nat) (start indent : Str) : List (List Str) → Prop
  | [] => True
  | [g] => g.length ≤ 1 ∨ m (start ++ commaJoin g) ≤ width
  | g :: h :: gs => (g.length ≤ 1 ∨ m (start ++ commaJoin g ++ ", ".toList) ≤ width) ∧
      (width < m (start ++ commaJoin g ++ ", ".toList) + (h.headD []).length + (if h.length = 1 ∧ gs = [] then 0 else 2)) ∧
      WrapsWell m width indent indent (h :: gs)

namespace Rpt

theorem expanded_notab (b : Str) (hb : '\t' ∉ b) : ∀ c l, expandedLen c l b = l + b.length := by
  induction b with
  | nil => intro c l; rfl
  | cons x b ih =>
    intro c l
    have hx : x ≠ '\t' := fun h => hb (by simp [h])
    have hb' : '\t' ∉ b := fun h => hb (by simp [h])
    simp only [expandedLen, if_neg hx]
    split <;> rw [ih hb'] <;> simp <;> omega

theorem expanded_append (a b : Str) (hb : '\t' ∉ b) : ∀ c l, expandedLen c l (a ++ b) = expandedLen c l a + b.length := by
  induction a with
  | nil => intro c l; exact expanded_notab b hb c l
  | cons x a ih =>
    intro c l
    simp only [List.cons_append, expandedLen]
    split
    · exact ih _ _
    · split <;> exact ih _ _

theorem tabLen_append (a b : Str) (hb : '\t' ∉ b) : tabLen (a ++ b) = tabLen a + b.length := expanded_append a b hb 0 0

/-- every name followed by a comma -/
def joinSep (g : List Str) : Str := g.flatMap fun n => n ++ ", ".toList

theorem join_snoc (g : List Str) (n : Str) : commaJoin (g ++ [n]) = joinSep g ++ n := by
  induction g with
  | nil => rfl
  | cons x g ih =>
    have : x :: g ++ [n] = x :: (g ++ [n]) := rfl
    rw [this]
    cases hg : g ++ [n] with
    | nil => simp at hg
    | cons y l =>
      rw [show commaJoin (x :: y :: l) = x ++ ", ".toList ++ commaJoin (y :: l) from rfl, ← hg, ih]
      simp [joinSep]

theorem join_sep (g : List Str) (h : g ≠ []) : commaJoin g ++ ", ".toList = joinSep g := by
  obtain ⟨g', n, rfl⟩ : ∃ g' n, g = g' ++ [n] := ⟨_, _, (List.dropLast_append_getLast h).symm⟩
  rw [join_snoc]
  simp [joinSep]

theorem sep_snoc (g : List Str) (n : Str) : joinSep (g ++ [n]) = joinSep g ++ (n ++ ", ".toList) := by simp [joinSep]

theorem wrap_spec (indent : Str) (width : Nat) : ∀ (ns : List Str), ns ≠ [] → (∀ n ∈ ns, '\t' ∉ n) → ∀ (start : Str) (g : List Str), g ≠ [] →
    (g.length ≤ 1 ∨ tabLen (start ++ joinSep g) ≤ width) →
    ∃ h gs, h ++ gs.flatten = ns ∧ (∀ x ∈ gs, x ≠ []) ∧
      wrapNames indent width false (start ++ joinSep g) ns = wrappedLines start indent ((g ++ h) :: gs) ∧
      WrapsWell tabLen width start indent ((g ++ h) :: gs)
  | [], h, _ => (h rfl).elim
  | n :: ns, _, ht => by
    intro start g hg hw
    have hn : '\t' ∉ n := ht n (by simp)
    have htn : ∀ m ∈ ns, '\t' ∉ m := fun m hm => ht m (by simp [hm])
    simp only [wrapNames, Bool.false_eq_true, if_false]
    by_cases hb : width < tabLen (start ++ joinSep g) + (n ++ (if ns = [] then [] else ", ".toList)).length
    · rw [if_pos hb]
      by_cases hns : ns = []
      · subst hns
        refine ⟨[], [[n]], by simp, by simp, ?_, ?_⟩
        · rw [List.append_nil]
          simp only [wrappedLines, wrapNames, if_true, List.append_nil]
          rw [← join_sep g hg]
          simp [commaJoin]
        · rw [List.append_nil]
          refine ⟨?_, ?_, .inl (by simp)⟩
          · rw [List.append_assoc, join_sep g hg]; exact hw
          · rw [List.append_assoc, join_sep g hg]
            simpa using hb
      · rw [if_neg hns] at hb ⊢
        obtain ⟨h', gs', h1, h2, h3, h4⟩ := wrap_spec indent width ns hns htn indent [n] (by simp) (.inl (by simp))
        refine ⟨[], ([n] ++ h') :: gs', by rw [List.nil_append, List.flatten_cons, List.append_assoc, h1]; rfl, ?_, ?_, ?_⟩
        · intro x hx
          rcases List.mem_cons.mp hx with rfl | hx
          · simp
          · exact h2 x hx
        · have hjs : joinSep [n] = n ++ ", ".toList := by simp [joinSep]
          rw [hjs] at h3
          rw [h3, List.append_nil]
          simp only [wrappedLines]
          rw [← join_sep g hg]
          simp
        · rw [List.append_nil]
          refine ⟨?_, ?_, h4⟩
          · rw [List.append_assoc, join_sep g hg]; exact hw
          · rw [List.append_assoc, join_sep g hg]
            have hcond : ¬ (([n] ++ h').length = 1 ∧ gs' = []) := by
              rintro ⟨hl, rfl⟩
              have : h' = [] := by simpa using hl
              subst this
              exact hns (by simpa using h1.symm)
            rw [if_neg hcond]
            simp at hb ⊢
            omega
    · rw [if_neg hb]
      by_cases hns : ns = []
      · subst hns
        refine ⟨[n], [], by simp, by simp, ?_, ?_⟩
        · simp only [wrappedLines, wrapNames, if_true, List.append_nil]
          rw [join_snoc]
          simp
        · refine .inr ?_
          rw [join_snoc, ← List.append_assoc, tabLen_append _ _ hn]
          simp at hb
          omega
      · rw [if_neg hns] at hb ⊢
        have hsep : '\t' ∉ n ++ ", ".toList := by
          intro hc
          rcases List.mem_append.mp hc with hc | hc
          · exact hn hc
          · revert hc; decide
        obtain ⟨h', gs', h1, h2, h3, h4⟩ := wrap_spec indent width ns hns htn start (g ++ [n]) (by simp) (.inr (by
          rw [sep_snoc, ← List.append_assoc, tabLen_append _ _ hsep]; omega))
        refine ⟨n :: h', gs', by rw [List.cons_append, h1], h2, ?_, ?_⟩
        · rw [sep_snoc, ← List.append_assoc] at h3
          rw [h3]
          simp
        · have : g ++ [n] ++ h' = g ++ n :: h' := by simp
          rw [this] at h4
          exact h4

end Rpt

namespace Rpt

theorem names_tab (label : Str) (names : List Str) (hne : names ≠ []) (ht : ∀ n ∈ names, '\t' ∉ n) (width : Nat) :
    ∃ groups : List (List Str), groups.flatten = names ∧ (∀ g ∈ groups, g ≠ []) ∧
      formatSSVarList label names width =
        wrappedLines ("\t\t".toList ++ label ++ ": ".toList) (List.replicate (tabLen ("\t\t".toList ++ label ++ ": ".toList)) ' ') groups ∧
      WrapsWell tabLen width ("\t\t".toList ++ label ++ ": ".toList) (List.replicate (tabLen ("\t\t".toList ++ label ++ ": ".toList)) ' ') groups := by
  cases names with
  | nil => exact (hne rfl).elim
  | cons n ns =>
    simp only [formatSSVarList, wrapNames, if_true]
    generalize "\t\t".toList ++ label ++ ": ".toList = pre
    by_cases hns : ns = []
    · subst hns
      refine ⟨[[n]], by simp, by simp, ?_, .inl (by simp)⟩
      simp [wrapNames, wrappedLines, commaJoin]
    · rw [if_neg hns]
      obtain ⟨h, gs, h1, h2, h3, h4⟩ := Rpt.wrap_spec (List.replicate (tabLen pre) ' ') width ns hns (fun m hm => ht m (by simp [hm])) pre [n] (by simp)
        (.inl (by simp))
      have hjs : Rpt.joinSep [n] = n ++ ", ".toList := by simp [Rpt.joinSep]
      rw [hjs] at h3
      refine ⟨([n] ++ h) :: gs, by rw [List.flatten_cons, List.append_assoc, h1]; rfl, ?_, h3, h4⟩
      intro x hx
      rcases List.mem_cons.mp hx with rfl | hx
      · simp
      · exact h2 x hx

theorem screen_expanded (s : Str) (h : '\n' ∉ s) : ∀ c l, expandedLen c l s + c = l + s.foldl (fun col c => if c = '\t' then 8 * (col / 8 + 1) else col + 1) c := by
  induction s with
  | nil => intro c l; simp [expandedLen]
  | cons x s ih =>
    intro c l
    have hx : x ≠ '\n' := fun e => h (by simp [e])
    have ih' := ih (fun hm => h (List.mem_cons_of_mem _ hm))
    simp only [expandedLen, List.foldl_cons]
    by_cases ht : x = '\t'
    · rw [if_pos ht, if_pos ht]
      have e : 8 * (c / 8 + 1) = c + (8 - c % 8) := by omega
      rw [e]
      have := ih' (c + (8 - c % 8)) (l + (8 - c % 8))
      omega
    · rw [if_neg ht, if_neg hx, if_neg ht]
      have := ih' (c + 1) (l + 1)
      omega

theorem tabLen_screen (s : Str) (h : '\n' ∉ s) : tabLen s = screenWidth s := by
  have := screen_expanded s h 0 0
  unfold tabLen screenWidth
  omega

theorem join_no_break (g : List Str) (h : ∀ n ∈ g, '\n' ∉ n) : '\n' ∉ commaJoin g := by
  induction g with
  | nil => simp [commaJoin]
  | cons n g ih =>
    cases g with
    | nil => simpa [commaJoin] using h n (by simp)
    | cons k g =>
      simp only [commaJoin, List.mem_append, not_or]
      exact ⟨⟨h n (by simp), by decide⟩, ih fun x hx => h x (by simp [hx])⟩

theorem wraps_screen (width : Nat) (indent : Str) (hi : '\n' ∉ indent) : ∀ (gs : List (List Str)) (start : Str), '\n' ∉ start →
    (∀ g ∈ gs, ∀ n ∈ g, '\n' ∉ n) → WrapsWell tabLen width start indent gs → WrapsWell screenWidth width start indent gs
  | [], _, _, _, _ => trivial
  | [g], start, hs, hg, h => by
    have : '\n' ∉ start ++ commaJoin g := by
      simp only [List.mem_append, not_or]; exact ⟨hs, join_no_break g (hg g (by simp))⟩
    simp only [WrapsWell, ← tabLen_screen _ this]; exact h
  | g :: k :: gs, start, hs, hg, h => by
    have : '\n' ∉ start ++ commaJoin g ++ ", ".toList := by
      simp only [List.mem_append, not_or]; exact ⟨⟨hs, join_no_break g (hg g (by simp))⟩, by decide⟩
    simp only [WrapsWell, ← tabLen_screen _ this] at h ⊢
    exact ⟨h.1, h.2.1, wraps_screen width indent hi (k :: gs) indent hi (fun x hx => hg x (by simp [hx])) h.2.2⟩

end Rpt

/-- **C124** The list of names in the report: every name appears, once and in order, commas in between; continuation lines are indented to the column
after the colon; no line holding several names is wider than 80 columns (tabs expanded), and a line is broken only where the next name does not
fit. -/
theorem C124_names (label : Str) (names : List Str) (hne : names ≠ []) (hl : '\t' ∉ label ∧ '\n' ∉ label) (ht : ∀ n ∈ names, '\t' ∉ n ∧ '\n' ∉ n)
    (width : Nat) :
    ∃ groups : List (List Str), groups.flatten = names ∧ (∀ g ∈ groups, g ≠ []) ∧
      formatSSVarList label names width =
        wrappedLines ("\t\t".toList ++ label ++ ": ".toList) (List.replicate (16 + label.length + 2) ' ') groups ∧
      WrapsWell screenWidth width ("\t\t".toList ++ label ++ ": ".toList) (List.replicate (16 + label.length + 2) ' ') groups := by
  obtain ⟨groups, h1, h2, h3, h4⟩ := Rpt.names_tab label names hne (fun n hn => (ht n hn).1) width
  have hlen : tabLen ("\t\t".toList ++ label ++ ": ".toList) = 16 + label.length + 2 := by
    have e : tabLen "\t\t".toList = 16 := by decide
    rw [Rpt.tabLen_append _ _ (by decide), Rpt.tabLen_append _ _ hl.1, e]; rfl
  rw [hlen] at h3 h4
  refine ⟨groups, h1, h2, h3, Rpt.wraps_screen _ _ ?_ _ _ ?_ ?_ h4⟩
  · intro hm; exact absurd (List.eq_of_mem_replicate hm) (by decide)
  · simp only [List.mem_append, not_or]; exact ⟨⟨by decide, hl.2⟩, by decide⟩
  · intro g hg n hn
    exact (ht n (by rw [← h1]; exact List.mem_flatten.2 ⟨g, hg, hn⟩)).2

namespace Rpt

/-- empty, or ends with a line break -/
def Block (p : Str) : Prop := p = [] ∨ ∃ q, p = q ++ ['\n']

theorem block_append {p q : Str} (hp : Block p) (hq : Block q) : Block (p ++ q) := by
  rcases hq with rfl | ⟨q, rfl⟩
  · simpa using hp
  · exact .inr ⟨p ++ q, by simp⟩

theorem block_flatten (l : List Str) (h : ∀ p ∈ l, Block p) : Block l.flatten := by
  induction l with
  | nil => exact .inl rfl
  | cons p l ih => exact block_append (h p (by simp)) (ih fun q hq => h q (by simp [hq]))

theorem line_of_piece (pieces : List Str) (h : ∀ p ∈ pieces, Block p) (l : Str) (hl : l ++ ['\n'] ∈ pieces) : HasLine pieces.flatten l := by
  obtain ⟨a, b, rfl⟩ := List.append_of_mem hl
  refine ⟨a.flatten, b.flatten, by simp, ?_⟩
  exact block_flatten a fun p hp => h p (by simp [hp])

theorem wrap_ends (indent : Str) (width : Nat) : ∀ (ns : List Str) (f : Bool) (cur : Str), ns ≠ [] →
    ∃ a, wrapNames indent width f cur ns = a ++ ns.getLastD [] ++ ['\n']
  | [], _, _, h => (h rfl).elim
  | n :: ns, f, cur, _ => by
    simp only [wrapNames]
    by_cases hns : ns = []
    · subst hns
      simp only [if_true, List.append_nil, wrapNames, List.getLastD_cons, List.getLastD_nil]
      split
      · exact ⟨cur, by simp⟩
      · split
        · exact ⟨cur ++ '\n' :: indent, by simp⟩
        · exact ⟨cur, by simp⟩
    · rw [if_neg hns]
      have hlast : (n :: ns).getLastD [] = ns.getLastD [] := by
        cases ns with
        | nil => exact (hns rfl).elim
        | cons m ms => rfl
      rw [hlast]
      split
      · exact wrap_ends indent width ns _ _ hns
      · split
        · obtain ⟨a, ha⟩ := wrap_ends indent width ns false (indent ++ (n ++ ", ".toList)) hns
          exact ⟨cur ++ ['\n'] ++ a, by rw [ha]; simp⟩
        · exact wrap_ends indent width ns _ _ hns

theorem format_ends (label : Str) (names : List Str) (width : Nat) (h : names ≠ []) :
    ∃ a, formatSSVarList label names width = a ++ names.getLastD [] ++ ['\n'] := wrap_ends _ _ names _ _ h

theorem format_block (label : Str) (names : List Str) (width : Nat) (h : names ≠ []) : Block (formatSSVarList label names width) := by
  obtain ⟨a, ha⟩ := format_ends label names width h
  exact .inr ⟨_, ha⟩

theorem names_block (head : Str) (names : List Str) : Block (namesSection head names) := by
  unfold namesSection
  split
  · exact .inl rfl
  · exact .inr ⟨_, rfl⟩

theorem ss_block (r : ReportIn) : Block (ssSection r) := by
  unfold ssSection
  dsimp only
  split
  · refine block_append (block_append (.inr ⟨_, rfl⟩) ?_) ?_
    · split
      · exact format_block _ _ _ (by intro h; simp_all)
      · exact .inl rfl
    · split
      · exact format_block _ _ _ (by intro h; simp_all)
      · exact .inl rfl
  · exact .inl rfl

theorem pieces_block (r : ReportIn) : ∀ p ∈ reportPieces r, Block p := by
  intro p hp
  simp only [reportPieces, List.mem_cons, List.not_mem_nil, or_false] at hp
  rcases hp with rfl | rfl | rfl | rfl | rfl | rfl | rfl | rfl | rfl | rfl | rfl | rfl | rfl
  · exact .inr ⟨"Model Building Complete.\nFound:".toList, by decide⟩
  · exact .inr ⟨_, rfl⟩
  · exact .inr ⟨_, rfl⟩
  · exact names_block _ _
  · exact names_block _ _
  · exact .inr ⟨_, rfl⟩
  · exact .inr ⟨_, rfl⟩
  · exact .inr ⟨_, rfl⟩
  · exact names_block _ _
  · exact .inr ⟨_, rfl⟩
  · exact .inr ⟨_, rfl⟩
  · exact ss_block r
  · split
    · exact .inr ⟨_, rfl⟩
    · exact .inl rfl

end Rpt

/-- specification: `n` of a thing, in English -/
def counted (n : Nat) (one many : String) : Str := natStr n ++ ' ' :: (if n = 1 then one else many).toList

/-- specification: how many of them have a prior -/
def priorLine (n m : Nat) : Str := "\t\t ".toList ++ natStr n ++ " / ".toList ++ natStr m ++ (if n = 1 then " has" else " have").toList ++ " a defined prior.".toList

namespace Rpt

theorem counted_eq (n : Nat) (w : String) (hw : w.toList ≠ "has".toList) :
    natStr n ++ " ".toList ++ pluralize w.toList n = natStr n ++ ' ' :: (if n = 1 then w.toList else w.toList ++ ['s']) := by
  rw [pluralize, if_neg hw]
  simp

end Rpt

/-- **C124** The counts: the report has a line with the number of equations, of variables, of shocks, of parameters and of parameters to calibrate
of the model that was built, and how many shocks and parameters have priors. -/
theorem C124_counts (out : BuildOut) :
    HasLine (reportText (reportOf out)) ('\t' :: counted out.equations.length "equation" "equations") ∧
    HasLine (reportText (reportOf out)) ('\t' :: counted out.vars.length "variable" "variables") ∧
    HasLine (reportText (reportOf out)) ('\t' :: counted out.shocks.length "stochastic shock" "stochastic shocks") ∧
    HasLine (reportText (reportOf out)) ('\t' :: counted (out.param.length + out.calib.length) "parameter" "parameters") ∧
    HasLine (reportText (reportOf out)) ('\t' :: counted out.calib.length "parameter to calibrate." "parameters to calibrate.") ∧
    HasLine (reportText (reportOf out)) (priorLine out.shockPriors.length out.shocks.length) ∧
    HasLine (reportText (reportOf out)) (priorLine out.paramPriors.length (out.param.length + out.calib.length)) := by
  have key : ∀ l, l ++ ['\n'] ∈ reportPieces (reportOf out) → HasLine (reportText (reportOf out)) l :=
    fun l hl => Rpt.line_of_piece _ (Rpt.pieces_block _) l hl
  have hpl : ∀ (n : Nat), pluralize "has".toList n = (if n = 1 then "has" else "have").toList := by
    intro n; simp only [pluralize, if_true]; split <;> rfl
  refine ⟨key _ ?_, key _ ?_, key _ ?_, key _ ?_, key _ ?_, key _ ?_, key _ ?_⟩ <;>
    simp only [reportPieces, List.mem_cons]
  · right; left
    simp only [counted, reportOf, pluralize]
    split <;> simp_all
  · right; right; left
    simp only [counted, reportOf, pluralize]
    split <;> simp_all
  · right; right; right; right; right; left
    simp only [counted, reportOf, pluralize]
    split <;> simp_all
  · right; right; right; right; right; right; right; left
    simp only [counted, reportOf, pluralize]
    split <;> simp_all
  · right; right; right; right; right; right; right; right; right; right; left
    simp only [counted, reportOf, pluralize]
    split <;> simp_all
  · right; right; right; right; right; right; left
    simp only [priorLine, reportOf, hpl]
    split <;> simp
  · right; right; right; right; right; right; right; right; right; left
    simp only [priorLine, reportOf, hpl]
    split <;> simp

/-- **C124** The names of what was eliminated: at user request, as constants, and by substitution into parameters, each list under its heading, complete
and in order. -/
theorem C124_eliminated (out : BuildOut) :
    (out.reducedVars ≠ [] → HasLine (reportText (reportOf out))
      ("\t\tThe following variables were eliminated at user request:\n\t\t\t".toList ++ commaJoin (out.reducedVars.map createName))) ∧
    (out.singletons ≠ [] → HasLine (reportText (reportOf out))
      ("\t\tThe following \"variables\" were defined as constants and have been substituted away:\n\t\t\t".toList ++
        commaJoin (out.singletons.map createName))) ∧
    (out.reducedParams ≠ [] → HasLine (reportText (reportOf out))
      ("\t\tThe following parameters were eliminated via substitution into other parameters:\n\t\t\t".toList ++ commaJoin out.reducedParams)) := by
  have key : ∀ l, l ++ ['\n'] ∈ reportPieces (reportOf out) → HasLine (reportText (reportOf out)) l :=
    fun l hl => Rpt.line_of_piece _ (Rpt.pieces_block _) l hl
  refine ⟨fun h => key _ ?_, fun h => key _ ?_, fun h => key _ ?_⟩ <;> simp only [reportPieces, List.mem_cons]
  · right; right; right; left
    simp [namesSection, reportOf, h]
  · right; right; right; right; left
    simp [namesSection, reportOf, h]
  · right; right; right; right; right; right; right; right; left
    simp [namesSection, reportOf, h]

/-- specification: names under a heading, nothing without names -/
def underHeading (heading : String) (names : List Str) : Str :=
  if names = [] then [] else "\t\t".toList ++ heading.toList ++ "\n\t\t\t".toList ++ commaJoin names ++ ['\n']

/-- specification: the lines on steady-state values, nothing if there are none -/
def steadyLines (user inferred : List Str) (nVar : Nat) : Str :=
  if user = [] ∧ inferred = [] then [] else
    '\t' :: natStr (user.length + inferred.length) ++ " / ".toList ++ natStr nVar ++ " variables have analytical steady-state values.\n".toList ++
    (if user = [] then [] else formatSSVarList (counted user.length "user-provided" "user-provided") user 80) ++
    (if inferred = [] then [] else formatSSVarList (counted inferred.length "inferred" "inferred") inferred 80)

/-- **C124** The whole text: the counts in order, each followed by the names of what was eliminated, the steady-state values and the closing line; nothing
else is in it. The steady-state names are those the user gave and the other variables with a value. -/
theorem C124_text (out : BuildOut) :
    reportText (reportOf out) = "Model Building Complete.\nFound:\n".toList ++
      (('\t' :: counted out.equations.length "equation" "equations") ++ ['\n']) ++
      (('\t' :: counted out.vars.length "variable" "variables") ++ ['\n']) ++
      underHeading "The following variables were eliminated at user request:" (out.reducedVars.map createName) ++
      underHeading "The following \"variables\" were defined as constants and have been substituted away:" (out.singletons.map createName) ++
      (('\t' :: counted out.shocks.length "stochastic shock" "stochastic shocks") ++ ['\n']) ++
      (priorLine out.shockPriors.length out.shocks.length ++ ['\n']) ++
      (('\t' :: counted (out.param.length + out.calib.length) "parameter" "parameters") ++ ['\n']) ++
      underHeading "The following parameters were eliminated via substitution into other parameters:" out.reducedParams ++
      (priorLine out.paramPriors.length (out.param.length + out.calib.length) ++ ['\n']) ++
      (('\t' :: counted out.calib.length "parameter to calibrate." "parameters to calibrate.") ++ ['\n']) ++
      steadyLines (out.userSS.map symName) (((dkeys out.ssRel).filter fun k => k ∉ out.userSS).map symName) out.vars.length ++
      (if out.equations.length = out.vars.length then "Model appears well defined and ready to proceed to solving.\n".toList else []) := by
  have hc : ∀ (n : Nat), ('\t' :: counted n "equation" "equations") = "\t".toList ++ natStr n ++ " ".toList ++ pluralize "equation".toList n := by
    intro n; simp only [counted, pluralize]; split <;> simp_all
  have hv : ∀ (n : Nat), ('\t' :: counted n "variable" "variables") = "\t".toList ++ natStr n ++ " ".toList ++ pluralize "variable".toList n := by
    intro n; simp only [counted, pluralize]; split <;> simp_all
  have hs : ∀ (n : Nat), ('\t' :: counted n "stochastic shock" "stochastic shocks") = "\t".toList ++ natStr n ++ " stochastic ".toList ++ pluralize "shock".toList n := by
    intro n; simp only [counted, pluralize]; split <;> simp_all
  have hp : ∀ (n : Nat), ('\t' :: counted n "parameter" "parameters") = "\t".toList ++ natStr n ++ " ".toList ++ pluralize "parameter".toList n := by
    intro n; simp only [counted, pluralize]; split <;> simp_all
  have hp' : ∀ (n : Nat), ('\t' :: counted n "parameter to calibrate." "parameters to calibrate.") =
      "\t".toList ++ natStr n ++ " ".toList ++ pluralize "parameter".toList n ++ " to calibrate.".toList := by
    intro n; simp only [counted, pluralize]; split <;> simp_all
  have hpr : ∀ (n m : Nat), priorLine n m = "\t\t ".toList ++ natStr n ++ " / ".toList ++ natStr m ++ " ".toList ++ pluralize "has".toList n ++ " a defined prior.".toList := by
    intro n m; simp only [priorLine, pluralize]; split <;> simp
  have hu : ∀ (h : String) (ns : List Str), underHeading h ns = namesSection ("\t\t".toList ++ h.toList ++ "\n".toList) ns := by
    intro h ns; simp only [underHeading, namesSection]; split <;> simp
  have hgen : ∀ r : ReportIn, ssSection r = steadyLines r.userSS r.inferredSS r.nVar := by
    rintro ⟨_, nVar, _, _, _, _, _, _, _, _, u, w⟩
    unfold ssSection steadyLines
    dsimp only
    cases u <;> cases w <;> simp [counted]
  have hss := hgen (reportOf out)
  have s1 : "\t\t".toList ++ "The following variables were eliminated at user request:".toList ++ "\n".toList =
      "\t\tThe following variables were eliminated at user request:\n".toList := by decide
  have s2 : "\t\t".toList ++ "The following \"variables\" were defined as constants and have been substituted away:".toList ++ "\n".toList =
      "\t\tThe following \"variables\" were defined as constants and have been substituted away:\n".toList := by decide
  have s3 : "\t\t".toList ++ "The following parameters were eliminated via substitution into other parameters:".toList ++ "\n".toList =
      "\t\tThe following parameters were eliminated via substitution into other parameters:\n".toList := by decide
  have s4 : "Model appears well defined and ready to proceed to solving.\n".toList = "Model appears well defined and ready to proceed to solving.".toList ++ ['\n'] := by decide
  unfold reportText reportPieces
  rw [hss]
  simp only [hc, hv, hs, hp, hp', hpr, hu, s1, s2, s3, s4, List.flatten_cons, List.flatten_nil, List.append_nil]
  dsimp only [reportOf]
  simp only [List.append_assoc]
  congr

section
variable {o : BuildOracle} {f : BuildFlags} {i : BuildIn} {out : BuildOut}

namespace Rpt

/-- the steady-state values of a built model are of its variables -/
theorem ss_keys (h : compileGcn o f i = .ok out) : (∀ k ∈ dkeys out.ssRel, ∃ v ∈ out.vars, k = .tv (toSS v)) ∧
    (∀ k ∈ out.userSS, k ∈ dkeys out.ssRel) ∧ ((dkeys i.ss).Nodup → (dkeys out.ssRel).Nodup ∧ out.userSS.Nodup) ∧
    ∀ k, k ∈ out.userSS ↔ k ∈ dkeys i.ss ∧ ∃ v ∈ out.vars, k = .tv (toSS v) := by
  obtain ⟨vars, ss0, S⟩ := Bld.stages h
  obtain ⟨h1, _⟩ := (C74_simplified i.ss vars).2 ss0 S.hss0
  have hv : ∀ v, v ∈ out.vars ↔ v ∈ vars := fun v => by rw [S.hvars]; exact (Tmg.sort_perm _).mem_iff
  have hk0 : ∀ k ∈ dkeys ss0, ∃ v ∈ out.vars, k = .tv (toSS v) := by
    intro k hk
    rw [h1, List.mem_filter] at hk
    obtain ⟨v, hv', rfl⟩ := List.mem_map.mp (of_decide_eq_true hk.2)
    exact ⟨v, (hv v).mpr hv', rfl⟩
  have hrel : ∃ added, out.ssRel = ss0 ++ added ∧ (dkeys added).Nodup ∧ ∀ p ∈ added, p.1 ∉ dkeys ss0 ∧ ∃ v ∈ vars, p.1 = .tv (toSS v) := by
    rw [S.hssRel]
    split
    · exact C45_kept _ _ _ _ _
    · exact ⟨[], by simp, by simp [dkeys], by simp⟩
  obtain ⟨added, ha, hn, hadd⟩ := hrel
  have hkeys : dkeys out.ssRel = dkeys ss0 ++ dkeys added := by rw [ha]; simp [dkeys]
  refine ⟨fun k hk => ?_, fun k hk => ?_, fun hnd => ?_, fun k => ?_⟩
  · rw [hkeys] at hk
    rcases List.mem_append.mp hk with hk | hk
    · exact hk0 k hk
    · obtain ⟨p, hp, rfl⟩ := List.mem_map.mp hk
      obtain ⟨v, hv', he⟩ := (hadd p hp).2
      exact ⟨v, (hv v).mpr hv', he⟩
  · rw [hkeys]; rw [S.huser] at hk; exact List.mem_append_left _ hk
  · have h0 : (dkeys ss0).Nodup := by rw [h1]; exact hnd.filter _
    refine ⟨?_, by rw [S.huser]; exact h0⟩
    rw [hkeys, List.nodup_append]
    refine ⟨h0, hn, fun a ha b hb hab => ?_⟩
    subst hab
    obtain ⟨p, hp, rfl⟩ := List.mem_map.mp hb
    exact (hadd p hp).1 ha
  · rw [S.huser]
    constructor
    · intro hk
      exact ⟨by rw [h1] at hk; exact (List.mem_filter.mp hk).1, hk0 k hk⟩
    · rintro ⟨hk, v, hv', rfl⟩
      rw [h1, List.mem_filter]
      exact ⟨hk, decide_eq_true (List.mem_map.mpr ⟨v, (hv v).mp hv', rfl⟩)⟩

theorem ss_name_ends (v : TSym) : ∃ a, symName (.tv (toSS v)) = a ++ ['s'] := ⟨v.base ++ ['_', 's'], by simp [symName, createName, toSS]⟩

end Rpt

/-- **C124** The number of steady-state values: user-provided and inferred ones together are exactly the variables of the model with an analytical
value, each counted once, so never more than there are variables; user-provided are exactly those the user gave. -/
theorem C124_steady_state (hn : (dkeys i.ss).Nodup) (hv : (out.vars.map toSS).Nodup) (h : compileGcn o f i = .ok out) :
    (reportOf out).userSS.length + (reportOf out).inferredSS.length =
      (out.vars.filter fun v => (dget out.ssRel (.tv (toSS v))).isSome).length ∧
    (reportOf out).userSS.length = (out.vars.filter fun v => (dget i.ss (.tv (toSS v))).isSome).length ∧
    (reportOf out).userSS.length + (reportOf out).inferredSS.length ≤ out.vars.length ∧
    ∀ n ∈ (reportOf out).userSS ++ (reportOf out).inferredSS, ∃ v ∈ out.vars, n = createName (toSS v) ∧ (dget out.ssRel (.tv (toSS v))).isSome := by
  obtain ⟨h1, h2, h3, h4⟩ := Rpt.ss_keys h
  obtain ⟨h5, h6⟩ := h3 hn
  have hlen : ∀ (l : List Sym), l.Nodup → (∀ k ∈ l, ∃ v ∈ out.vars, k = .tv (toSS v)) → ∀ d : List (Sym × SExpr),
      (∀ v ∈ out.vars, Sym.tv (toSS v) ∈ l ↔ Sym.tv (toSS v) ∈ dkeys d) →
      l.length = (out.vars.filter fun v => (dget d (.tv (toSS v))).isSome).length := by
    intro l hl hlv d hd
    have hp : l.Perm ((out.vars.filter fun v => (dget d (.tv (toSS v))).isSome).map fun v => Sym.tv (toSS v)) := by
      refine (List.perm_ext_iff_of_nodup hl ?_).mpr fun k => ?_
      · have : ((out.vars.filter fun v => (dget d (.tv (toSS v))).isSome).map toSS).Nodup := hv.sublist (List.filter_sublist.map _)
        rw [show (fun v => Sym.tv (toSS v)) = Sym.tv ∘ toSS from rfl, ← List.map_map]
        exact this.map fun a b hab => by simpa using hab
      · simp only [List.mem_map, List.mem_filter, dget_isSome]
        constructor
        · intro hk
          obtain ⟨v, hv', rfl⟩ := hlv k hk
          exact ⟨v, ⟨hv', (hd v hv').mp hk⟩, rfl⟩
        · rintro ⟨v, ⟨hv', hk⟩, rfl⟩
          exact (hd v hv').mpr hk
    rw [hp.length_eq, List.length_map]
  have hsplit : (reportOf out).userSS.length + (reportOf out).inferredSS.length = (dkeys out.ssRel).length := by
    simp only [reportOf, List.length_map]
    have hp : (dkeys out.ssRel).filter (fun k => k ∈ out.userSS) |>.Perm out.userSS := by
      refine (List.perm_ext_iff_of_nodup (h5.filter _) h6).mpr fun k => ?_
      rw [List.mem_filter, decide_eq_true_eq]
      exact ⟨fun h => h.2, fun h => ⟨h2 k h, h⟩⟩
    rw [← hp.length_eq]
    have := List.length_eq_length_filter_add (l := dkeys out.ssRel) (fun k => decide (k ∈ out.userSS))
    rw [this]
    congr 1
    congr 1
    refine List.filter_congr fun k _ => ?_
    simp
  have htot := hlen (dkeys out.ssRel) h5 h1 out.ssRel (fun v _ => Iff.rfl)
  refine ⟨by rw [hsplit, htot], ?_, by rw [hsplit, htot]; exact List.length_filter_le _ _, ?_⟩
  · simp only [reportOf, List.length_map]
    exact hlen out.userSS h6 (fun k hk => h1 k (h2 k hk)) i.ss fun v hv' => by
      rw [h4]
      exact ⟨fun h => h.1, fun h => ⟨h, v, hv', rfl⟩⟩
  · intro n hn'
    have hk : ∃ k ∈ dkeys out.ssRel, n = symName k := by
      rcases List.mem_append.mp hn' with hn' | hn'
      · simp only [reportOf, List.mem_map] at hn'
        obtain ⟨k, hk, rfl⟩ := hn'
        exact ⟨k, h2 k hk, rfl⟩
      · simp only [reportOf, List.mem_map, List.mem_filter] at hn'
        obtain ⟨k, hk, rfl⟩ := hn'
        exact ⟨k, hk.1, rfl⟩
    obtain ⟨k, hk, rfl⟩ := hk
    obtain ⟨v, hv', rfl⟩ := h1 k hk
    exact ⟨v, hv', rfl, (dget_isSome _ _).mpr hk⟩

/-- **C124** Not square: there is a warning exactly when the numbers of equations and variables of the model differ, and it names both; the report ends by
calling the model ready to solve exactly when they are equal. -/
theorem C124_square (h : compileGcn o f i = .ok out) :
    (reportWarning (reportOf out) = none ↔ out.equations.length = out.vars.length) ∧
    (∀ w, reportWarning (reportOf out) = some w → ∃ a b c, w = a ++ counted out.equations.length "equation" "equations" ++ b ++
      counted out.vars.length "variable" "variables" ++ c) ∧
    ("Model appears well defined and ready to proceed to solving.\n".toList <:+ reportText (reportOf out) ↔
      out.equations.length = out.vars.length) := by
  refine ⟨?_, ?_, ⟨?_, ?_⟩⟩
  · by_cases hc : out.equations.length = out.vars.length
    · unfold reportWarning
      rw [if_pos (show (reportOf out).nEq = (reportOf out).nVar from hc)]
      exact ⟨fun _ => hc, fun _ => rfl⟩
    · unfold reportWarning
      rw [if_neg (show ¬(reportOf out).nEq = (reportOf out).nVar from hc)]
      exact ⟨(fun h => nomatch h), fun h => absurd h hc⟩
  · intro w hw
    by_cases hcc : out.equations.length = out.vars.length
    · unfold reportWarning at hw
      rw [if_pos (show (reportOf out).nEq = (reportOf out).nVar from hcc)] at hw
      cases hw
    · unfold reportWarning at hw
      rw [if_neg (show ¬(reportOf out).nEq = (reportOf out).nVar from hcc)] at hw
      cases hw
      refine ⟨"The model does not appear correctly specified, there are ".toList, " but ".toList,
        ". It will not be possible to solve this model. Please check the specification using available diagnostic tools, and check the GCN file for typos.".toList, ?_⟩
      have hc : ∀ (n : Nat) (w w' : String), w.toList ≠ "has".toList → w'.toList = w.toList ++ ['s'] →
          natStr n ++ " ".toList ++ pluralize w.toList n = counted n w w' := by
        intro n w w' h1 h2
        rw [Rpt.counted_eq n w h1, counted]
        split <;> simp [h2]
      rw [← hc _ "equation" "equations" (by decide) (by decide), ← hc _ "variable" "variables" (by decide) (by decide)]
      simp only [List.append_assoc]
      rfl
  · intro hsuf
    by_contra hne
    have hlast : (reportOf out).nEq ≠ (reportOf out).nVar := hne
    have hend : ∃ a c, reportText (reportOf out) = a ++ [c, '\n'] ∧ c ≠ '.' ∨ reportText (reportOf out) = a ++ "e.\n".toList := by
      have hfront : reportText (reportOf out) = ((reportPieces (reportOf out)).take 11).flatten ++ ssSection (reportOf out) := by
        have : reportPieces (reportOf out) = (reportPieces (reportOf out)).take 11 ++ [ssSection (reportOf out), if (reportOf out).nEq = (reportOf out).nVar
            then "Model appears well defined and ready to proceed to solving.".toList ++ ['\n'] else []] := rfl
        have h2 := congrArg List.flatten this
        rw [if_neg hlast] at h2
        rw [reportText, h2]
        simp only [List.flatten_append, List.flatten_cons, List.flatten_nil, List.append_nil]
      rw [hfront]
      by_cases htot : 0 < (reportOf out).userSS.length + (reportOf out).inferredSS.length
      · have hname : ∀ n ∈ (reportOf out).userSS ++ (reportOf out).inferredSS, ∃ a, n = a ++ ['s'] := by
          obtain ⟨h1, h2, _⟩ := Rpt.ss_keys h
          intro n hn'
          have hk : ∃ k ∈ dkeys out.ssRel, n = symName k := by
            rcases List.mem_append.mp hn' with hn' | hn'
            · simp only [reportOf, List.mem_map] at hn'
              obtain ⟨k, hk, rfl⟩ := hn'
              exact ⟨k, h2 k hk, rfl⟩
            · simp only [reportOf, List.mem_map, List.mem_filter] at hn'
              obtain ⟨k, hk, rfl⟩ := hn'
              exact ⟨k, hk.1, rfl⟩
          obtain ⟨k, hk, rfl⟩ := hk
          obtain ⟨v, _, rfl⟩ := h1 k hk
          exact Rpt.ss_name_ends v
        have hs : ∃ a, ssSection (reportOf out) = a ++ ['s', '\n'] := by
          have hlst : ∀ (label : Str) (names : List Str), names ≠ [] → (∀ n ∈ names, ∃ a, n = a ++ ['s']) →
              ∃ a, formatSSVarList label names 80 = a ++ ['s', '\n'] := by
            intro label names hne hn
            obtain ⟨a, ha⟩ := Rpt.format_ends label names 80 hne
            have hm : names.getLastD [] ∈ names := by
              cases names with
              | nil => exact (hne rfl).elim
              | cons m ms =>
                rw [List.getLastD_cons, ← List.getLast_eq_getLastD (a := m) (l := ms) (h := by simp)]
                exact List.getLast_mem _
            obtain ⟨b, hb⟩ := hn _ hm
            exact ⟨a ++ b, by rw [ha, hb]; simp⟩
          simp only [ssSection, if_pos htot]
          by_cases hi : 0 < (reportOf out).inferredSS.length
          · obtain ⟨a, ha⟩ := hlst (natStr (reportOf out).inferredSS.length ++ " inferred".toList) (reportOf out).inferredSS
              (List.length_pos_iff.mp hi) fun n hn => hname n (List.mem_append_right _ hn)
            rw [if_pos hi, ha]
            exact ⟨_, by rw [← List.append_assoc]⟩
          · have hu : 0 < (reportOf out).userSS.length := by omega
            obtain ⟨a, ha⟩ := hlst (natStr (reportOf out).userSS.length ++ " user-provided".toList) (reportOf out).userSS
              (List.length_pos_iff.mp hu) fun n hn => hname n (List.mem_append_left _ hn)
            rw [if_neg hi, if_pos hu, ha, List.append_nil]
            exact ⟨_, by rw [← List.append_assoc]⟩
        obtain ⟨a, ha⟩ := hs
        rw [ha]
        exact ⟨_, 's', .inl ⟨(List.append_assoc ..).symm, by decide⟩⟩
      · have h10 : ((reportPieces (reportOf out)).take 11).flatten = ((reportPieces (reportOf out)).take 10).flatten ++
            ("\t".toList ++ natStr (reportOf out).nCalib ++ " ".toList ++ pluralize "parameter".toList (reportOf out).nCalib ++
              " to calibrate.".toList ++ ['\n']) := by
          have : (reportPieces (reportOf out)).take 11 = (reportPieces (reportOf out)).take 10 ++
            ["\t".toList ++ natStr (reportOf out).nCalib ++ " ".toList ++ pluralize "parameter".toList (reportOf out).nCalib ++
              " to calibrate.".toList ++ ['\n']] := rfl
          rw [this]
          simp
        have h0 : ssSection (reportOf out) = [] := by simp only [ssSection, if_neg htot]
        rw [h0, List.append_nil, h10]
        refine ⟨((reportPieces (reportOf out)).take 10).flatten ++ ("\t".toList ++ natStr (reportOf out).nCalib ++ " ".toList ++
          pluralize "parameter".toList (reportOf out).nCalib ++ " to calibrat".toList), 'x', .inr ?_⟩
        have h1 : " to calibrate.".toList ++ ['\n'] = " to calibrat".toList ++ "e.\n".toList := by decide
        simp only [List.append_assoc]
        rw [h1]
    obtain ⟨b, hb⟩ := hsuf
    obtain ⟨a, c, ⟨ha, hc⟩ | ha⟩ := hend
    · rw [ha] at hb
      have := congrArg (fun l => l.reverse.drop 1 |>.head?) hb
      simp at this
      exact hc this.symm
    · rw [ha] at hb
      have := congrArg (fun l => l.reverse.drop 2 |>.head?) hb
      simp at this
  · intro heq
    have : (reportOf out).nEq = (reportOf out).nVar := heq
    have hp : reportPieces (reportOf out) = (reportPieces (reportOf out)).take 12 ++ [if (reportOf out).nEq = (reportOf out).nVar
        then "Model appears well defined and ready to proceed to solving.".toList ++ ['\n'] else []] := rfl
    have h2 := congrArg List.flatten hp
    rw [if_pos this] at h2
    rw [reportText, h2]
    refine ⟨((reportPieces (reportOf out)).take 12).flatten, ?_⟩
    rw [show "Model appears well defined and ready to proceed to solving.\n".toList =
      "Model appears well defined and ready to proceed to solving.".toList ++ ['\n'] by decide +kernel]
    simp

end

namespace Rpt

/-- some prior -/
def exPrior : Dist := { param := "q".toList, dist := "Normal".toList }

/-- the model of `Bld.exIn` without its deterministic parameter, and with a prior for `q`, which is no parameter -/
def exBad : BuildIn where
  equations := [.sub (.sym (.tv Bld.exX)) (.sym (.tv Bld.exE))]
  vars := [Bld.exX]
  shocks := [Bld.exE]
  param := []
  calib := []
  determ := []
  ss := []
  tryreduce := []
  blocks := []
  dists := [(['q'], Rpt.exPrior)]
  shockDists := []
  distParams := []

theorem exBad_builds : ∃ out, compileGcn Bld.exOracle Bld.exFlags exBad = .ok out ∧ out.paramPriors.length = 1 ∧ out.param = [] ∧ out.calib = [] := by
  have h1 : applySimplifications Bld.exOracle Bld.exFlags exBad = some (exBad.equations, [Bld.exX], [], []) := rfl
  have h2 : simplifyProvided exBad.ss [Bld.exX] = some [] := by
    unfold simplifyProvided
    simp only
    rw [if_pos]
    · rfl
    · rfl
  have h4 : resolveDeterministic exBad.determ exBad.equations (ssRelations []) = some ([], []) := by
    have : flattenSubs (symKeys exBad.determ) = some (some []) := by
      simp [symKeys, exBad, flattenSubs, resolveLoop, dkeys]
    unfold resolveDeterministic
    rw [this]
    rfl
  unfold compileGcn
  rw [h1]
  simp only
  rw [h2]
  simp only
  rw [h4]
  simp only
  have h3 : validateResults exBad.equations (ssRelations [])
      (splitOutHyper exBad.param (splitDistributions exBad.dists exBad.shockDists (exBad.shocks.map TSym.base)).2).1 exBad.calib
      [] Bld.exFlags.onUnused (Bld.exOracle.distArgs exBad.dists) exBad.distParams = .ok [] := rfl
  rw [h3]
  exact ⟨_, rfl, rfl, rfl, rfl⟩

end Rpt

/-- **C124, violated**: the report does not count the parameters with a prior. A prior of a name that is no parameter of the model, which `q ~ Normal();`
without a starting value gives when no equation uses `q`, is counted as well: such a report says one of no parameters has a prior. -/
theorem C124_priors_violated : ∃ out, compileGcn Bld.exOracle Bld.exFlags Rpt.exBad = .ok out ∧
    HasLine (reportText (reportOf out)) "\t0 parameters".toList ∧ HasLine (reportText (reportOf out)) "\t\t 1 / 0 has a defined prior.".toList := by
  obtain ⟨out, h, h1, h2, h3⟩ := Rpt.exBad_builds
  have hc := C124_counts out
  refine ⟨out, h, ?_, ?_⟩
  · have := hc.2.2.2.1
    rw [h2, h3] at this
    have he : ('\t' :: counted (([] : List (Str × SExpr)).length + ([] : List (Str × SExpr)).length) "parameter" "parameters") = "\t0 parameters".toList := by
      decide +kernel
    rwa [he] at this
  · have := hc.2.2.2.2.2.2
    rw [h1, h2, h3] at this
    have he : priorLine 1 (([] : List (Str × SExpr)).length + ([] : List (Str × SExpr)).length) = "\t\t 1 / 0 has a defined prior.".toList := by
      decide +kernel
    rwa [he] at this

/-- a model meets the hypotheses of the C124 theorems, and its report is what it should be -/
example : ∃ out, compileGcn Bld.exOracle Bld.exFlags Bld.exIn = .ok out ∧ (dkeys Bld.exIn.ss).Nodup ∧ (out.vars.map toSS).Nodup ∧
    out.vars.length = 1 := by
  obtain ⟨out, h, _, _, hv, _, _⟩ := Bld.ex_builds
  exact ⟨out, h, by decide, by rw [hv]; decide, by rw [hv]; rfl⟩

example : formatSSVarList "2 user-provided".toList ["K_ss".toList, "Y_ss".toList] = "\t\t2 user-provided: K_ss, Y_ss\n".toList := by decide +kernel

end GE
