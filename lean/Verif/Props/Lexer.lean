import Verif.Model.GcnSpec
import Mathlib.Tactic.Ring
import Mathlib.Tactic.NormNum
import Mathlib.Tactic.FieldSimp
import Mathlib.Algebra.Order.Field.Rat
/-! # C106: reading the characters of a GCN file -/

namespace GE.Lx

theorem takeRun_append (p : Char → Bool) : ∀ cs, cs = (takeRun p cs).1 ++ (takeRun p cs).2
  | [] => rfl
  | c :: cs => by
    rw [takeRun]
    split
    · simpa using takeRun_append p cs
    · simp

theorem takeRun_all (p : Char → Bool) : ∀ cs, ∀ c ∈ (takeRun p cs).1, p c = true
  | [], _, h => by simp [takeRun] at h
  | c :: cs, d, h => by
    rw [takeRun] at h
    split at h
    · rename_i hc
      rcases List.mem_cons.1 h with rfl | h
      · exact hc
      · exact takeRun_all p cs d h
    · simp at h

theorem takeRun_stop (p : Char → Bool) : ∀ cs c r, (takeRun p cs).2 = c :: r → p c = false
  | [], c, r, h => by simp [takeRun] at h
  | d :: cs, c, r, h => by
    rw [takeRun] at h
    split at h
    · exact takeRun_stop p cs c r h
    · rename_i hd
      simp at h
      rw [← h.1]; simpa using hd

theorem takeRun_eq (p : Char → Bool) : ∀ (w r : List Char), (∀ c ∈ w, p c = true) → (∀ c cs, r = c :: cs → p c = false) →
    takeRun p (w ++ r) = (w, r)
  | [], r, _, h => by
    cases r with
    | nil => rfl
    | cons c cs => simp [takeRun, h c cs rfl]
  | c :: w, r, hw, h => by
    have := takeRun_eq p w r (fun d hd => hw d (by simp [hd])) h
    simp [takeRun, hw c (by simp), this]

theorem isWs_iff (c : Char) : isWs c = true ↔ c ∈ [' ', '\n', '\t', '\r'] := by
  simp only [isWs, Bool.or_eq_true, decide_eq_true_eq, List.mem_cons, List.not_mem_nil, or_false]
  tauto

/-! ### layout -/

/-- a prefix that is layout, or a layout and an unfinished comment to the end -/
theorem skip_sound : ∀ (cs : List Char),
    (∃ l, Layout l ∧ cs = l ++ skipLay false cs) ∨ (skipLay false cs = [] ∧ ∃ l b, Layout l ∧ '\n' ∉ b ∧ cs = l ++ '#' :: b) := by
  have key : ∀ n, ∀ cs : List Char, cs.length ≤ n →
      ((∃ l, Layout l ∧ cs = l ++ skipLay false cs) ∨
        (skipLay false cs = [] ∧ ∃ l b, Layout l ∧ '\n' ∉ b ∧ cs = l ++ '#' :: b)) ∧
      ((∃ b l, '\n' ∉ b ∧ Layout l ∧ cs = b ++ '\n' :: (l ++ skipLay true cs)) ∨
        (skipLay true cs = [] ∧ ((∃ b l b', '\n' ∉ b ∧ Layout l ∧ '\n' ∉ b' ∧ cs = b ++ '\n' :: (l ++ '#' :: b')) ∨ '\n' ∉ cs))) := by
    intro n
    induction n with
    | zero =>
      intro cs h
      have : cs = [] := List.length_eq_zero_iff.1 (by omega)
      subst this
      exact ⟨.inl ⟨[], .nil, rfl⟩, .inr ⟨rfl, .inr (by simp)⟩⟩
    | succ n ih =>
      intro cs h
      cases cs with
      | nil => exact ⟨.inl ⟨[], .nil, rfl⟩, .inr ⟨rfl, .inr (by simp)⟩⟩
      | cons c cs =>
        have hl : cs.length ≤ n := by simpa using h
        obtain ⟨h1, h2⟩ := ih cs hl
        constructor
        · rw [skipLay]
          split
          · rename_i hw
            have hw := (isWs_iff c).1 hw
            rcases h1 with ⟨l, hl, e⟩ | ⟨e, l, b, hl, hb, e'⟩
            · exact .inl ⟨c :: l, .white hw hl, by simpa using e⟩
            · exact .inr ⟨e, c :: l, b, .white hw hl, hb, by rw [e']; rfl⟩
          · split
            · rename_i hc
              subst hc
              rcases h2 with ⟨b, l, hb, hl, e⟩ | ⟨e, ⟨b, l, b', hb, hl, hb', e'⟩ | hn⟩
              · refine .inl ⟨'#' :: (b ++ '\n' :: l), .comment hb hl, ?_⟩
                simpa using e
              · refine .inr ⟨e, '#' :: (b ++ '\n' :: l), b', .comment hb hl, hb', ?_⟩
                rw [e']; simp
              · exact .inr ⟨e, [], cs, .nil, hn, rfl⟩
            · exact .inl ⟨[], .nil, rfl⟩
        · rw [skipLay]
          split
          · rename_i hc
            subst hc
            rcases h1 with ⟨l, hl, e⟩ | ⟨e, l, b, hl, hb, e'⟩
            · exact .inl ⟨[], l, by simp, hl, by simpa using e⟩
            · exact .inr ⟨e, .inl ⟨[], l, b, by simp, hl, hb, by rw [e']; rfl⟩⟩
          · rename_i hc
            rcases h2 with ⟨b, l, hb, hl, e⟩ | ⟨e, ⟨b, l, b', hb, hl, hb', e'⟩ | hn⟩
            · exact .inl ⟨c :: b, l, by simp [hb, Ne.symm hc], hl, by simpa using e⟩
            · exact .inr ⟨e, .inl ⟨c :: b, l, b', by simp [hb, Ne.symm hc], hl, hb', by rw [e']; rfl⟩⟩
            · exact .inr ⟨e, .inr (by simp [hn, Ne.symm hc])⟩
  intro cs
  exact (key cs.length cs (Nat.le_refl _)).1

theorem skip_comment : ∀ (b r : List Char), '\n' ∉ b → skipLay true (b ++ '\n' :: r) = skipLay false r
  | [], r, _ => by simp [skipLay]
  | c :: b, r, h => by
    simp only [List.mem_cons, not_or] at h
    rw [List.cons_append, skipLay, if_neg (Ne.symm h.1)]
    exact skip_comment b r h.2

theorem skip_comment_end : ∀ (b : List Char), '\n' ∉ b → skipLay true b = []
  | [], _ => rfl
  | c :: b, h => by
    simp only [List.mem_cons, not_or] at h
    rw [skipLay, if_neg (Ne.symm h.1)]
    exact skip_comment_end b h.2

theorem skip_layout {l : List Char} (h : Layout l) (r : List Char) : skipLay false (l ++ r) = skipLay false r := by
  induction h with
  | nil => rfl
  | white hc _ ih => rw [List.cons_append, skipLay, if_pos ((isWs_iff _).2 hc)]; exact ih
  | comment hb _ ih =>
    rw [List.cons_append, skipLay, if_neg (by decide), if_pos rfl, List.append_assoc, List.cons_append, skip_comment _ _ hb]
    exact ih

/-- what does not start with white space or a comment is left alone -/
theorem skip_stop {c : Char} {r : List Char} (h1 : c ∉ [' ', '\n', '\t', '\r']) (h2 : c ≠ '#') :
    skipLay false (c :: r) = c :: r := by
  rw [skipLay, if_neg (fun h => h1 ((isWs_iff c).1 h)), if_neg h2]

/-! ### numbers -/

theorem decVal_eq (ds : List Char) : decVal ds = decimal ds := by
  have key : ∀ (ds : List Char) (n : Nat), ds.foldl (fun n d => 10 * n + (d.toNat - '0'.toNat)) n
      = n * 10 ^ ds.length + decimal ds := by
    intro ds
    induction ds with
    | nil => intro n; simp [decimal]
    | cons d ds ih =>
      intro n
      rw [List.foldl_cons, ih, decimal, List.length_cons, pow_succ]
      ring
  unfold decVal
  rw [key]; simp

theorem decimal_append (a b : List Char) : decimal (a ++ b) = decimal a * 10 ^ b.length + decimal b := by
  induction a with
  | nil => simp [decimal]
  | cons d ds ih =>
    rw [List.cons_append, decimal, ih, decimal, List.length_append, pow_add]
    ring

theorem tenPow_eq (k : Int) : tenPow k = (10 : Rat) ^ k := by
  unfold tenPow
  split
  · rename_i h
    obtain ⟨n, rfl⟩ := Int.eq_ofNat_of_zero_le h
    simp
  · rename_i h
    obtain ⟨n, hn⟩ := Int.eq_ofNat_of_zero_le (show 0 ≤ -k by omega)
    have : k = -(n : Int) := by omega
    subst this
    simp

theorem digits_run (cs : List Char) : IsDigits (takeRun Char.isDigit cs).1 := takeRun_all _ cs

theorem mant_sound {cs : List Char} {v : Rat} {r : List Char} (h : lexMantissa cs = some (v, r)) :
    ∃ m, cs = m ++ r ∧ MantText m v ∧ ∀ c rs, r = c :: rs → c.isDigit = false := by
  unfold lexMantissa at h
  have ha := takeRun_append Char.isDigit cs
  dsimp only at h
  split at h
  · rename_i r' hr
    split at h
    · simp at h
    · rename_i hne
      simp only [Option.some.injEq, Prod.mk.injEq] at h
      obtain ⟨h1, h2⟩ := h
      rw [hr] at ha
      have hb := takeRun_append Char.isDigit r'
      refine ⟨(takeRun Char.isDigit cs).1 ++ '.' :: (takeRun Char.isDigit r').1, ?_, ?_, ?_⟩
      · rw [← h2]
        rw [List.append_assoc, List.cons_append, ← hb]; exact ha
      · rw [← h1, decVal_eq, decimal_append]
        have := MantText.dec (digits_run cs) (digits_run r') (by
          by_contra hc
          push Not at hc
          exact hne hc)
        convert this using 1
        have h10 : (10 : Rat) ^ (takeRun Char.isDigit r').1.length ≠ 0 := by positivity
        push_cast
        field_simp
      · intro c rs hc
        rw [← h2] at hc
        exact takeRun_stop _ _ _ _ hc
  · split at h
    · simp at h
    · rename_i hne
      simp only [Option.some.injEq, Prod.mk.injEq] at h
      obtain ⟨h1, h2⟩ := h
      refine ⟨(takeRun Char.isDigit cs).1, by rw [← h2]; exact ha, ?_, ?_⟩
      · rw [← h1, decVal_eq]; exact .int (digits_run cs) hne
      · intro c rs hc
        rw [← h2] at hc
        exact takeRun_stop _ _ _ _ hc

theorem digit_ne_dot {c : Char} (h : c.isDigit = true) : c ≠ '.' := by rintro rfl; exact absurd h (by decide)

theorem mant_complete {m : List Char} {v : Rat} {r : List Char} (h : MantText m v)
    (hd : ∀ c rs, r = c :: rs → c.isDigit = false) (hp : ∀ rs, r ≠ '.' :: rs) : lexMantissa (m ++ r) = some (v, r) := by
  cases h with
  | int hi hne =>
    unfold lexMantissa
    rw [takeRun_eq _ _ r hi hd]
    dsimp only
    split
    · rename_i rs; exact absurd rfl (hp rs)
    · rw [if_neg hne, decVal_eq]
  | @dec i f hi hf hne =>
    unfold lexMantissa
    rw [List.append_assoc, List.cons_append,
      takeRun_eq _ i ('.' :: (f ++ r)) hi (fun c cs h => by simp at h; rw [← h.1]; decide)]
    show (if i = [] ∧ (takeRun Char.isDigit (f ++ r)).1 = [] then none else
      some ((decVal (i ++ (takeRun Char.isDigit (f ++ r)).1) : Rat) / 10 ^ (takeRun Char.isDigit (f ++ r)).1.length,
        (takeRun Char.isDigit (f ++ r)).2)) = _
    rw [takeRun_eq _ f r hf hd]
    dsimp only
    rw [if_neg (by rintro ⟨a, b⟩; exact hne.elim (· a) (· b)), decVal_eq, decimal_append]
    congr 1
    refine Prod.ext ?_ rfl
    have h10 : (10 : Rat) ^ f.length ≠ 0 := by positivity
    push_cast
    field_simp

theorem exp_sound {cs : List Char} : ∃ e, cs = e ++ (lexExponent cs).2 ∧ ExpText e (lexExponent cs).1 := by
  have key : ∀ (c : Char) (ds : List Char), c ∈ ['e', 'E'] →
      ∃ e, c :: ds = e ++ (lexExponent.expDigits ds (c :: ds)).2 ∧ ExpText e (lexExponent.expDigits ds (c :: ds)).1 := by
    intro c ds hc
    have run : ∀ (x : List Char), x = (takeRun Char.isDigit x).1 ++ (takeRun Char.isDigit x).2 := takeRun_append _
    unfold lexExponent.expDigits
    split
    · rename_i x
      split
      · exact ⟨[], rfl, .none⟩
      · rename_i hne
        refine ⟨c :: '-' :: (takeRun Char.isDigit x).1, ?_, ?_⟩
        · simpa using run x
        · simp only [decVal_eq]; exact .minus hc (digits_run x) hne
    · rename_i x
      split
      · exact ⟨[], rfl, .none⟩
      · rename_i hne
        refine ⟨c :: '+' :: (takeRun Char.isDigit x).1, ?_, ?_⟩
        · simpa using run x
        · simp only [decVal_eq]; exact .plus hc (digits_run x) hne
    · split
      · exact ⟨[], rfl, .none⟩
      · rename_i hne
        have hx := ExpText.plain hc (digits_run _) hne
        refine ⟨_, ?_, by simp only [decVal_eq]; exact hx⟩
        simpa using run _
  unfold lexExponent
  split
  · exact key 'e' _ (by simp)
  · exact key 'E' _ (by simp)
  · exact ⟨[], rfl, .none⟩

theorem exp_complete {e : List Char} {k : Int} {r : List Char} (h : ExpText e k)
    (hr : ∀ c cs, r = c :: cs → c.isAlphanum = false ∧ c ≠ '_' ∧ c ≠ '.') : lexExponent (e ++ r) = (k, r) := by
  have hdig : ∀ c cs, r = c :: cs → c.isDigit = false := by
    intro c cs hc
    have := (hr c cs hc).1
    simp only [Char.isAlphanum, Bool.or_eq_false_iff] at this
    exact this.2
  have go : ∀ (c : Char) (ds : List Char), c ∈ ['e', 'E'] → lexExponent (c :: ds) = lexExponent.expDigits ds (c :: ds) := by
    intro c ds hc
    simp only [List.mem_cons, List.not_mem_nil, or_false] at hc
    rcases hc with rfl | rfl <;> rfl
  cases h with
  | none =>
    rw [List.nil_append]
    unfold lexExponent
    split
    · exact absurd (hr _ _ rfl).1 (by decide)
    · exact absurd (hr _ _ rfl).1 (by decide)
    · rfl
  | @plain c ds hc hd hne =>
    rw [List.cons_append, go c _ hc]
    unfold lexExponent.expDigits
    cases ds with
    | nil => exact absurd rfl hne
    | cons d ds =>
      split
      · rename_i x heq
        simp at heq
        have := hd d (by simp)
        rw [heq.1] at this; exact absurd this (by decide)
      · rename_i x heq
        simp at heq
        have := hd d (by simp)
        rw [heq.1] at this; exact absurd this (by decide)
      · rw [takeRun_eq _ (d :: ds) r hd hdig, if_neg (by simp), decVal_eq]
  | @plus c ds hc hd hne =>
    rw [List.cons_append, go c _ hc, List.cons_append]
    unfold lexExponent.expDigits
    simp only
    rw [takeRun_eq _ ds r hd hdig, if_neg hne, decVal_eq]
  | @minus c ds hc hd hne =>
    rw [List.cons_append, go c _ hc, List.cons_append]
    unfold lexExponent.expDigits
    simp only
    rw [takeRun_eq _ ds r hd hdig, if_neg hne, decVal_eq]

theorem numEnd_iff (r : List Char) : numEnd r = true ↔ ∀ c cs, r = c :: cs → c.isAlphanum = false ∧ c ≠ '_' ∧ c ≠ '.' := by
  cases r with
  | nil => simp [numEnd]
  | cons c cs =>
    simp only [numEnd, isIdChar, Bool.not_eq_true', Bool.or_eq_false_iff, decide_eq_false_iff_not]
    constructor
    · rintro ⟨h1, h2, h3⟩ d ds h
      simp only [List.cons.injEq] at h
      rw [← h.1]; exact ⟨h2, h3, h1⟩
    · intro h
      obtain ⟨h1, h2, h3⟩ := h c cs rfl
      exact ⟨h3, h1, h2⟩

theorem number_sound {cs : List Char} {v : Rat} {r : List Char} (h : lexNumber cs = some (v, r)) :
    ∃ w, cs = w ++ r ∧ Writes w (.num v) ∧ Apart (.num v) r := by
  unfold lexNumber at h
  split at h
  · simp at h
  · rename_i m r' hm
    obtain ⟨w, hw, hmt, _⟩ := mant_sound hm
    dsimp only at h
    split at h
    · rename_i hend
      simp only [Option.some.injEq, Prod.mk.injEq] at h
      obtain ⟨h1, h2⟩ := h
      obtain ⟨e, he, het⟩ := @exp_sound r'
      refine ⟨w ++ e, ?_, ?_, ?_⟩
      · rw [← h2, List.append_assoc, ← he]; exact hw
      · rw [← h1, tenPow_eq]; exact .number hmt het
      · rw [← h2]; exact (numEnd_iff _).1 hend
    · simp at h

theorem number_complete {m e : List Char} {v : Rat} {k : Int} {r : List Char} (hm : MantText m v) (he : ExpText e k)
    (hr : ∀ c cs, r = c :: cs → c.isAlphanum = false ∧ c ≠ '_' ∧ c ≠ '.') :
    lexNumber (m ++ e ++ r) = some (v * (10 : Rat) ^ k, r) := by
  have hnext : ∀ c cs, e ++ r = c :: cs → c.isDigit = false ∧ c ≠ '.' := by
    intro c cs h
    have aux : ∀ d : Char, d ∈ ['e', 'E'] → d.isDigit = false ∧ d ≠ '.' := by decide
    cases he with
    | none =>
      have := hr c cs h
      simp only [Char.isAlphanum, Bool.or_eq_false_iff] at this
      exact ⟨this.1.2, this.2.2⟩
    | plain hc _ _ => simp only [List.cons_append, List.cons.injEq] at h; rw [← h.1]; exact aux _ hc
    | plus hc _ _ => simp only [List.cons_append, List.cons.injEq] at h; rw [← h.1]; exact aux _ hc
    | minus hc _ _ => simp only [List.cons_append, List.cons.injEq] at h; rw [← h.1]; exact aux _ hc
  unfold lexNumber
  rw [List.append_assoc, mant_complete hm (fun c rs h => (hnext c rs h).1) (fun rs h => (hnext _ rs h).2 rfl)]
  dsimp only
  rw [exp_complete he hr]
  dsimp only
  rw [if_pos ((numEnd_iff r).2 hr), tenPow_eq]

/-! ### time indices -/

theorem time_sound {cs : List Char} {t : TIdx} {r : List Char} (h : lexTime cs = some (t, r)) :
    ∃ w, cs = w ++ r ∧ TimeText w t := by
  unfold lexTime at h
  split at h
  · split at h
    · simp only [Option.some.injEq, Prod.mk.injEq] at h
      rw [← h.1, ← h.2]
      exact ⟨['s', 's'], rfl, .steady⟩
    · simp at h
  · rename_i ds
    split at h
    · simp at h
    · rename_i hne
      simp only [Option.some.injEq, Prod.mk.injEq] at h
      rw [← h.1, ← h.2]
      refine ⟨'-' :: (takeRun Char.isDigit ds).1, by simpa using takeRun_append Char.isDigit ds, ?_⟩
      rw [decVal_eq]; exact .lag (digits_run ds) hne
  · rename_i ds _ _
    split at h
    · simp only [Option.some.injEq, Prod.mk.injEq] at h
      rw [← h.1, ← h.2]
      exact ⟨[], rfl, .now⟩
    · rename_i hne
      simp only [Option.some.injEq, Prod.mk.injEq] at h
      rw [← h.1, ← h.2]
      refine ⟨(takeRun Char.isDigit cs).1, takeRun_append Char.isDigit cs, ?_⟩
      rw [decVal_eq]; exact .lead (digits_run cs) hne

/-- characters that end a time index -/
def Closes (r : List Char) : Prop := ∃ c cs, r = c :: cs ∧ (c ∈ [' ', '\n', '\t', '\r'] ∨ c = '#' ∨ c = ']')

theorem closes_layout {l : List Char} (h : Layout l) (r : List Char) : Closes (l ++ ']' :: r) := by
  cases h with
  | nil => exact ⟨']', r, rfl, .inr (.inr rfl)⟩
  | white hc _ => exact ⟨_, _, rfl, .inl hc⟩
  | comment _ _ => exact ⟨'#', _, rfl, .inr (.inl rfl)⟩

theorem closes_char {r : List Char} (h : Closes r) : ∀ c cs, r = c :: cs → c.isDigit = false ∧ isIdChar c = false ∧ c ≠ 's' ∧ c ≠ '-' := by
  obtain ⟨d, ds, rfl, h⟩ := h
  intro c cs hc
  simp only [List.cons.injEq] at hc
  rw [← hc.1]
  have aux : ∀ d : Char, d ∈ [' ', '\n', '\t', '\r', '#', ']'] → d.isDigit = false ∧ isIdChar d = false ∧ d ≠ 's' ∧ d ≠ '-' := by
    decide
  apply aux
  simp only [List.mem_cons, List.not_mem_nil, or_false] at h ⊢
  tauto

theorem time_complete {w : List Char} {t : TIdx} (h : TimeText w t) {r : List Char} (hr : Closes r) :
    lexTime (w ++ r) = some (t, r) := by
  have hc := closes_char hr
  cases h with
  | now =>
    rw [List.nil_append]
    unfold lexTime
    split
    · exact absurd rfl (hc _ _ rfl).2.2.1
    · exact absurd rfl (hc _ _ rfl).2.2.2
    · have : takeRun Char.isDigit r = ([], r) := takeRun_eq _ [] r (by simp) (fun c cs h => (hc c cs h).1)
      rw [this, if_pos rfl]
  | steady =>
    have : takeRun isIdChar r = ([], r) := takeRun_eq _ [] r (by simp) (fun c cs h => (hc c cs h).2.1)
    show (if (takeRun isIdChar r).1 = [] then some (TIdx.ss, r) else none) = _
    rw [this, if_pos rfl]
  | lead hd hne =>
    cases w with
    | nil => exact absurd rfl hne
    | cons d ds =>
      have h1 := hd d (by simp)
      unfold lexTime
      split
      · rename_i heq
        simp only [List.cons_append, List.cons.injEq] at heq
        rw [heq.1] at h1; exact absurd h1 (by decide)
      · rename_i heq
        simp only [List.cons_append, List.cons.injEq] at heq
        rw [heq.1] at h1; exact absurd h1 (by decide)
      · rw [takeRun_eq _ (d :: ds) r hd (fun c cs h => (hc c cs h).1), if_neg (by simp), decVal_eq]
  | @lag ds hd hne =>
    show (if (takeRun Char.isDigit (ds ++ r)).1 = [] then none
      else some (TIdx.t (- (decVal (takeRun Char.isDigit (ds ++ r)).1 : Int)), (takeRun Char.isDigit (ds ++ r)).2)) = _
    rw [takeRun_eq _ ds r hd (fun c cs h => (hc c cs h).1), if_neg hne, decVal_eq]

theorem index_sound {cs : List Char} {t : TIdx} {r : List Char} (h : lexIndex cs = some (t, r)) :
    ∃ w, '[' :: cs = w ++ r ∧ Writes w (.tix t) := by
  unfold lexIndex at h
  split at h
  · rename_i t' r1 ht
    split at h
    · rename_i r' hr
      simp only [Option.some.injEq, Prod.mk.injEq] at h
      obtain ⟨rfl, rfl⟩ := h
      obtain ⟨w, hw, htt⟩ := time_sound ht
      rcases skip_sound r1 with ⟨l', hl', e'⟩ | ⟨e, _⟩
      · rcases skip_sound cs with ⟨l, hl, e⟩ | ⟨e, _⟩
        · refine ⟨_, ?_, .index hl htt hl'⟩
          rw [hr] at e'
          rw [hw] at e
          rw [e, e']; simp
        · rw [e] at hw
          have hr1 : r1 = [] := by
            cases r1 with
            | nil => rfl
            | cons _ _ => simp at hw
          subst hr1
          simp [skipLay] at hr
      · rw [hr] at e; simp at e
    · simp at h
  · simp at h

theorem index_complete {l w l' : List Char} {t : TIdx} (hl : Layout l) (hw : TimeText w t) (hl' : Layout l') (r : List Char) :
    lexIndex (l ++ w ++ l' ++ [']'] ++ r) = some (t, r) := by
  have e : l ++ w ++ l' ++ [']'] ++ r = l ++ (w ++ (l' ++ ']' :: r)) := by simp
  have hfin : skipLay false (l' ++ ']' :: r) = ']' :: r := by
    rw [skip_layout hl', skip_stop (by decide) (by decide)]
  have hcl := closes_layout hl' r
  unfold lexIndex
  rw [e, skip_layout hl]
  have go : ∀ (x : List Char), skipLay false x = ']' :: r → lexTime (w ++ x) = some (t, x) →
      skipLay false (w ++ x) = w ++ x → (match lexTime (skipLay false (w ++ x)) with
      | some (t, r) => match skipLay false r with
        | ']' :: r' => some (t, r')
        | _ => none
      | none => none) = some (t, r) := by
    intro x hx h1 h2
    rw [h2, h1]
    dsimp only
    rw [hx]
    rfl
  cases hw with
  | now =>
    rw [List.nil_append, hfin]
    have : lexTime (']' :: r) = some (.t 0, ']' :: r) := time_complete .now (closes_layout .nil r)
    rw [this]
    dsimp only
    rw [skip_stop (by decide) (by decide)]
    rfl
  | steady => exact go _ hfin (time_complete .steady hcl) (skip_stop (by decide) (by decide))
  | lead hd hne =>
    refine go _ hfin (time_complete (.lead hd hne) hcl) ?_
    cases w with
    | nil => exact absurd rfl hne
    | cons d ds =>
      have h1 := hd d (by simp)
      refine skip_stop (fun h => ?_) (fun h => ?_)
      · have : ∀ c ∈ [' ', '\n', '\t', '\r'], c.isDigit = false := by decide
        rw [this d h] at h1; exact absurd h1 (by decide)
      · rw [h] at h1; exact absurd h1 (by decide)
  | @lag ds hd hne => exact go _ hfin (time_complete (.lag hd hne) hcl) (skip_stop (by decide) (by decide))

/-! ### words and tags -/

theorem isIdChar_iff (c : Char) : isIdChar c = true ↔ c.isAlphanum = true ∨ c = '_' := by
  simp [isIdChar]

theorem isIdChar_false (c : Char) : isIdChar c = false ↔ c.isAlphanum = false ∧ c ≠ '_' := by
  simp [isIdChar]

theorem isIdStart_iff (c : Char) : isIdStart c = true ↔ c.isAlpha = true ∨ c = '_' := by
  simp [isIdStart]

theorem idStart_char {c : Char} (h : isIdStart c = true) : isIdChar c = true := by
  rw [isIdStart_iff] at h
  rw [isIdChar_iff]
  rcases h with h | h
  · exact .inl (by simp [Char.isAlphanum, h])
  · exact .inr h

theorem word_run {c : Char} {r : List Char} (h : isIdStart c = true) : IsWord (takeRun isIdChar (c :: r)).1 := by
  rw [takeRun, if_pos (idStart_char h)]
  refine ⟨c, _, rfl, (isIdStart_iff c).1 h, fun d hd => (isIdChar_iff d).1 (takeRun_all _ r d hd)⟩

theorem word_chars {n : Str} (h : IsWord n) : ∀ c ∈ n, isIdChar c = true := by
  obtain ⟨c, cs, rfl, h1, h2⟩ := h
  intro d hd
  rcases List.mem_cons.1 hd with rfl | hd
  · exact idStart_char ((isIdStart_iff _).2 h1)
  · exact (isIdChar_iff d).2 (h2 d hd)

theorem run_apart (cs : List Char) : ∀ c r, (takeRun isIdChar cs).2 = c :: r → c.isAlphanum = false ∧ c ≠ '_' :=
  fun c r h => (isIdChar_false c).1 (takeRun_stop _ _ _ _ h)

theorem lexWord_sound {c : Char} {r : List Char} (h : isIdStart c = true) :
    ∃ w, c :: r = w ++ (lexWord (c :: r)).2 ∧ Writes w (lexWord (c :: r)).1 ∧ Apart (lexWord (c :: r)).1 (lexWord (c :: r)).2 := by
  have ha := takeRun_append isIdChar (c :: r)
  have hw := @word_run c r h
  have hs := run_apart (c :: r)
  unfold lexWord
  dsimp only
  generalize takeRun isIdChar (c :: r) = p at *
  obtain ⟨n, rest⟩ := p
  dsimp only at *
  split
  · exact ⟨_, ha, .expect, trivial⟩
  · rename_i hne
    refine ⟨n, ha, .word hw, hs, ?_⟩
    intro hn r' hr
    exact hne r' hn hr

theorem lexWord_sound' {c : Char} {r r' : List Char} {t : Tok} (h : isIdStart c = true) (e : lexWord (c :: r) = (t, r')) :
    ∃ w, c :: r = w ++ r' ∧ Writes w t ∧ Apart t r' := by
  have := @lexWord_sound c r h
  rw [e] at this
  exact this

theorem lexWord_word {n : Str} {r : List Char} (hn : IsWord n) (hr : Apart (.id n) r) : lexWord (n ++ r) = (.id n, r) := by
  unfold lexWord
  rw [takeRun_eq _ n r (word_chars hn) (fun c cs h => (isIdChar_false c).2 (hr.1 c cs h))]
  dsimp only
  split
  · rename_i r' 
    exact absurd rfl (hr.2 rfl r')
  · rfl

theorem lexWord_expect (r : List Char) : lexWord ('E' :: '[' :: ']' :: '[' :: r) = (.expectOpen, r) := by
  unfold lexWord
  have : takeRun isIdChar ('E' :: '[' :: ']' :: '[' :: r) = (['E'], '[' :: ']' :: '[' :: r) :=
    takeRun_eq _ ['E'] _ (by decide) (fun c cs h => by simp only [List.cons.injEq] at h; rw [← h.1]; decide)
  rw [this]
  rfl

theorem tagOf_iff (n : Str) (t : Tag) : tagOf n = some t ↔ n.map Char.toLower = tagWord t := by
  have e : lowerStr n = n.map Char.toLower := rfl
  have em : "exclude".toList ≠ "minimize".toList := by decide
  have ex : "exclude".toList ≠ "maximize".toList := by decide
  have mx : "minimize".toList ≠ "maximize".toList := by decide
  unfold tagOf
  rw [e]
  generalize n.map Char.toLower = m
  unfold tagWord
  generalize "exclude".toList = a at *
  generalize "minimize".toList = b at *
  generalize "maximize".toList = c at *
  clear e
  split
  · rename_i h; subst h
    cases t
    · exact ⟨fun _ => rfl, fun _ => rfl⟩
    · exact ⟨fun h => (nomatch h), fun h => absurd h em⟩
    · exact ⟨fun h => (nomatch h), fun h => absurd h ex⟩
  · rename_i h1
    split
    · rename_i h; subst h
      cases t
      · exact ⟨fun h => (nomatch h), fun h => absurd h h1⟩
      · exact ⟨fun _ => rfl, fun _ => rfl⟩
      · exact ⟨fun h => (nomatch h), fun h => absurd h mx⟩
    · rename_i h2
      split
      · rename_i h; subst h
        cases t
        · exact ⟨fun h => (nomatch h), fun h => absurd h h1⟩
        · exact ⟨fun h => (nomatch h), fun h => absurd h h2⟩
        · exact ⟨fun _ => rfl, fun _ => rfl⟩
      · rename_i h3
        cases t
        · exact ⟨fun h => (nomatch h), fun h => absurd h h1⟩
        · exact ⟨fun h => (nomatch h), fun h => absurd h h2⟩
        · exact ⟨fun h => (nomatch h), fun h => absurd h h3⟩

/-! ### one token -/

theorem lexTok_word {c : Char} {r : List Char} (h : isIdStart c = true) : lexTok (c :: r) = some (lexWord (c :: r)) := by
  unfold lexTok
  split
  all_goals first
    | (exfalso; rename_i heq; simp only [List.cons.injEq] at heq; rw [heq.1] at h; exact absurd h (by decide))
    | skip
  · rename_i heq; simp at heq
  · rename_i c' r' _ _ _ heq
    simp only [List.cons.injEq] at heq
    obtain ⟨rfl, rfl⟩ := heq
    rw [if_pos h]

theorem lexTok_number {c : Char} {r : List Char} (h : c.isDigit = true ∨ c = '.') :
    lexTok (c :: r) = (lexNumber (c :: r)).map fun p => (.num p.1, p.2) := by
  have hs : isIdStart c = false := by
    rcases h with h | h
    · unfold isIdStart
      simp only [Bool.or_eq_false_iff, decide_eq_false_iff_not]
      constructor
      · simp only [Char.isDigit, Char.isAlpha, Char.isUpper, Char.isLower, Bool.and_eq_true, decide_eq_true_eq,
          Bool.or_eq_false_iff, Bool.and_eq_false_iff, decide_eq_false_iff_not, UInt32.le_iff_toNat_le] at h ⊢
        have h1 : '0'.val.toNat = 48 := rfl
        have h2 : '9'.val.toNat = 57 := rfl
        have h3 : 'A'.val.toNat = 65 := rfl
        have h4 : 'a'.val.toNat = 97 := rfl
        omega
      · rintro rfl; exact absurd h (by decide)
    · subst h; decide
  unfold lexTok
  split
  all_goals first
    | (exfalso; rename_i heq; simp only [List.cons.injEq] at heq; rw [heq.1] at h; exact absurd h (by decide))
    | skip
  · rename_i heq; simp at heq
  · rename_i c' r' _ _ _ heq
    simp only [List.cons.injEq] at heq
    obtain ⟨rfl, rfl⟩ := heq
    rw [if_neg (by rw [hs]; decide)]

theorem lexTok_sound {cs : List Char} {t : Tok} {r : List Char} (h : lexTok cs = some (t, r)) :
    ∃ w, cs = w ++ r ∧ Writes w t ∧ Apart t r := by
  unfold lexTok at h
  split at h
  · simp at h
  all_goals first
    | (simp only [Option.some.injEq, Prod.mk.injEq] at h
       obtain ⟨rfl, rfl⟩ := h
       exact ⟨[_], rfl, .fixed (by simp [fixedToks]), True.intro⟩)
    | skip
  · simp only [Option.some.injEq, Prod.mk.injEq] at h
    obtain ⟨rfl, rfl⟩ := h
    exact ⟨['*', '*'], rfl, .power, trivial⟩
  · rename_i hne
    simp only [Option.some.injEq, Prod.mk.injEq] at h
    obtain ⟨rfl, rfl⟩ := h
    exact ⟨['*'], rfl, .fixed (by simp [fixedToks]), fun cs hc => hne cs hc⟩
  · simp only [Option.some.injEq, Prod.mk.injEq] at h
    obtain ⟨rfl, rfl⟩ := h
    exact ⟨['-', '>'], rfl, .arrow, trivial⟩
  · rename_i hne
    simp only [Option.some.injEq, Prod.mk.injEq] at h
    obtain ⟨rfl, rfl⟩ := h
    exact ⟨['-'], rfl, .fixed (by simp [fixedToks]), fun cs hc => hne cs hc⟩
  · simp only [Option.map_eq_some_iff, Prod.mk.injEq] at h
    obtain ⟨p, hp, rfl, rfl⟩ := h
    obtain ⟨w, hw, hww⟩ := index_sound hp
    exact ⟨w, hw, hww, trivial⟩
  · rename_i c r'
    split at h
    · rename_i hs
      simp only [Option.map_eq_some_iff, Prod.mk.injEq] at h
      obtain ⟨p, hp, rfl, rfl⟩ := h
      refine ⟨'@' :: (takeRun isIdChar (c :: r')).1, ?_, .tag (word_run hs) ((tagOf_iff _ _).1 hp), run_apart _⟩
      rw [List.cons_append, ← takeRun_append]
    · simp at h
  · split at h
    · rename_i hs
      simp only [Option.some.injEq] at h
      exact lexWord_sound' hs h
    · simp only [Option.map_eq_some_iff, Prod.mk.injEq] at h
      obtain ⟨p, hp, rfl, rfl⟩ := h
      exact number_sound hp

/-- the first character of a token is neither white space nor the start of a comment -/
theorem writes_head {w : List Char} {t : Tok} (h : Writes w t) : ∃ c cs, w = c :: cs ∧ c ∉ [' ', '\n', '\t', '\r'] ∧ c ≠ '#' := by
  have dig : ∀ c : Char, c.isDigit = true ∨ c = '.' → c ∉ [' ', '\n', '\t', '\r'] ∧ c ≠ '#' := by
    intro c h
    constructor
    · intro hm
      have : ∀ c ∈ [' ', '\n', '\t', '\r'], ¬ (c.isDigit = true ∨ c = '.') := by decide
      exact this c hm h
    · rintro rfl; exact absurd h (by decide)
  cases h with
  | fixed hm =>
    rename_i c
    have : ∀ p ∈ fixedToks, p.1 ∉ [' ', '\n', '\t', '\r'] ∧ p.1 ≠ '#' := by
      intro p hp
      simp only [fixedToks, List.mem_cons, List.not_mem_nil, or_false] at hp
      rcases hp with rfl | rfl | rfl | rfl | rfl | rfl | rfl | rfl | rfl | rfl | rfl | rfl | rfl | rfl | rfl <;> exact ⟨by decide, by decide⟩
    exact ⟨c, [], rfl, this _ hm⟩
  | power => exact ⟨_, _, rfl, by decide, by decide⟩
  | arrow => exact ⟨_, _, rfl, by decide, by decide⟩
  | word hw =>
    obtain ⟨c, cs, rfl, h1, _⟩ := hw
    refine ⟨c, cs, rfl, fun hm => ?_, ?_⟩
    · have : ∀ c ∈ [' ', '\n', '\t', '\r'], ¬ (c.isAlpha = true ∨ c = '_') := by decide
      exact this c hm h1
    · rintro rfl; exact absurd h1 (by decide)
  | number hm _ =>
    cases hm with
    | int hi hne =>
      rename_i i _ _ _
      cases i with
      | nil => exact absurd rfl hne
      | cons d ds => exact ⟨d, _, rfl, dig d (.inl (hi d (by simp)))⟩
    | @dec i f hi hf _ =>
      cases i with
      | nil => exact ⟨'.', _, rfl, dig _ (.inr rfl)⟩
      | cons d ds => exact ⟨d, _, rfl, dig d (.inl (hi d (by simp)))⟩
  | index => exact ⟨_, _, rfl, by decide, by decide⟩
  | tag => exact ⟨_, _, rfl, by decide, by decide⟩
  | expect => exact ⟨_, _, rfl, by decide, by decide⟩

theorem lexTok_complete {w : List Char} {t : Tok} {r : List Char} (h : Writes w t) (ha : Apart t r) :
    lexTok (w ++ r) = some (t, r) := by
  cases h with
  | fixed hm =>
    rename_i c
    simp only [fixedToks, List.mem_cons, List.not_mem_nil, or_false, Prod.mk.injEq] at hm
    rcases hm with ⟨rfl, rfl⟩ | ⟨rfl, rfl⟩ | ⟨rfl, rfl⟩ | ⟨rfl, rfl⟩ | ⟨rfl, rfl⟩ | ⟨rfl, rfl⟩ | ⟨rfl, rfl⟩ | ⟨rfl, rfl⟩ |
      ⟨rfl, rfl⟩ | ⟨rfl, rfl⟩ | ⟨rfl, rfl⟩ | ⟨rfl, rfl⟩ | ⟨rfl, rfl⟩ | ⟨rfl, rfl⟩ | ⟨rfl, rfl⟩
    case inr.inr.inr.inr.inr.inr.inr.inr.inr.inr.inr.inl =>
      rw [List.singleton_append]
      cases r with
      | nil => rfl
      | cons d ds =>
        unfold lexTok
        split
        all_goals first
          | rfl
          | (exfalso; rename_i heq; simp only [List.cons.injEq] at heq; exact absurd heq.1 (by decide))
          | skip
        · rename_i heq; simp at heq
        · rename_i heq; simp only [List.cons.injEq] at heq; rw [heq.2.1] at ha; exact absurd rfl (ha _)
        · rename_i heq; simp only [List.cons.injEq] at heq; rw [← heq.2]
        · rename_i heq
          simp only [List.cons.injEq] at heq
          obtain ⟨rfl, rfl⟩ := heq
          simp_all
    case inr.inr.inr.inr.inr.inr.inr.inr.inr.inr.inr.inr.inl =>
      rw [List.singleton_append]
      cases r with
      | nil => rfl
      | cons d ds =>
        unfold lexTok
        split
        all_goals first
          | rfl
          | (exfalso; rename_i heq; simp only [List.cons.injEq] at heq; exact absurd heq.1 (by decide))
          | skip
        · rename_i heq; simp at heq
        · rename_i heq; simp only [List.cons.injEq] at heq; rw [heq.2.1] at ha; exact absurd rfl (ha _)
        · rename_i heq; simp only [List.cons.injEq] at heq; rw [← heq.2]
        · rename_i heq
          simp only [List.cons.injEq] at heq
          obtain ⟨rfl, rfl⟩ := heq
          simp_all
    all_goals rfl
  | power => rfl
  | arrow => rfl
  | word hw =>
    obtain ⟨c, cs, rfl, h1, _⟩ := id hw
    rw [List.cons_append, lexTok_word ((isIdStart_iff c).2 h1), ← List.cons_append, lexWord_word hw ha]
  | @number m v e k hm he =>
    have : ∃ c cs, m ++ e ++ r = c :: cs ∧ (c.isDigit = true ∨ c = '.') := by
      cases hm with
      | int hi hne =>
        cases m with
        | nil => exact absurd rfl hne
        | cons d ds => exact ⟨d, _, rfl, .inl (hi d (by simp))⟩
      | @dec i f hi hf _ =>
        cases i with
        | nil => exact ⟨'.', _, rfl, .inr rfl⟩
        | cons d ds => exact ⟨d, _, rfl, .inl (hi d (by simp))⟩
    obtain ⟨c, cs, e1, h1⟩ := this
    rw [e1, lexTok_number h1, ← e1, number_complete hm he ha]
    rfl
  | @index l w l' t hl hw hl' =>
    show (lexIndex (l ++ w ++ l' ++ [']'] ++ r)).map _ = _
    rw [index_complete hl hw hl' r]
    rfl
  | @tag n t hn ht =>
    obtain ⟨c, cs, rfl, h1, _⟩ := id hn
    show (if isIdStart c then (tagOf (takeRun isIdChar (c :: (cs ++ r))).1).map fun t => (Tok.tag t, (takeRun isIdChar (c :: (cs ++ r))).2) else none) = _
    rw [if_pos ((isIdStart_iff c).2 h1), ← List.cons_append,
      takeRun_eq _ (c :: cs) r (word_chars hn) (fun c cs h => (isIdChar_false c).2 (ha c cs h)), (tagOf_iff _ _).2 ht]
    rfl
  | expect =>
    show lexTok ('E' :: '[' :: ']' :: '[' :: r) = _
    rw [lexTok_word (by decide), lexWord_expect]

/-! ### the whole text -/

theorem loop_sound : ∀ (f : Nat) (cs : List Char) (ts : List Tok), lexLoop f cs = some ts → SpellsToks cs ts
  | 0, _, _, h => by simp [lexLoop] at h
  | f + 1, cs, ts, h => by
    rw [lexLoop] at h
    rcases skip_sound cs with ⟨l, hl, e⟩ | ⟨e, l, b, hl, hb, e'⟩
    · split at h
      · rename_i hs
        simp only [Option.some.injEq] at h
        subst h
        rw [hs, List.append_nil] at e
        rw [e]; exact .nil hl
      · rename_i c r hs
        split at h
        · rename_i t r' ht
          simp only [Option.map_eq_some_iff] at h
          obtain ⟨ts', hts, rfl⟩ := h
          obtain ⟨w, hw, hww, ha⟩ := lexTok_sound ht
          rw [e, hs, hw]
          exact .cons hl hww ha (loop_sound f r' ts' hts)
        · simp at h
    · rw [e] at h
      simp only [Option.some.injEq] at h
      subst h
      rw [e']; exact .last hl hb

theorem loop_complete {cs : List Char} {ts : List Tok} (h : SpellsToks cs ts) : ∀ f, cs.length < f → lexLoop f cs = some ts := by
  induction h with
  | nil hl =>
    rename_i l
    intro f hf
    cases f with
    | zero => omega
    | succ f =>
      have : skipLay false l = [] := by
        have := skip_layout hl []
        rw [List.append_nil] at this
        rw [this]; rfl
      rw [lexLoop, this]
  | last hl hb =>
    intro f hf
    cases f with
    | zero => omega
    | succ f =>
      have : ∀ b, skipLay false ('#' :: b) = skipLay true b := fun b => by
        rw [skipLay, if_neg (by decide), if_pos rfl]
      rw [lexLoop, skip_layout hl, this, skip_comment_end _ hb]
  | @cons l w r t ts hl hw ha _ ih =>
    intro f hf
    cases f with
    | zero => omega
    | succ f =>
      obtain ⟨c, cs, rfl, h1, h2⟩ := writes_head hw
      have ht := lexTok_complete hw ha
      rw [lexLoop, skip_layout hl, List.cons_append, skip_stop h1 h2, ← List.cons_append]
      simp only [List.cons_append] at ht ⊢
      rw [ht]
      dsimp only
      rw [ih f (by simp only [List.length_append, List.length_cons] at hf; omega)]
      rfl

end GE.Lx

namespace GE

/-- C106: the characters of a file are read as exactly the tokens they spell: white space and comments anywhere between
tokens, words, numbers, time indices and tags as the language writes them, the longest token first. Nothing else is read. -/
theorem C106_reading (s : List Char) (ts : List Tok) : lexText s = some ts ↔ SpellsToks s ts :=
  ⟨Lx.loop_sound _ s ts, fun h => Lx.loop_complete h _ (Nat.lt_succ_self _)⟩

/-- C106: no text spells two different token sequences -/
theorem C106_unique (s : List Char) (ts ts' : List Tok) (h : SpellsToks s ts) (h' : SpellsToks s ts') : ts = ts' := by
  have h1 := (C106_reading s ts).2 h
  have h2 := (C106_reading s ts').2 h'
  rw [h1] at h2
  exact Option.some.inj h2

end GE

namespace GE.Lx

theorem spells_layout {l l' r : List Char} {ts : List Tok} (hl : Layout l) (hl' : Layout l') (h : SpellsToks (l ++ r) ts) :
    SpellsToks (l' ++ r) ts := by
  have h1 := loop_complete h ((l ++ r).length + 1) (by omega)
  rw [lexLoop, skip_layout hl] at h1
  refine loop_sound ((l ++ r).length + 1) _ _ ?_
  rw [lexLoop, skip_layout hl']
  exact h1

theorem layout_append {l l' : List Char} (hl : Layout l) (hl' : Layout l') : Layout (l ++ l') := by
  induction hl with
  | nil => exact hl'
  | white hc _ ih => exact .white hc ih
  | comment hb _ ih =>
    rw [List.cons_append, List.append_assoc, List.cons_append]
    exact .comment hb ih

theorem apart_line {t : Tok} {r : List Char} (h : Apart t r) (b : List Char) : Apart t (r ++ '\n' :: b) := by
  have head : ∀ (c : Char) (cs : List Char), r ++ '\n' :: b = c :: cs → c = '\n' ∨ ∃ cs', r = c :: cs' := by
    intro c cs hc
    cases r with
    | nil => simp only [List.nil_append, List.cons.injEq] at hc; exact .inl hc.1.symm
    | cons d ds => simp only [List.cons_append, List.cons.injEq] at hc; rw [hc.1]; exact .inr ⟨_, rfl⟩
  unfold Apart at h ⊢
  split
  · rename_i n r'
    refine ⟨fun c cs hc => ?_, fun hn r' hr => ?_⟩
    · rcases head c cs hc with rfl | ⟨cs', hc'⟩
      · exact ⟨by decide, by decide⟩
      · exact h.1 c cs' hc'
    · match r, h.2 hn, hr with
      | [], _, hr => simp at hr
      | [_], _, hr => simp at hr
      | [_, _], _, hr => simp at hr
      | a :: b :: c :: r2, h2, hr =>
        simp only [List.cons_append, List.cons.injEq] at hr
        obtain ⟨rfl, rfl, rfl, _⟩ := hr
        exact absurd rfl (h2 r2)
  · intro c cs hc
    rcases head c cs hc with rfl | ⟨cs', hc'⟩
    · exact ⟨by decide, by decide⟩
    · exact h c cs' hc'
  · intro c cs hc
    rcases head c cs hc with rfl | ⟨cs', hc'⟩
    · exact ⟨by decide, by decide, by decide⟩
    · exact h c cs' hc'
  · intro cs hc
    rcases head _ cs hc with h' | ⟨cs', hc'⟩
    · exact absurd h' (by decide)
    · exact h cs' hc'
  · intro cs hc
    rcases head _ cs hc with h' | ⟨cs', hc'⟩
    · exact absurd h' (by decide)
    · exact h cs' hc'
  · trivial

theorem spells_lines {a b : List Char} {ts us : List Tok} (ha : SpellsToks a ts) (hb : SpellsToks b us) :
    SpellsToks (a ++ '\n' :: b) (ts ++ us) := by
  induction ha with
  | nil hl =>
    have := spells_layout (l := []) .nil (layout_append hl (.white (c := '\n') (by simp) .nil)) hb
    simpa using this
  | last hl hc =>
    have := spells_layout (l := []) .nil (layout_append hl (.comment hc .nil)) hb
    simpa using this
  | cons hl hw hap _ ih =>
    rw [List.append_assoc, List.append_assoc]
    exact .cons hl hw (apart_line hap b) ih

end GE.Lx

namespace GE

/-- C106: the layout at any place before a token is never seen: any other layout reads the same -/
theorem C106_layout (l l' r : List Char) (ts : List Tok) (hl : Layout l) (hl' : Layout l') :
    lexText (l ++ r) = some ts ↔ lexText (l' ++ r) = some ts := by
  rw [C106_reading, C106_reading]
  exact ⟨Lx.spells_layout hl hl', Lx.spells_layout hl' hl⟩

/-- C106: the tokens of a text made of two parts, one under the other, are the tokens of the parts: no line can change how
another is read -/
theorem C106_lines (a b : List Char) (ts us : List Tok) (ha : lexText a = some ts) (hb : lexText b = some us) :
    lexText (a ++ '\n' :: b) = some (ts ++ us) := by
  rw [C106_reading] at *
  exact Lx.spells_lines ha hb

/-- C106: a comment line is never seen -/
theorem C106_comment (a c b : List Char) (ts us : List Tok) (hc : '\n' ∉ c) (ha : lexText a = some ts) (hb : lexText b = some us) :
    lexText (a ++ '\n' :: ('#' :: c ++ '\n' :: b)) = some (ts ++ us) := by
  apply C106_lines _ _ _ _ ha
  have := (C106_layout [] ('#' :: (c ++ '\n' :: [])) b us .nil (.comment hc .nil)).1 hb
  simpa using this

/-- a line of a model with a lag, numbers and a comment -/
example : lexText "Y[] = A[-1] * 1.5e-1 ^ .5; # output\n".toList = some [.id "Y".toList, .tix (.t 0), .eq, .id "A".toList,
    .tix (.t (-1)), .op .mul, .num (3 / 20), .op .pow, .num (1 / 2), .semi] := by decide +kernel
example : lexText "@minimize E[][U[1]]->lambda[ss]".toList = some [.tag .minimize, .expectOpen, .id "U".toList, .tix (.t 1), .rbr,
    .arrow, .id "lambda".toList, .tix .ss] := by decide +kernel
/-- not texts: a number with two points, a name starting with a digit, a plus sign in a time index, an unknown tag -/
example : lexText "1.2.3".toList = none ∧ lexText "2x".toList = none ∧ lexText "x[+1]".toList = none ∧ lexText "@foo".toList = none := by
  decide +kernel

end GE
