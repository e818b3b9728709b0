import Verif.Model.Containers
/-!
# C01, C02 — symbol names and time steps
-/

namespace GE

/-! ## helper lemmas -/

theorem rsplit_none (b : Str) (h : '_' ∉ b) : rsplit b = (none, b) := by
  induction b with
  | nil => rfl
  | cons c b ih =>
    simp only [List.mem_cons, not_or] at h
    simp [rsplit, ih h.2, Ne.symm h.1]

theorem rsplit_append (a b : Str) (h : '_' ∉ b) : rsplit (a ++ '_' :: b) = (some a, b) := by
  induction a with
  | nil => simp [rsplit, rsplit_none b h]
  | cons c a ih => simp [rsplit, ih]

/-- everything after the last underscore of a name -/
def idxSuffix : TIdx → Str
  | .ss => ['s', 's']
  | .t k => if k = 0 then ['t'] else 't' :: (if k > 0 then '+' else '-') :: natStr k.natAbs

theorem natStr_inj {m n : Nat} (h : natStr m = natStr n) : m = n := by
  have := congrArg (fun l => Nat.ofDigitChars 10 l 0) h
  simpa [natStr, Nat.ofDigitChars_toDigits] using this

theorem natStr_zero : natStr 0 = ['0'] := by decide

theorem natStr_digit {n : Nat} {c : Char} (h : c ∈ natStr n) : c.isDigit = true :=
  Nat.isDigit_of_mem_toDigits (by decide) (by decide) h

theorem createName_eq (s : TSym) : createName s = s.base ++ '_' :: idxSuffix s.idx := by
  obtain ⟨b, i, a⟩ := s
  cases i with
  | ss => rfl
  | t k =>
    simp only [createName, idxSuffix, determineOperator]
    by_cases h : k = 0
    · subst h; simp [natStr_zero]
    · have : natStr k.natAbs ≠ ['0'] := by
        rw [← natStr_zero]; intro h2; have := natStr_inj h2; omega
      simp only [this, if_false, h]
      by_cases h3 : k > 0
      · simp [h3]
      · have : k < 0 := by omega
        simp [h3, this]

theorem not_digit_of {c : Char} (h : c.isDigit = false) (n : Nat) : c ∉ natStr n := by
  intro h2; rw [natStr_digit h2] at h; cases h

theorem us_not_mem_idxSuffix (i : TIdx) : '_' ∉ idxSuffix i := by
  cases i with
  | ss => decide
  | t k =>
    have := not_digit_of (c := '_') (by decide) k.natAbs
    simp only [idxSuffix]; split
    · decide
    · split <;> simp [this]

theorem idxSuffix_inj {i j : TIdx} (h : idxSuffix i = idxSuffix j) : i = j := by
  cases i with
  | ss =>
    cases j with
    | ss => rfl
    | t k => simp only [idxSuffix] at h; split at h <;> simp at h
  | t k =>
    cases j with
    | ss => simp only [idxSuffix] at h; split at h <;> simp at h
    | t m =>
      simp only [idxSuffix] at h
      by_cases hk : k = 0 <;> by_cases hm : m = 0 <;> simp only [hk, hm, if_true, if_false] at h
      · simp [hk, hm]
      · simp at h
      · simp at h
      · simp only [List.cons.injEq, true_and] at h
        have h2 := natStr_inj h.2
        have h1 := h.1
        by_cases k0 : k > 0 <;> by_cases m0 : m > 0 <;>
          simp only [k0, m0, if_true, if_false] at h1
        · congr 1; omega
        · exact absurd h1 (by decide)
        · exact absurd h1 (by decide)
        · congr 1; omega

theorem replacePM_append (a b : Str) : replacePM (a ++ b) = replacePM a ++ replacePM b := by
  simp [replacePM]

theorem replacePM_id (a : Str) (h1 : '+' ∉ a) (h2 : '-' ∉ a) : replacePM a = a := by
  induction a with
  | nil => rfl
  | cons c a ih =>
    simp only [List.mem_cons, not_or] at h1 h2
    have := ih h1.2 h2.2
    simp only [replacePM] at this
    simp only [replacePM, List.map_cons, Ne.symm h1.1, Ne.symm h2.1, if_false, this]

/-- what the index suffix becomes in a `safe_name` -/
def safeSuffix : TIdx → Str
  | .ss => ['s', 's']
  | .t k => if k = 0 then ['t'] else 't' :: (if k > 0 then 'p' else 'm') :: natStr k.natAbs

theorem replacePM_idxSuffix (i : TIdx) : replacePM (idxSuffix i) = safeSuffix i := by
  cases i with
  | ss => decide
  | t k =>
    have hn : replacePM (natStr k.natAbs) = natStr k.natAbs :=
      replacePM_id _ (not_digit_of (by decide) _) (not_digit_of (by decide) _)
    simp only [replacePM] at hn
    simp only [idxSuffix, safeSuffix]
    by_cases h : k = 0
    · simp [h]; decide
    · by_cases h2 : k > 0
      · simp only [h, h2, if_true, if_false, replacePM, List.map_cons, hn]; simp
      · simp only [h, h2, if_false, replacePM, List.map_cons, hn]; simp

theorem safeSuffix_inj {i j : TIdx} (h : safeSuffix i = safeSuffix j) : i = j := by
  cases i with
  | ss =>
    cases j with
    | ss => rfl
    | t k => simp only [safeSuffix] at h; split at h <;> simp at h
  | t k =>
    cases j with
    | ss => simp only [safeSuffix] at h; split at h <;> simp at h
    | t m =>
      simp only [safeSuffix] at h
      by_cases hk : k = 0 <;> by_cases hm : m = 0 <;> simp only [hk, hm, if_true, if_false] at h
      · simp [hk, hm]
      · simp at h
      · simp at h
      · simp only [List.cons.injEq, true_and] at h
        have h2 := natStr_inj h.2
        have h1 := h.1
        by_cases k0 : k > 0 <;> by_cases m0 : m > 0 <;>
          simp only [k0, m0, if_true, if_false] at h1
        · congr 1; omega
        · exact absurd h1 (by decide)
        · exact absurd h1 (by decide)
        · congr 1; omega

theorem us_not_mem_safeSuffix (i : TIdx) : '_' ∉ safeSuffix i := by
  cases i with
  | ss => decide
  | t k =>
    have := not_digit_of (c := '_') (by decide) k.natAbs
    simp only [safeSuffix]; split
    · decide
    · split <;> simp [this]

theorem safeName_eq (s : TSym) (h1 : '+' ∉ s.base) (h2 : '-' ∉ s.base) :
    safeName s = s.base ++ '_' :: safeSuffix s.idx := by
  simp only [safeName, createName_eq]
  have hc : s.base ++ '_' :: idxSuffix s.idx = s.base ++ (['_'] ++ idxSuffix s.idx) := rfl
  rw [hc, replacePM_append, replacePM_append, replacePM_id _ h1 h2, replacePM_idxSuffix]
  rfl

/-! ## C01 -/

/-- **C01** two symbols that differ in base name or in time index have different names. -/
theorem C01_name_injective (a b : TSym) (h : createName a = createName b) :
    a.base = b.base ∧ a.idx = b.idx := by
  rw [createName_eq, createName_eq] at h
  have h2 := congrArg rsplit h
  rw [rsplit_append _ _ (us_not_mem_idxSuffix _), rsplit_append _ _ (us_not_mem_idxSuffix _)] at h2
  simp only [Prod.mk.injEq, Option.some.injEq] at h2
  exact ⟨h2.1, idxSuffix_inj h2.2⟩

/-- **C01** the same for the code-generation name, for base names without `+`/`-`
(every GCN identifier qualifies). -/
theorem C01_safe_name_injective (a b : TSym)
    (ha : '+' ∉ a.base ∧ '-' ∉ a.base) (hb : '+' ∉ b.base ∧ '-' ∉ b.base)
    (h : safeName a = safeName b) : a.base = b.base ∧ a.idx = b.idx := by
  rw [safeName_eq _ ha.1 ha.2, safeName_eq _ hb.1 hb.2] at h
  have h2 := congrArg rsplit h
  rw [rsplit_append _ _ (us_not_mem_safeSuffix _), rsplit_append _ _ (us_not_mem_safeSuffix _)] at h2
  simp only [Prod.mk.injEq, Option.some.injEq] at h2
  exact ⟨h2.1, safeSuffix_inj h2.2⟩

/-- the printed forms are the documented ones, for every base name and every index -/
theorem C01_name_format (b : Str) (a : Asm) (n : Nat) :
    createName ⟨b, .t 0, a⟩ = b ++ ['_', 't'] ∧ createName ⟨b, .ss, a⟩ = b ++ ['_', 's', 's'] ∧
    createName ⟨b, .t (n + 1), a⟩ = b ++ ['_', 't', '+'] ++ Nat.toDigits 10 (n + 1) ∧
    createName ⟨b, .t (-(n + 1)), a⟩ = b ++ ['_', 't', '-'] ++ Nat.toDigits 10 (n + 1) := by
  refine ⟨by rw [createName_eq]; rfl, by rw [createName_eq]; rfl, ?_, ?_⟩
  · rw [createName_eq]
    have h : ((n : Int) + 1) ≠ 0 := by omega
    have h2 : ((n : Int) + 1) > 0 := by omega
    have h3 : ((n : Int) + 1).natAbs = n + 1 := by omega
    simp [idxSuffix, h, h2, h3, natStr]
  · rw [createName_eq]
    have h : (-((n : Int) + 1)) ≠ 0 := by omega
    have h2 : ¬ (-((n : Int) + 1)) > 0 := by omega
    have h3 : (-((n : Int) + 1)).natAbs = n + 1 := by omega
    simp only [idxSuffix, h, h2, h3, natStr, if_false]; simp

/-- Why `C01_safe_name_injective` needs its hypothesis: with `-` in a base name two symbols collide. -/
theorem C01_safe_name_collision_with_operator_characters :
    ∃ a b : TSym, safeName a = safeName b ∧ a.base ≠ b.base :=
  ⟨⟨['a', '-', 'b'], .t 0, []⟩, ⟨['a', 'm', 'b'], .t 0, []⟩, by decide, by decide⟩

-- non-vacuity: an underscore-laden pair that a naive scheme would confuse
example : createName ⟨['x', '_', 't'], .ss, []⟩ ≠ createName ⟨['x'], .t 0, []⟩ := by decide
example : '+' ∉ (['x', '_', 't'] : Str) ∧ '-' ∉ (['x', '_', 't'] : Str) := by decide

/-! ## C02 -/

/-- `n` applications of a stepping method, stopping at the first exception -/
def iterStep (f : TSym → Except PyErr TSym) : Nat → TSym → Except PyErr TSym
  | 0, s => .ok s
  | n + 1, s => (iterStep f n s).bind f

/-- **C02** `n` steps forward move the index by exactly `n` and change nothing else. -/
theorem C02_forward_n (s : TSym) (k : Int) (h : s.idx = .t k) (n : Nat) :
    iterStep stepForward n s = .ok { s with idx := .t (k + n) } := by
  induction n with
  | zero => obtain ⟨b, i, a⟩ := s; simp_all [iterStep]
  | succ n ih => simp only [iterStep, ih, Except.bind, stepForward]; congr 3; push_cast; omega

/-- **C02** `n` steps backward move the index by exactly `-n` and change nothing else. -/
theorem C02_backward_n (s : TSym) (k : Int) (h : s.idx = .t k) (n : Nat) :
    iterStep stepBackward n s = .ok { s with idx := .t (k - n) } := by
  induction n with
  | zero => obtain ⟨b, i, a⟩ := s; simp_all [iterStep]
  | succ n ih => simp only [iterStep, ih, Except.bind, stepBackward]; congr 3; push_cast; omega

/-- **C02** stepping back undoes stepping forward, any number of times, and vice versa. -/
theorem C02_inverse (s : TSym) (k : Int) (h : s.idx = .t k) (n : Nat) :
    (iterStep stepForward n s).bind (iterStep stepBackward n) = .ok s ∧
    (iterStep stepBackward n s).bind (iterStep stepForward n) = .ok s := by
  constructor
  · rw [C02_forward_n s k h]
    show iterStep stepBackward n _ = _
    rw [C02_backward_n _ (k + n) rfl]
    obtain ⟨b, i, a⟩ := s; simp_all
  · rw [C02_backward_n s k h]
    show iterStep stepForward n _ = _
    rw [C02_forward_n _ (k - n) rfl]
    obtain ⟨b, i, a⟩ := s; simp_all

/-- **C02** a steady-state symbol is never silently turned into a dated one: both steps raise. -/
theorem C02_ss_step_raises (s : TSym) (h : s.idx = .ss) :
    stepForward s = .error .typeError ∧ stepBackward s = .error .typeError := by
  simp [stepForward, stepBackward, h]

/-- The `to_ss` docstring ("step_forward and step_backward will not change the time index") is *not* what
the code does: stepping a steady-state symbol is an error, for every symbol. -/
theorem C02_docstring_violated (s : TSym) : stepForward (toSS s) ≠ .ok (toSS s) := by
  simp [stepForward, toSS]

/-- **C02** `to_ss` is idempotent, absorbs every earlier step, and `exit_ss` leaves it at date 0. -/
theorem C02_ss_roundtrip (s : TSym) (n : Nat) :
    toSS (toSS s) = toSS s ∧
    exitSS (toSS s) = { s with idx := .t 0 } ∧
    toSS (exitSS s) = toSS s ∧
    (∀ k s', s.idx = .t k → iterStep stepForward n s = .ok s' → toSS s' = toSS s) ∧
    (∀ k, s.idx = .t k → exitSS s = s) := by
  refine ⟨rfl, rfl, ?_, ?_, ?_⟩
  · unfold exitSS toSS; split <;> rfl
  · intro k s' hk h; rw [C02_forward_n s k hk] at h; cases h; rfl
  · intro k hk; simp [exitSS, hk]

/-- **C02** `set_t` forgets the previous index, accepts every integer and `"ss"`, and rejects every other
string. -/
theorem C02_set_t (s : TSym) (a : SetTArg) :
    (∀ k, a = .int k → setT s a = .ok { s with idx := .t k }) ∧
    (a = .str ['s', 's'] → setT s a = .ok (toSS s)) ∧
    (∀ w, a = .str w → w ≠ ['s', 's'] → setT s a = .error .valueError) := by
  refine ⟨?_, ?_, ?_⟩
  · rintro k rfl; rfl
  · rintro rfl; simp [setT, toSS]
  · rintro w rfl hw; simp [setT, hw]

example : iterStep stepForward 3 ⟨['C'], .t (-1), []⟩ = .ok ⟨['C'], .t 2, []⟩ := by decide

end GE
