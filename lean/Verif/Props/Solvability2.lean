import Verif.Props.Solvability
import Verif.Props.Sampling
/-! # C86, C87: which errors are labelled, which columns are renamed, what inverse-distribution sampling refuses -/

namespace GE

/-- **C86.** A draw ends the whole check exactly when a stage that is reached raises something other than a numerical error, or when the Blanchard-Kahn stage raises anything at
all; every other draw gets a row, whatever numerical errors it meets. -/
theorem C86_escapes {U S L P : Type} (steady : U → Call (S × Bool)) (linearize : U → S → Call L) (solve : L → Call (Option P))
    (bk : L → Call Bool) (norms : L → P → Call (Fl × Fl)) (normTol : ℝ) (u : U) :
    checkOneDraw steady linearize solve bk norms normTol u = none ↔
      steady u = .other ∨ ∃ ss, steady u = .ret (ss, true) ∧ (linearize u ss = .other ∨ ∃ l, linearize u ss = .ret l ∧ (solve l = .other ∨ ∃ p, solve l = .ret (some p) ∧
        (bk l = .other ∨ bk l = .numeric ∨ bk l = .ret true ∧ norms l p = .other))) := by
  unfold checkOneDraw
  cases h1 : steady u with
  | other => simp
  | numeric => simp
  | ret s =>
    obtain ⟨ss, b⟩ := s
    cases b with
    | false => simp
    | true =>
      simp only [Call.ret.injEq, Prod.mk.injEq, and_true, reduceCtorEq, false_or]
      cases h2 : linearize u ss with
      | other => simp [h2]
      | numeric => simp [h2]
      | ret l =>
        cases h3 : solve l with
        | other => simp [h2, h3]
        | numeric => simp [h2, h3]
        | ret p =>
          cases p with
          | none => simp [h2, h3]
          | some p =>
            cases h4 : bk l with
            | other => simp [h2, h3, h4]
            | numeric => simp [h2, h3, h4]
            | ret b =>
              cases b with
              | false => simp [h2, h3, h4]
              | true =>
                cases h5 : norms l p with
                | other => simp [h2, h3, h4, h5]
                | numeric => simp [h2, h3, h4, h5]
                | ret d => simp [h2, h3, h4, h5]

/-- **C86.** Cycle reduction: a singular matrix is a numerical failure of the draw; a run without convergence is one as well, except in a model with a single variable, where
numpy raises a type error, which ends the check. -/
theorem C86_cycle_reduction {n k : ℕ} (tol : ℝ) (gen : GenOracle n tol) (maxIter : ℕ) (m : LinMats n k) :
    (solvePolicyCR m.A m.B m.C m.D maxIter tol = .error .singular → solvePerturbation tol gen maxIter false "cycle_reduction".toList m = .numeric) ∧
    (solvePolicyCR m.A m.B m.C m.D maxIter tol = .error .badOperand → n ≠ 1 → solvePerturbation tol gen maxIter false "cycle_reduction".toList m = .numeric) ∧
    (solvePolicyCR m.A m.B m.C m.D maxIter tol = .error .badOperand → n = 1 → solvePerturbation tol gen maxIter false "cycle_reduction".toList m = .other) ∧
    (∀ p, solvePolicyCR m.A m.B m.C m.D maxIter tol = .ok p → solvePerturbation tol gen maxIter false "cycle_reduction".toList m = .ret (some (p.T, p.R))) := by
  have e : solvePerturbation tol gen maxIter false "cycle_reduction".toList m =
      match solvePolicyCR m.A m.B m.C m.D maxIter tol with
      | .error e => npCall n e
      | .ok p => .ret (some (p.T, p.R)) := by
    unfold solvePerturbation
    simp only [Bool.false_eq_true, if_false, if_true]
    rfl
  rw [e]
  refine ⟨fun h => ?_, fun h hn => ?_, fun h hn => ?_, fun p h => ?_⟩
  · rw [h]; rfl
  · rw [h]; simp only [npCall, if_neg hn]
  · rw [h]; simp only [npCall, if_pos hn]
  · rw [h]

namespace SVab

theorem rename_length : ∀ (cols : List Str) (i : ℕ) (seen : List Str), (renameFields i seen cols).length = cols.length
  | [], _, _ => rfl
  | _ :: cols, i, seen => by rw [renameFields, List.length_cons, rename_length cols, List.length_cons]

theorem rename_get : ∀ (cols : List Str) (i : ℕ) (seen : List Str) (j : ℕ) (c : Str), cols[j]? = some c →
    ∃ seen', (∀ x, x ∈ seen' ↔ x ∈ seen ∨ x ∈ cols.take j) ∧
      (renameFields i seen cols)[j]? = some (if badField seen' c then '_' :: (toString (i + j)).toList else c)
  | [], _, _, _, _, h => by simp at h
  | x :: cols, i, seen, 0, c, h => by
    simp only [List.getElem?_cons_zero, Option.some.injEq] at h
    subst h
    exact ⟨seen, by simp, by rw [renameFields]; rfl⟩
  | x :: cols, i, seen, j + 1, c, h => by
    rw [List.getElem?_cons_succ] at h
    obtain ⟨seen', h1, h2⟩ := rename_get cols (i + 1) (x :: seen) j c h
    refine ⟨seen', fun y => ?_, ?_⟩
    · rw [h1, List.take_succ_cons, List.mem_cons, List.mem_cons]
      tauto
    · rw [renameFields, List.getElem?_cons_succ, h2]
      have : i + 1 + j = i + (j + 1) := by omega
      rw [this]

theorem keep_ne (cols : List Str) (p : Str × ℝ) (row : List ℝ) (i : ℕ) (seen : List Str) (hs : indexName ∈ seen) (hp : p ∈ (renameFields i seen cols).zip row) : p.1 ≠ indexName := by
  have hm := (List.of_mem_zip (a := p.1) (b := p.2) hp).1
  obtain ⟨j, hj⟩ := List.mem_iff_getElem?.1 hm
  have hjl : j < cols.length := by
    rw [← rename_length cols i seen]
    exact (List.getElem?_eq_some_iff.1 hj).1
  obtain ⟨seen', h1, h2⟩ := rename_get cols i seen j cols[j] (List.getElem?_eq_getElem hjl)
  rw [h2] at hj
  simp only [Option.some.injEq] at hj
  split_ifs at hj with hb
  · rw [← hj]
    intro h
    have := congrArg List.head? h
    simp [indexName] at this
  · rw [← hj]
    intro h
    apply hb
    rw [h]
    have : indexName ∈ seen' := (h1 _).2 (.inl hs)
    simp [badField, this]

end SVab

/-- **C86 (renaming).** Whatever the columns are called, the draw's parameters are the values of its row, in order, and the value of column `j` (counting from 0) keeps the column's name
unless the name is not an identifier (empty, a first character that is neither a letter nor an underscore, or a later character that is neither alphanumeric nor an underscore), is a
Python keyword, starts with an underscore, is `Index` or repeats an earlier column: then it is called `_<j+1>`. -/
theorem C86_renaming (columns : List Str) (label : ℝ) (row : List ℝ) (j : ℕ) (c : Str) (v : ℝ) (hc : columns[j]? = some c) (hv : row[j]? = some v) :
    (paramDict columns (label, row))[j]? =
      some (open Classical in if c = [] ∨ (∃ x s, c = x :: s ∧ ((¬x.isAlpha ∧ x ≠ '_') ∨ ∃ y ∈ s, ¬y.isAlphanum ∧ y ≠ '_')) ∨ c ∈ pyKeywords ∨ (∃ s, c = '_' :: s) ∨
          c = "Index".toList ∨ c ∈ columns.take j then '_' :: (toString (j + 1)).toList else c, v) := by
  classical
  have hb : badField [] indexName = false := by decide
  have h0 : paramDict columns (label, row) = (renameFields 1 [indexName] columns).zip row := by
    unfold paramDict
    rw [renameFields, if_neg (by simp [hb]), List.zip_cons_cons, List.filter_cons_of_neg (by simp)]
    refine List.filter_eq_self.2 fun p hp => ?_
    simp only [ne_eq, decide_eq_true_eq]
    exact SVab.keep_ne columns p row 1 [indexName] (by simp) hp
  obtain ⟨seen', h1, h2⟩ := SVab.rename_get columns 1 [indexName] j c hc
  have hz : ∀ a : Str, (renameFields 1 [indexName] columns)[j]? = some a → ((renameFields 1 [indexName] columns).zip row)[j]? = some (a, v) := fun a ha =>
    List.getElem?_zip_eq_some.2 ⟨ha, hv⟩
  rw [h0, hz _ h2]
  congr 2
  have hiff : badField seen' c = true ↔ (c = [] ∨ (∃ x s, c = x :: s ∧ ((¬x.isAlpha ∧ x ≠ '_') ∨ ∃ y ∈ s, ¬y.isAlphanum ∧ y ≠ '_')) ∨ c ∈ pyKeywords ∨ (∃ s, c = '_' :: s) ∨
      c = "Index".toList ∨ c ∈ columns.take j) := by
    have hseen : c ∈ seen' ↔ c = "Index".toList ∨ c ∈ columns.take j := by
      rw [h1]
      simp [indexName]
    unfold badField
    simp only [Bool.or_eq_true, Bool.not_eq_true', decide_eq_true_eq, hseen]
    have hid : isIdentifier c = false ↔ (c = [] ∨ ∃ x s, c = x :: s ∧ ((¬x.isAlpha ∧ x ≠ '_') ∨ ∃ y ∈ s, ¬y.isAlphanum ∧ y ≠ '_')) := by
      cases c with
      | nil => simp [isIdentifier]
      | cons x s =>
        simp only [isIdentifier, Bool.and_eq_false_iff, Bool.or_eq_false_iff, beq_eq_false_iff_ne, ne_eq, List.all_eq_false, Bool.or_eq_true, beq_iff_eq, not_or, reduceCtorEq,
          List.cons.injEq, Bool.not_eq_true, false_or]
        constructor
        · intro h
          exact ⟨x, s, ⟨rfl, rfl⟩, h⟩
        · rintro ⟨x', s', ⟨rfl, rfl⟩, h⟩
          exact h
    have hus : startsUnderscore c = true ↔ ∃ s, c = '_' :: s := by
      unfold startsUnderscore
      split
      · simp
      · rename_i hne
        simp only [Bool.false_eq_true, false_iff, not_exists]
        exact fun s hs => hne s hs
    rw [hid, hus]
    simp only [or_assoc]
  have hj : 1 + j = j + 1 := by omega
  rw [hj]
  by_cases h : badField seen' c = true
  · rw [if_pos h, if_pos (hiff.1 h)]
  · rw [if_neg h, if_neg fun h' => h (hiff.2 h')]

example : (paramDict ["1x".toList, "b".toList, "b".toList] (0, [3, 4, 5]))[0]? = some ("_1".toList, 3) := by
  rw [C86_renaming _ _ _ 0 "1x".toList 3 rfl rfl, if_pos]
  · rfl
  · exact .inr (.inl ⟨'1', ['x'], rfl, .inl (by decide)⟩)

/-- **C87.** Inverse-distribution sampling refuses Sobol sizes that are not a power of two (0 counts as one) and unknown methods, and nothing else. -/
theorem C87_ppf_refuses {Ω : Type} (src : Sources Ω) (eps : ℝ) (ω : Ω) (priors : List (Str × PriorDist)) (n : ℕ) (seed : SeedArg) (method : Str) :
    (sampleFromPriorsQmc src eps ω priors n seed method = .error .notPowerOfTwo ↔ method = "sobol".toList ∧ n ≠ 0 ∧ ∀ k, n ≠ 2 ^ k) ∧
    (sampleFromPriorsQmc src eps ω priors n seed method = .error .unknownMethod ↔ method ∉ ["lhs", "sobol", "halton"].map String.toList) ∧
    ((∃ f, sampleFromPriorsQmc src eps ω priors n seed method = .ok f) ↔
      method ∈ ["lhs", "sobol", "halton"].map String.toList ∧ (method = "sobol".toList → n = 0 ∨ ∃ k, n = 2 ^ k)) := by
  have hp : sobolRefuses n = true ↔ n ≠ 0 ∧ ∀ k, n ≠ 2 ^ k := by
    have := (C87_power_of_two n).not
    rw [Bool.not_eq_false] at this
    rw [this]
    push Not
    rfl
  have hm : ppfEngineOf method = none ↔ method ∉ ["lhs", "sobol", "halton"].map String.toList := by
    unfold ppfEngineOf
    split_ifs with h1 h2 h3 <;> simp_all
  unfold sampleFromPriorsQmc
  dsimp only
  by_cases hs : method = "sobol".toList ∧ sobolRefuses n = true
  · rw [if_pos hs]
    have := hp.1 hs.2
    refine ⟨⟨fun _ => ⟨hs.1, this⟩, fun _ => rfl⟩, ⟨fun h => (by simp at h), fun h => absurd (by rw [hs.1]; decide) h⟩, ⟨fun h => (by simp at h), fun h => ?_⟩⟩
    rcases h.2 hs.1 with h0 | ⟨k, hk⟩
    · exact absurd h0 this.1
    · exact absurd hk (this.2 k)
  · rw [if_neg hs]
    have hno : ¬(method = "sobol".toList ∧ n ≠ 0 ∧ ∀ k, n ≠ 2 ^ k) := fun h => hs ⟨h.1, hp.2 h.2⟩
    cases he : ppfEngineOf method with
    | none =>
      have h1 := hm.1 he
      exact ⟨⟨fun h => by simp at h, fun h => absurd h hno⟩, ⟨fun _ => h1, fun _ => rfl⟩, ⟨fun h => by simp at h, fun h => absurd h.1 h1⟩⟩
    | some e =>
      have h1 : method ∈ ["lhs", "sobol", "halton"].map String.toList := by
        by_contra hn
        rw [hm.2 hn] at he
        cases he
      refine ⟨⟨fun h => by simp at h, fun h => absurd h hno⟩, ⟨fun h => by simp at h, fun h => absurd h1 h⟩, ⟨fun _ => ⟨h1, fun h2 => ?_⟩, fun _ => ⟨_, rfl⟩⟩⟩
      by_contra hn
      push Not at hn
      exact hno ⟨h2, hn⟩

/-- **C87.** Inverse-distribution sampling with an integer seed does not depend on the state of the random sources. -/
theorem C87_ppf_seed {Ω : Type} (src : Sources Ω) (hq : ∀ e d n k ω ω', src.unit e d n (some k) ω = src.unit e d n (some k) ω') (eps : ℝ) (ω ω' : Ω)
    (priors : List (Str × PriorDist)) (n : ℕ) (k : Int) (method : Str) :
    sampleFromPriorsQmc src eps ω priors n (.int k) method = sampleFromPriorsQmc src eps ω' priors n (.int k) method := by
  unfold sampleFromPriorsQmc
  dsimp only
  have e2 : (fun e => src.unit e priors.length n (SeedArg.int k).forQmc ω) = fun e => src.unit e priors.length n (SeedArg.int k).forQmc ω' := by
    funext e; exact hq _ _ _ _ _ _
  have e3 : ∀ e, src.unit e priors.length n (SeedArg.int k).forQmc ω = src.unit e priors.length n (SeedArg.int k).forQmc ω' := fun e => congrFun e2 e
  simp only [e3]

end GE
