import Verif.Model.Diagnostics
import Mathlib.Tactic.Linarith
import Mathlib.Tactic.NormNum
/-! # C87: sampling parameters from bounds and priors -/

namespace GE

/-- **C87.** The test on the number of Sobol points accepts exactly the powers of two, and zero. -/
theorem C87_power_of_two (n : ℕ) : sobolRefuses n = false ↔ n = 0 ∨ ∃ k, n = 2 ^ k := by
  unfold sobolRefuses
  rw [decide_eq_false_iff_not, not_not]
  by_cases h : n = 0
  · subst h; simp
  · rw [Nat.and_sub_one_eq_zero_iff_isPowerOfTwo h]
    simp [h, Nat.isPowerOfTwo]

namespace Smpl

variable {Ω : Type}

/-- the unit points a method draws -/
def points (src : Sources Ω) (ω : Ω) (d n : ℕ) (seed : SeedArg) (method : Str) : Option (List (List ℝ)) :=
  if method = "random".toList then some (src.uniform d n seed ω) else (engineOf method).map fun e => src.unit e d n seed.forQmc ω

theorem ok_iff (src : Sources Ω) (ω : Ω) (bounds : List (Str × (ℝ × ℝ))) (n : ℕ) (seed : SeedArg) (method : Str) (f : DrawTable) :
    sampleUniform src ω bounds n seed method = .ok f ↔
      ¬(method = "sobol".toList ∧ sobolRefuses n) ∧ ∃ pts, points src ω bounds.length n seed method = some pts ∧
        (∀ b ∈ bounds, b.2.1 < b.2.2) ∧ pts ≠ [] ∧ (∀ r ∈ pts, ∀ x ∈ r, 0 ≤ x ∧ x ≤ 1) ∧
        f = ⟨dkeys bounds, (pts.map fun r => List.zipWith (fun x (b : Str × (ℝ × ℝ)) => x * (b.2.2 - b.2.1) + b.2.1) r bounds).zipIdx.map fun r => ((r.2 : ℝ), r.1)⟩ := by
  have hzip : (bounds.map fun b => b.2.1).zip (bounds.map fun b => b.2.2) = bounds.map fun b => (b.2.1, b.2.2) := by
    rw [List.zip_map']
  have hall : (∀ p ∈ (bounds.map fun b => b.2.1).zip (bounds.map fun b => b.2.2), p.1 < p.2) ↔ ∀ b ∈ bounds, b.2.1 < b.2.2 := by
    rw [hzip]
    constructor
    · intro h b hb; exact h _ (List.mem_map.2 ⟨b, hb, rfl⟩)
    · intro h p hp
      obtain ⟨b, hb, rfl⟩ := List.mem_map.1 hp
      exact h b hb
  unfold sampleUniform
  dsimp only
  by_cases h1 : method = "sobol".toList ∧ sobolRefuses n
  · rw [if_pos h1]; simp [h1]
  · rw [if_neg h1]
    have hd : (dkeys bounds).length = bounds.length := by simp [dkeys]
    rw [hd]
    change (match points src ω bounds.length n seed method with
      | none => Except.error SampleErr.unknownMethod
      | some pts => _) = _ ↔ _
    cases hp : points src ω bounds.length n seed method with
    | none => simp
    | some pts =>
      dsimp only
      simp only [h1, not_false_eq_true, true_and, Option.some.injEq, exists_eq_left']
      unfold qmcScale
      by_cases h2 : ∀ b ∈ bounds, b.2.1 < b.2.2
      · rw [if_neg (not_not.2 (hall.2 h2))]
        by_cases h3 : pts = []
        · rw [if_pos h3]; simp [h3]
        · rw [if_neg h3]
          by_cases h4 : ∀ r ∈ pts, ∀ x ∈ r, 0 ≤ x ∧ x ≤ 1
          · rw [if_neg (not_not.2 h4), hzip]
            simp only [List.zipWith_map_right, Except.ok.injEq]
            constructor
            · rintro rfl; exact ⟨h2, h3, h4, rfl⟩
            · rintro ⟨-, -, -, rfl⟩; rfl
          · rw [if_pos h4]
            simp only [reduceCtorEq, false_iff]
            exact fun h => h4 h.2.2.1
      · rw [if_pos (fun h => h2 (hall.1 h))]
        simp only [reduceCtorEq, false_iff]
        exact fun h => h2 h.1

end Smpl

/-- **C87.** A successful call returns one column per bounded parameter, in the order of the bounds, one row per point drawn, and every value lies between
the bounds of its own column: the point `x` in the unit cube becomes `lower + x (upper - lower)`. -/
theorem C87_within {Ω : Type} (src : Sources Ω) (ω : Ω) (bounds : List (Str × (ℝ × ℝ))) (n : ℕ) (seed : SeedArg) (method : Str) (f : DrawTable)
    (h : sampleUniform src ω bounds n seed method = .ok f) :
    f.columns = bounds.map Prod.fst ∧
      ∃ pts : List (List ℝ), (method = "random".toList ∧ pts = src.uniform bounds.length n seed ω ∨
          ∃ e, (method, e) ∈ [("lhs".toList, Engine.lhs), ("sobol".toList, .sobol), ("halton".toList, .halton), ("poisson_disk".toList, .poissonDisk)] ∧
            pts = src.unit e bounds.length n seed.forQmc ω) ∧ f.rows.length = pts.length ∧
        ∀ (i : ℕ) (row : ℝ × List ℝ), f.rows[i]? = some row → row.1 = i ∧ ∃ u, pts[i]? = some u ∧
          ∀ (j : ℕ) (v : ℝ), row.2[j]? = some v → ∃ x name l hi, u[j]? = some x ∧ bounds[j]? = some (name, (l, hi)) ∧ v = l + x * (hi - l) ∧ l ≤ v ∧ v ≤ hi := by
  obtain ⟨-, pts, hp, hb, -, hu, rfl⟩ := (Smpl.ok_iff ..).1 h
  refine ⟨rfl, pts, ?_, by simp, ?_⟩
  · unfold Smpl.points at hp
    split at hp
    · rename_i hm
      simp only [Option.some.injEq] at hp; exact Or.inl ⟨hm, hp.symm⟩
    · rw [Option.map_eq_some_iff] at hp
      obtain ⟨e, hm, he⟩ := hp
      refine Or.inr ⟨e, ?_, he.symm⟩
      unfold engineOf at hm
      split at hm
      · rename_i h1; rw [h1]; cases hm; simp
      · split at hm
        · rename_i h1; rw [h1]; cases hm; simp
        · split at hm
          · rename_i h1; rw [h1]; cases hm; simp
          · split at hm
            · rename_i h1; rw [h1]; cases hm; simp
            · cases hm
  · intro i row hrow
    simp only [List.getElem?_map, List.getElem?_zipIdx, Option.map_map, zero_add] at hrow
    cases hpi : pts[i]? with
    | none => rw [hpi] at hrow; simp at hrow
    | some u =>
      rw [hpi] at hrow
      simp only [Option.map_some, Function.comp, Option.some.injEq] at hrow
      subst hrow
      refine ⟨rfl, u, rfl, fun j v hv => ?_⟩
      simp only at hv
      obtain ⟨x, ⟨name, l, hi⟩, hx, hbj, hvv⟩ := List.getElem?_zipWith_eq_some.1 hv
      simp only at hvv
      have hx01 := hu u (List.mem_of_getElem? hpi) x (List.mem_of_getElem? hx)
      have hlt := hb _ (List.mem_of_getElem? hbj)
      simp only at hlt
      refine ⟨x, name, l, hi, hx, hbj, by rw [← hvv]; ring, ?_, ?_⟩
      · rw [← hvv]; nlinarith [hx01.1]
      · rw [← hvv]; nlinarith [hx01.2]

/-- **C87.** What is refused: a Sobol sample whose size is neither zero nor a power of two, a method that does not exist, and (for the methods that do) bounds
that are not strictly ordered. -/
theorem C87_refuses {Ω : Type} (src : Sources Ω) (ω : Ω) (bounds : List (Str × (ℝ × ℝ))) (n : ℕ) (seed : SeedArg) (method : Str) :
    (method = "sobol".toList → n ≠ 0 → (∀ k, n ≠ 2 ^ k) → sampleUniform src ω bounds n seed method = .error .notPowerOfTwo) ∧
    (method ∉ ["random", "lhs", "sobol", "halton", "poisson_disk"].map String.toList → sampleUniform src ω bounds n seed method = .error .unknownMethod) ∧
    ((∃ b ∈ bounds, b.2.2 ≤ b.2.1) → ∀ f, sampleUniform src ω bounds n seed method ≠ .ok f) := by
  refine ⟨fun hm h0 hk => ?_, fun hm => ?_, ?_⟩
  · have : sobolRefuses n = true := by
      by_contra hc
      rw [Bool.not_eq_true, C87_power_of_two] at hc
      rcases hc with hc | ⟨k, hc⟩
      · exact h0 hc
      · exact hk k hc
    unfold sampleUniform
    dsimp only
    rw [if_pos ⟨hm, this⟩]
  · simp only [List.map_cons, List.map_nil, List.mem_cons, List.not_mem_nil, or_false, not_or] at hm
    obtain ⟨h1, h2, h3, h4, h5⟩ := hm
    unfold sampleUniform engineOf
    dsimp only
    rw [if_neg (fun h => h3 h.1), if_neg h1, if_neg h2, if_neg h3, if_neg h4, if_neg h5]
    rfl
  · rintro ⟨b, hb, hle⟩ f h
    obtain ⟨-, pts, -, h2, -⟩ := (Smpl.ok_iff ..).1 h
    exact absurd (h2 b hb) (not_lt.2 hle)

/-- **C87.** An integer seed makes the sample reproducible: if each engine is a function of its integer seed, two calls give the same table, whatever the
state of the operating system's entropy; for every method. -/
theorem C87_seed {Ω : Type} (src : Sources Ω) (hq : ∀ e d n k ω ω', src.unit e d n (some k) ω = src.unit e d n (some k) ω')
    (hr : ∀ d n k ω ω', src.uniform d n (.int k) ω = src.uniform d n (.int k) ω') (ω ω' : Ω) (bounds : List (Str × (ℝ × ℝ))) (n : ℕ) (k : Int) (method : Str) :
    sampleUniform src ω bounds n (.int k) method = sampleUniform src ω' bounds n (.int k) method := by
  unfold sampleUniform
  dsimp only
  have e1 : src.uniform (dkeys bounds).length n (.int k) ω = src.uniform (dkeys bounds).length n (.int k) ω' := hr _ _ _ _ _
  have e2 : (fun e => src.unit e (dkeys bounds).length n (SeedArg.int k).forQmc ω) = fun e => src.unit e (dkeys bounds).length n (SeedArg.int k).forQmc ω' := by
    funext e; exact hq _ _ _ _ _ _
  rw [e1, e2]

/-- **C87, false for other seeds.** A Generator (or a numpy integer) passed as seed is dropped by every method but `random`: the call is the one without a seed. -/
theorem C87_generator_violated {Ω : Type} (src : Sources Ω) (ω : Ω) (bounds : List (Str × (ℝ × ℝ))) (n : ℕ) (g : ℕ) (method : Str) (hm : method ≠ "random".toList) :
    sampleUniform src ω bounds n (.obj g) method = sampleUniform src ω bounds n .none method := by
  unfold sampleUniform
  dsimp only
  rw [if_neg hm, if_neg hm]
  rfl

/-- **C87.** Bounds derived from priors: one pair per prior, in order, namely its highest-density interval, or the two quantiles when that is not available. -/
theorem C87_bounds (priors : List (Str × PriorDist)) (p : ℝ) :
    (boundsFromPriors priors p).map Prod.fst = priors.map Prod.fst ∧
      ∀ (i : ℕ) (name : Str) (d : PriorDist), priors[i]? = some (name, d) →
        (∀ b, d.hdi p = some b → (boundsFromPriors priors p)[i]? = some (name, b)) ∧
        (d.hdi p = none → (boundsFromPriors priors p)[i]? = some (name, (d.ppf (1 - p), d.ppf p))) := by
  constructor
  · simp [boundsFromPriors, Function.comp_def]
  · intro i name d h
    constructor
    · intro b hb
      simp [boundsFromPriors, List.getElem?_map, h, hb]
    · intro hb
      simp [boundsFromPriors, List.getElem?_map, h, hb]

/-- **C87, false for the quantile fallback.** The interval then covers less than the probability asked for: for the uniform distribution on `[0, 1]`, whose
quantile function is the identity there, `p = 99/100` gives an interval of mass 98/100. -/
theorem C87_fallback_mass_violated (name : Str) (d : PriorDist) (p : ℝ) (hp0 : 1 / 2 < p) (hp : p < 1) (hd : d.hdi p = none) (hq : ∀ x, 0 ≤ x → x ≤ 1 → d.ppf x = x) :
    boundsFromPriors [(name, d)] p = [(name, (1 - p, p))] ∧ p - (1 - p) < p := by
  refine ⟨?_, by linarith⟩
  simp only [boundsFromPriors, List.map_cons, List.map_nil, hd, Option.getD_none]
  rw [hq (1 - p) (by linarith) (by linarith), hq p (by linarith) (by linarith)]

/-- **C87, false for the quantile fallback.** For a probability of at most one half the fallback interval is not an interval, and sampling is refused, for every
increasing quantile function. -/
theorem C87_fallback_reversed_violated {Ω : Type} (src : Sources Ω) (ω : Ω) (priors : List (Str × PriorDist)) (name : Str) (d : PriorDist) (p : ℝ)
    (hm : (name, d) ∈ priors) (hp : p ≤ 1 / 2) (hd : d.hdi p = none) (hq : Monotone d.ppf) (n : ℕ) (seed : SeedArg) (method : Str) (f : DrawTable) :
    sampleUniformFromPriors src ω priors n seed method p ≠ .ok f := by
  refine (C87_refuses src ω (boundsFromPriors priors p) n seed method).2.2 ⟨(name, (d.ppf (1 - p), d.ppf p)), ?_, hq (by linarith)⟩ f
  simp only [boundsFromPriors, List.mem_map]
  exact ⟨(name, d), hm, by simp [hd]⟩

/-- **C87.** Inverse-distribution sampling: one column per prior in order; every value is a quantile of its own prior at a level between `eps` and `1 - eps`, so for
increasing quantile functions it lies between those two quantiles. -/
theorem C87_ppf {Ω : Type} (src : Sources Ω) (eps : ℝ) (heps : eps ≤ 1 / 2) (ω : Ω) (priors : List (Str × PriorDist)) (n : ℕ) (seed : SeedArg) (method : Str) (f : DrawTable)
    (h : sampleFromPriorsQmc src eps ω priors n seed method = .ok f) :
    f.columns = priors.map Prod.fst ∧
      ∃ e, (method, e) ∈ [("lhs".toList, Engine.lhs), ("sobol".toList, .sobol), ("halton".toList, .halton)] ∧
        f.rows.length = (src.unit e priors.length n seed.forQmc ω).length ∧
        ∀ (i : ℕ) (row : ℝ × List ℝ), f.rows[i]? = some row → ∃ u, (src.unit e priors.length n seed.forQmc ω)[i]? = some u ∧
          ∀ (j : ℕ) (v : ℝ), row.2[j]? = some v → ∃ name d x y, priors[j]? = some (name, d) ∧ u[j]? = some x ∧ v = d.ppf y ∧ eps ≤ y ∧ y ≤ 1 - eps ∧
            (eps ≤ x → x ≤ 1 - eps → y = x) ∧ (Monotone d.ppf → d.ppf eps ≤ v ∧ v ≤ d.ppf (1 - eps)) := by
  unfold sampleFromPriorsQmc at h
  dsimp only at h
  split at h
  · cases h
  · split at h
    · cases h
    · rename_i e he
      simp only [Except.ok.injEq] at h
      subst h
      refine ⟨rfl, e, ?_, by simp, ?_⟩
      · unfold ppfEngineOf at he
        split at he
        · rename_i h1; rw [h1]; cases he; simp
        · split at he
          · rename_i h1; rw [h1]; cases he; simp
          · split at he
            · rename_i h1; rw [h1]; cases he; simp
            · cases he
      · intro i row hrow
        simp only [List.getElem?_map, List.getElem?_zipIdx, Option.map_map, zero_add] at hrow
        cases hpi : (src.unit e priors.length n seed.forQmc ω)[i]? with
        | none => rw [hpi] at hrow; simp at hrow
        | some u =>
          rw [hpi] at hrow
          simp only [Option.map_some, Function.comp, Option.some.injEq] at hrow
          subst hrow
          refine ⟨u, rfl, fun j v hv => ?_⟩
          obtain ⟨x, ⟨name, d⟩, hx, hdj, hvv⟩ := List.getElem?_zipWith_eq_some.1 hv
          simp only at hvv
          have h1 : eps ≤ clip eps x := le_min (le_max_right _ _) (by linarith)
          have h2 : clip eps x ≤ 1 - eps := min_le_right _ _
          refine ⟨name, d, x, clip eps x, hdj, hx, hvv.symm, h1, h2, fun ha hb => ?_, fun hmono => ?_⟩
          · unfold clip
            rw [max_eq_left ha, min_eq_left hb]
          · rw [← hvv]
            exact ⟨hmono h1, hmono h2⟩

/-- two parameters sampled by one point of the unit square -/
example : ∃ f, sampleUniform (Ω := Unit) ⟨fun _ _ _ _ _ => [[1 / 2, 1]], fun _ _ _ _ => []⟩ () [("a".toList, (0, 1)), ("b".toList, (2, 4))] 1 (.int 0) "lhs".toList = .ok f ∧
    f.rows = [(0, [1 / 2, 4])] := by
  refine ⟨_, (Smpl.ok_iff ..).2 ⟨by decide, [[1 / 2, 1]], rfl, by norm_num, by simp, ?_, rfl⟩, ?_⟩
  · intro r hr x hx
    simp only [List.mem_singleton] at hr; subst hr
    simp only [List.mem_cons, List.not_mem_nil, or_false] at hx
    rcases hx with rfl | rfl <;> norm_num
  · norm_num

end GE
