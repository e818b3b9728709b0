import Verif.Model.GensysParts
import Mathlib.Tactic.Linarith
import Mathlib.Tactic.NormNum
import Mathlib.Analysis.Complex.Order
/-! # C118: classification of the roots and the reduced singular value decomposition -/

open Matrix

namespace GE

/-! ## specification -/

/-- the root `beta / alpha` of a pair exceeds `c` in modulus (`alpha = 0` with `beta ≠ 0` is an infinite root, `0/0` is none) -/
def RootAbove (c : ℝ) (p : ℂ × ℂ) : Prop := c * ‖p.1‖ < ‖p.2‖

/-- number of pairs with a property -/
noncomputable def countPairs (P : ℂ × ℂ → Prop) (l : List (ℂ × ℂ)) : ℕ := open Classical in l.countP fun p => decide (P p)

namespace GPt

theorem ratio {a b c : ℝ} (ha : 0 < a) : c < b / a ↔ c * a < b := lt_div_iff₀ ha

theorem fixed_fold (rs : ℝ) (l : List (ℂ × ℂ)) (st : DivState) :
    (l.foldl (divStep false rs) st).div = st.div ∧ (l.foldl (divStep false rs) st).n = st.n + countPairs (RootAbove st.div) l := by
  classical
  induction l generalizing st with
  | nil => simp [countPairs]
  | cons p l ih =>
    rw [List.foldl_cons]
    obtain ⟨h1, h2⟩ := ih (divStep false rs st p)
    have hd : (divStep false rs st p).div = st.div := by simp [divStep]
    rw [hd] at h1 h2
    refine ⟨h1, ?_⟩
    rw [h2]
    have hn : (divStep false rs st p).n = if RootAbove st.div p then st.n + 1 else st.n := by
      simp only [divStep, RootAbove, Bool.false_eq_true, false_and, if_false]
      congr
    rw [hn]
    simp only [countPairs, List.countP_cons]
    by_cases hp : RootAbove st.div p
    · simp [hp]; omega
    · simp [hp]

theorem zxz_fold (c : Bool) (rs : ℝ) (l : List (ℂ × ℂ)) (st : DivState) :
    (l.foldl (divStep c rs) st).zxz = true ↔ (∃ p, l.getLast? = some p ∧ ‖p.1‖ < rs ∧ ‖p.2‖ < rs) ∨ (l = [] ∧ st.zxz = true) := by
  induction l generalizing st with
  | nil => simp
  | cons p l ih =>
    rw [List.foldl_cons, ih]
    cases l with
    | nil => simp [divStep]
    | cons q l => simp [List.getLast?_cons_cons]

/-- one turn with the heuristic: the cutoff stays in range, large roots are above it, roots in the unit circle are below -/
theorem auto_step (rs : ℝ) (h0 : 0 ≤ rs) (st : DivState) (hlo : 1 + rs / 2 ≤ st.div ∨ 1 ≤ st.div) (hlo1 : 1 ≤ st.div) (p : ℂ × ℂ) :
    (divStep true rs st p).div ≤ st.div ∧ 1 ≤ (divStep true rs st p).div ∧
    (RootAbove (1 + rs) p → RootAbove (divStep true rs st p).div p) ∧
    (RootAbove (divStep true rs st p).div p → RootAbove 1 p) ∧
    (1 + rs / 2 < st.div → 1 + rs / 2 < (divStep true rs st p).div) := by
  classical
  have hdiv : (divStep true rs st p).div = if 0 < ‖p.1‖ ∧ 1 + rs < ‖p.2‖ / ‖p.1‖ ∧ ‖p.2‖ / ‖p.1‖ ≤ st.div then (1 / 2) * (1 + ‖p.2‖ / ‖p.1‖) else st.div := by
    simp only [divStep, true_and]
    by_cases ha : 0 < ‖p.1‖ <;> simp [ha]
  rw [hdiv]
  split
  · rename_i h
    obtain ⟨ha, h1, h2⟩ := h
    refine ⟨by linarith, by linarith, fun _ => ?_, fun h => ?_, fun _ => by linarith⟩
    · unfold RootAbove
      rw [← ratio ha]
      linarith
    · unfold RootAbove at h ⊢
      rw [← ratio ha] at h ⊢
      linarith
  · rename_i h
    refine ⟨le_refl _, hlo1, fun h1 => ?_, fun h1 => ?_, fun h => h⟩
    · unfold RootAbove at h1 ⊢
      rcases (norm_nonneg p.1).lt_or_eq with ha | ha
      · rw [← ratio ha] at h1 ⊢
        by_contra hc
        exact h ⟨ha, h1, not_lt.mp hc⟩
      · rw [← ha] at h1 ⊢
        simpa using h1
    · unfold RootAbove at h1 ⊢
      nlinarith [norm_nonneg p.1]

theorem auto_fold (rs : ℝ) (h0 : 0 ≤ rs) (l : List (ℂ × ℂ)) (st : DivState) (hlo : 1 ≤ st.div) :
    let r := l.foldl (divStep true rs) st
    r.div ≤ st.div ∧ 1 ≤ r.div ∧ (1 + rs / 2 < st.div → 1 + rs / 2 < r.div) ∧
    st.n + countPairs (RootAbove (1 + rs)) l ≤ r.n ∧ r.n ≤ st.n + countPairs (RootAbove 1) l ∧
    (∀ p ∈ l, RootAbove (1 + rs) p → RootAbove r.div p) := by
  classical
  induction l generalizing st with
  | nil => simp [countPairs, hlo]
  | cons p l ih =>
    obtain ⟨s1, s2, s3, s4, s5⟩ := auto_step rs h0 st (.inr hlo) hlo p
    obtain ⟨i1, i2, i3, i4, i5, i6⟩ := ih (divStep true rs st p) s2
    simp only [List.foldl_cons]
    have hn : (divStep true rs st p).n = if RootAbove (divStep true rs st p).div p then st.n + 1 else st.n := by
      simp only [divStep, RootAbove]
    refine ⟨i1.trans s1, i2, fun h => i3 (s5 h), ?_, ?_, ?_⟩
    · refine le_trans ?_ i4
      rw [hn]
      simp only [countPairs, List.countP_cons]
      by_cases hp : RootAbove (1 + rs) p
      · simp [hp, s3 hp]; omega
      · simp only [hp, decide_false, Bool.false_eq_true, if_false]
        split <;> omega
    · refine le_trans i5 ?_
      rw [hn]
      simp only [countPairs, List.countP_cons]
      by_cases hp : RootAbove (divStep true rs st p).div p
      · simp [hp, s4 hp]; omega
      · simp only [hp, if_false]
        split <;> omega
    · intro q hq hr
      rcases List.mem_cons.mp hq with rfl | hq
      · have := s3 hr
        unfold RootAbove at this ⊢
        nlinarith [norm_nonneg q.1]
      · exact i6 q hq hr

end GPt

/-- **C118** with a given cutoff, the number reported is the number of roots above the cutoff, and the cutoff is returned unchanged. -/
theorem C118_fixed (pairs : List (ℂ × ℂ)) (div rs : ℝ) :
    (determineNUnstable pairs (some div) rs).div = div ∧
    (determineNUnstable pairs (some div) rs).n = countPairs (RootAbove div) pairs := by
  have := GPt.fixed_fold rs pairs ⟨div, 0, false⟩
  exact ⟨this.1, by simpa [determineNUnstable] using this.2⟩

/-- **C118** the flag tells whether the last pair is coincident near-zero. -/
theorem C118_flag (pairs : List (ℂ × ℂ)) (div : Option ℝ) (rs : ℝ) :
    (determineNUnstable pairs div rs).zxz = true ↔ ∃ p, pairs.getLast? = some p ∧ ‖p.1‖ < rs ∧ ‖p.2‖ < rs := by
  unfold determineNUnstable
  rw [GPt.zxz_fold]
  simp

/-- **C118** without a cutoff: the cutoff found lies in `[1, 1.01]`, every root more than `realsmall` outside the unit circle is above it and is
counted, no root in the closed unit disc is counted. -/
theorem C118_automatic (pairs : List (ℂ × ℂ)) (rs : ℝ) (h0 : 0 ≤ rs) :
    let r := determineNUnstable pairs none rs
    1 ≤ r.div ∧ r.div ≤ 101 / 100 ∧ (rs < 2 / 100 → 1 + rs / 2 < r.div) ∧
    countPairs (RootAbove (1 + rs)) pairs ≤ r.n ∧ r.n ≤ countPairs (RootAbove 1) pairs ∧
    (∀ p ∈ pairs, RootAbove (1 + rs) p → RootAbove r.div p) := by
  have := GPt.auto_fold rs h0 pairs ⟨101 / 100, 0, false⟩ (by norm_num)
  obtain ⟨h1, h2, h3, h4, h5, h6⟩ := this
  refine ⟨h2, h1, fun h => h3 (by norm_num; linarith), by simpa [determineNUnstable] using h4, by simpa [determineNUnstable] using h5, h6⟩

/-- **C118** when no root lies between 1 and `1 + realsmall`, the number reported is that of the roots outside the unit circle, which are also
those above the cutoff returned: the grouping is consistent and does not depend on the order of the pairs. -/
theorem C118_consistent (pairs : List (ℂ × ℂ)) (rs : ℝ) (h0 : 0 ≤ rs) (hgap : ∀ p ∈ pairs, RootAbove 1 p → RootAbove (1 + rs) p) :
    let r := determineNUnstable pairs none rs
    r.n = countPairs (RootAbove 1) pairs ∧ r.n = countPairs (RootAbove r.div) pairs := by
  classical
  intro r
  obtain ⟨h1, h2, _, h4, h5, h6⟩ := C118_automatic pairs rs h0
  have e1 : countPairs (RootAbove (1 + rs)) pairs = countPairs (RootAbove 1) pairs := by
    unfold countPairs
    apply List.countP_congr
    intro p hp
    simp only [decide_eq_true_eq]
    refine ⟨fun h => ?_, hgap p hp⟩
    unfold RootAbove at h ⊢
    nlinarith [norm_nonneg p.1]
  have e2 : countPairs (RootAbove r.div) pairs = countPairs (RootAbove 1) pairs := by
    unfold countPairs
    apply List.countP_congr
    intro p hp
    simp only [decide_eq_true_eq]
    refine ⟨fun h => ?_, fun h => h6 p hp (hgap p hp h)⟩
    unfold RootAbove at h ⊢
    have : (1 : ℝ) ≤ r.div := h1
    nlinarith [norm_nonneg p.1]
  rw [e2]
  have : r.n = countPairs (RootAbove 1) pairs := le_antisymm h5 (e1 ▸ h4)
  exact ⟨this, this⟩

/-- **C118 violated**: roots closer to 1 than `realsmall` are not grouped consistently: with `realsmall = 0.004` the roots 1.003 and 1.005 count
as one unstable root in this order and as two in the other, although the cutoff returned, 1.0025, is the same and below both. -/
theorem C118_order_violated :
    let p : ℂ × ℂ := (1, 1.003)
    let q : ℂ × ℂ := (1, 1.005)
    (determineNUnstable [p, q] none 0.004).n = 1 ∧ (determineNUnstable [q, p] none 0.004).n = 2 ∧
    (determineNUnstable [p, q] none 0.004).div = 1.0025 ∧ (determineNUnstable [q, p] none 0.004).div = 1.0025 := by
  have n1 : ‖(1.003 : ℂ)‖ = 1.003 := by
    rw [show (1.003 : ℂ) = ((1.003 : ℝ) : ℂ) by push_cast; ring, Complex.norm_real]; norm_num
  have n2 : ‖(1.005 : ℂ)‖ = 1.005 := by
    rw [show (1.005 : ℂ) = ((1.005 : ℝ) : ℂ) by push_cast; ring, Complex.norm_real]; norm_num
  simp only [determineNUnstable, List.foldl_cons, List.foldl_nil, divStep, n1, n2, norm_one, Option.isNone_none, Option.getD_none]
  norm_num

/-- **C118** (finding) the flag differs from the one gensys computes itself, which is raised by any coincident pair -/
theorem C118_flag_last_only : (determineNUnstable [(0, 0), (1, 0)] none 0.004).zxz = false ∧
    (gensysCount 0.004 [(0, 0), (1, 0)] (0, false)).2 = true := by
  constructor
  · rw [Bool.eq_false_iff, ne_eq, C118_flag]
    rintro ⟨p, hp, h, _⟩
    simp only [List.getLast?_cons_cons, List.getLast?_singleton, Option.some.injEq] at hp
    rw [← hp] at h
    norm_num at h
  · simp only [gensysCount]
    norm_num

/-- **C118** the split puts the last `n_unstable` rows into the second part, and loses none. -/
theorem C118_split {α : Type} (rows : List α) (k : ℕ) (hk : k ≤ rows.length) :
    (splitRows rows k).1 ++ (splitRows rows k).2 = rows ∧ (splitRows rows k).2.length = k := by
  simp only [splitRows, hk, if_true, List.take_append_drop, List.length_drop, true_and]
  omega

/-! ## the reduced decomposition -/

/-- **C118** the components kept are those with a singular value above the tolerance, each once, in order; columns and values belong together.
For an empty matrix or an invalid system nothing is kept. -/
theorem C118_kept {a b : Type} {k : ℕ} (u : Matrix a (Fin k) ℂ) (s : Fin k → ℝ) (v : Matrix b (Fin k) ℂ) (rs : ℝ) (empty invalid : Bool) :
    let r := buildUVD u s v rs empty invalid
    (∀ i, i ∈ r.bigEv ↔ invalid = false ∧ empty = false ∧ rs < s i) ∧ r.bigEv.Pairwise (· < ·) ∧
    (∀ c, r.d c = s (r.bigEv.get c) ∧ (∀ i, r.u i c = u i (r.bigEv.get c)) ∧ ∀ j, r.v j c = v j (r.bigEv.get c)) := by
  classical
  intro r
  refine ⟨fun i => ?_, ?_, fun c => ⟨rfl, fun _ => rfl, fun _ => rfl⟩⟩
  · show i ∈ (if (invalid || empty) = true then [] else (List.finRange k).filter fun i => decide (rs < s i)) ↔ _
    cases invalid <;> cases empty <;> simp
  · show List.Pairwise (· < ·) (if (invalid || empty) = true then [] else (List.finRange k).filter fun i => decide (rs < s i))
    split
    · exact List.Pairwise.nil
    · exact (List.pairwise_lt_finRange k).filter _

namespace GPt

theorem sum_get {k : ℕ} {M : Type} [AddCommMonoid M] (l : List (Fin k)) (hn : l.Nodup) (f : Fin k → M) : ∑ c, f (l.get c) = ∑ i ∈ l.toFinset, f i := by
  rw [← List.sum_ofFn]
  have : List.ofFn (fun c => f (l.get c)) = l.map f := by
    apply List.ext_getElem <;> simp
  rw [this, List.sum_toFinset f hn]

theorem kept_sum {a b : Type} {k : ℕ} (u : Matrix a (Fin k) ℂ) (s : Fin k → ℝ) (v : Matrix b (Fin k) ℂ) (rs : ℝ) (i : a) (j : b) :
    (let r := buildUVD u s v rs false false
     (r.u * diagonal (fun c => (r.d c : ℂ)) * r.vᴴ) i j) =
    ∑ c ∈ (open Classical in Finset.univ.filter fun c => rs < s c), u i c * (s c : ℂ) * star (v j c) := by
  classical
  dsimp only
  rw [mul_apply]
  simp only [mul_diagonal, conjTranspose_apply]
  have hn : (buildUVD u s v rs false false).bigEv.Nodup := (C118_kept u s v rs false false).2.1.imp ne_of_lt
  have := sum_get (buildUVD u s v rs false false).bigEv hn (fun c => u i c * (s c : ℂ) * star (v j c))
  rw [show (∑ c, (buildUVD u s v rs false false).u i c * ((buildUVD u s v rs false false).d c : ℂ) * star ((buildUVD u s v rs false false).v j c)) =
    ∑ c, u i ((buildUVD u s v rs false false).bigEv.get c) * (s ((buildUVD u s v rs false false).bigEv.get c) : ℂ) *
      star (v j ((buildUVD u s v rs false false).bigEv.get c)) from rfl, this]
  apply Finset.sum_congr
  · ext c
    simp [(C118_kept u s v rs false false).1]
  · intros; rfl

theorem col_le {a : Type} [Fintype a] {k : ℕ} (u : Matrix a (Fin k) ℂ) (h : uᴴ * u = 1) (i : a) (c : Fin k) : ‖u i c‖ ≤ 1 := by
  have h1 := congrFun (congrFun h c) c
  rw [mul_apply, one_apply_eq] at h1
  have h2 : ∑ x, ‖u x c‖ ^ 2 = 1 := by
    have : (∑ x, ((‖u x c‖ ^ 2 : ℝ) : ℂ)) = 1 := by
      rw [← h1]
      apply Finset.sum_congr rfl
      intro x _
      rw [conjTranspose_apply, ← Complex.normSq_eq_norm_sq, Complex.normSq_eq_conj_mul_self]
      rfl
    exact_mod_cast this
  have h3 : ‖u i c‖ ^ 2 ≤ 1 := by
    rw [← h2]
    exact Finset.single_le_sum (f := fun x => ‖u x c‖ ^ 2) (fun x _ => by positivity) (Finset.mem_univ i)
  nlinarith [norm_nonneg (u i c)]

end GPt

/-- **C118** the reduced decomposition multiplies back to the matrix up to what was dropped: no entry is off by more than the tolerance times the
number of dropped components; and exactly when the dropped singular values are zero, in which case it is the decomposition gensys relies on. -/
theorem C118_decomposition {a b : Type} [Fintype a] [Fintype b] {k : ℕ} (M : Matrix a b ℂ) (u : Matrix a (Fin k) ℂ) (s : Fin k → ℝ)
    (v : Matrix b (Fin k) ℂ) (rs : ℝ) (hu : uᴴ * u = 1) (hv : vᴴ * v = 1) (hs : ∀ c, 0 ≤ s c) (hM : M = u * diagonal (fun c => (s c : ℂ)) * vᴴ) :
    let r := buildUVD u s v rs false false
    r.uᴴ * r.u = 1 ∧ r.vᴴ * r.v = 1 ∧ (∀ c, rs < r.d c) ∧
    (∀ i j, ‖M i j - (r.u * diagonal (fun c => (r.d c : ℂ)) * r.vᴴ) i j‖ ≤ (k - r.bigEv.length : ℕ) * rs) ∧
    ((∀ c, s c ≤ rs → s c = 0) → M = r.u * diagonal (fun c => (r.d c : ℂ)) * r.vᴴ) := by
  classical
  intro r
  obtain ⟨hk1, hk2, hk3⟩ := C118_kept u s v rs false false
  have hn : r.bigEv.Nodup := hk2.imp ne_of_lt
  have horth : ∀ {t : Type} [Fintype t] (w : Matrix t (Fin k) ℂ), wᴴ * w = 1 → (w.submatrix id r.bigEv.get)ᴴ * w.submatrix id r.bigEv.get = 1 := by
    intro t _ w hw
    ext c c'
    have := congrFun (congrFun hw (r.bigEv.get c)) (r.bigEv.get c')
    rw [mul_apply] at this ⊢
    rw [show (∑ x, (w.submatrix id r.bigEv.get)ᴴ c x * w.submatrix id r.bigEv.get x c') = ∑ x, wᴴ (r.bigEv.get c) x * w x (r.bigEv.get c') from rfl, this]
    by_cases h : c = c'
    · rw [h, one_apply_eq, one_apply_eq]
    · rw [one_apply_ne h, one_apply_ne]
      intro he
      exact h (List.nodup_iff_injective_get.mp hn he)
  have hdiff : ∀ i j, M i j - (r.u * diagonal (fun c => (r.d c : ℂ)) * r.vᴴ) i j =
      ∑ c ∈ Finset.univ.filter (fun c => ¬ rs < s c), u i c * (s c : ℂ) * star (v j c) := by
    intro i j
    have h1 := GPt.kept_sum u s v rs i j
    dsimp only at h1
    have h2 : M i j = ∑ c, u i c * (s c : ℂ) * star (v j c) := by
      rw [hM, mul_apply]; simp only [mul_diagonal, conjTranspose_apply]
    rw [h2, ← Finset.sum_filter_add_sum_filter_not Finset.univ (fun c => rs < s c), show (r.u * diagonal (fun c => (r.d c : ℂ)) * r.vᴴ) i j = _ from h1]
    simp only [add_sub_cancel_left]
  refine ⟨horth u hu, horth v hv, fun c => ?_, fun i j => ?_, fun h0 => ?_⟩
  · have := (hk1 (r.bigEv.get c)).mp (List.get_mem _ _)
    exact this.2.2
  · rw [hdiff]
    have hcard : (Finset.univ.filter (fun c : Fin k => ¬ rs < s c)).card = k - r.bigEv.length := by
      have h1 : (Finset.univ.filter (fun c : Fin k => rs < s c)).card = r.bigEv.length := by
        rw [← List.toFinset_card_of_nodup hn]
        congr 1
        ext c
        simp only [Finset.mem_filter, Finset.mem_univ, true_and, List.mem_toFinset]
        have := hk1 c
        simp only [true_and] at this
        exact this.symm
      have h2 := Finset.card_filter_add_card_filter_not (s := (Finset.univ : Finset (Fin k))) (fun c => rs < s c)
      rw [Finset.card_univ, Fintype.card_fin] at h2
      omega
    calc ‖∑ c ∈ Finset.univ.filter (fun c => ¬ rs < s c), u i c * (s c : ℂ) * star (v j c)‖
        ≤ ∑ c ∈ Finset.univ.filter (fun c => ¬ rs < s c), ‖u i c * (s c : ℂ) * star (v j c)‖ := norm_sum_le _ _
      _ ≤ ∑ c ∈ Finset.univ.filter (fun c => ¬ rs < s c), rs := by
          apply Finset.sum_le_sum
          intro c hc
          have hc' : s c ≤ rs := not_lt.mp (Finset.mem_filter.mp hc).2
          rw [norm_mul, norm_mul, norm_star, Complex.norm_real, Real.norm_of_nonneg (hs c)]
          have h1 := GPt.col_le u hu i c
          have h2 := GPt.col_le v hv j c
          calc ‖u i c‖ * s c * ‖v j c‖ ≤ 1 * s c * 1 := by
                apply mul_le_mul _ h2 (norm_nonneg _) (by linarith [hs c])
                exact mul_le_mul_of_nonneg_right h1 (hs c)
            _ ≤ rs := by linarith
      _ = (k - r.bigEv.length : ℕ) * rs := by rw [Finset.sum_const, hcard, nsmul_eq_mul]
  · ext i j
    have := hdiff i j
    rw [Finset.sum_eq_zero] at this
    · exact sub_eq_zero.mp this
    · intro c hc
      have hc' : s c ≤ rs := not_lt.mp (Finset.mem_filter.mp hc).2
      rw [h0 c hc']
      simp

/-! ### non-vacuity -/

/-- a decomposition that drops one of two components -/
example : ∃ (M : Matrix (Fin 2) (Fin 2) ℂ) (u v : Matrix (Fin 2) (Fin 2) ℂ) (s : Fin 2 → ℝ), uᴴ * u = 1 ∧ vᴴ * v = 1 ∧ (∀ c, 0 ≤ s c) ∧
    M = u * diagonal (fun c => (s c : ℂ)) * vᴴ ∧ (buildUVD u s v (1 / 2) false false).bigEv = [0] := by
  classical
  refine ⟨_, 1, 1, fun c => if c = 0 then 3 else 0, by simp, by simp, ?_, rfl, ?_⟩
  · intro c; dsimp only; split <;> norm_num
  · have : (List.finRange 2) = [0, 1] := rfl
    simp only [buildUVD, this]
    norm_num [List.filter]

/-- pairs without a root between 1 and 1.004, some unstable -/
example : ∀ p ∈ [((1 : ℂ), (0 : ℂ)), (0, 1)], RootAbove 1 p → RootAbove (1 + 0.004) p := by
  intro p hp h
  simp only [List.mem_cons, List.not_mem_nil, or_false] at hp
  rcases hp with rfl | rfl
  · simp [RootAbove] at h; linarith
  · simp [RootAbove]

end GE
