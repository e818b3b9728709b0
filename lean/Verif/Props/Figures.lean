import Verif.Model.Figures
import Verif.Props.Plotting
/-! # C129: heat maps, matrices, solvability grids, sensitivity figures and legends -/

namespace GE.Fig
open Plot

theorem foldl_min_le (v : ℝ) (vs : List ℝ) : (∀ x ∈ v :: vs, vs.foldl min v ≤ x) ∧ vs.foldl min v ∈ v :: vs := by
  induction vs generalizing v with
  | nil => simp
  | cons w ws ih =>
    simp only [List.foldl_cons]
    obtain ⟨h1, h2⟩ := ih (min v w)
    have hm := h1 (min v w) (List.mem_cons_self ..)
    refine ⟨?_, ?_⟩
    · intro x hx
      rcases List.mem_cons.1 hx with rfl | hx
      · exact le_trans hm (min_le_left ..)
      · rcases List.mem_cons.1 hx with rfl | hx
        · exact le_trans hm (min_le_right ..)
        · exact h1 x (List.mem_cons_of_mem _ hx)
    · rcases List.mem_cons.1 h2 with h | h
      · rw [h]
        rcases min_choice v w with e | e <;> rw [e] <;> simp
      · exact List.mem_cons_of_mem _ (List.mem_cons_of_mem _ h)

theorem le_foldl_max (v : ℝ) (vs : List ℝ) : (∀ x ∈ v :: vs, x ≤ vs.foldl max v) ∧ vs.foldl max v ∈ v :: vs := by
  induction vs generalizing v with
  | nil => simp
  | cons w ws ih =>
    simp only [List.foldl_cons]
    obtain ⟨h1, h2⟩ := ih (max v w)
    have hm := h1 (max v w) (List.mem_cons_self ..)
    refine ⟨?_, ?_⟩
    · intro x hx
      rcases List.mem_cons.1 hx with rfl | hx
      · exact le_trans (le_max_left ..) hm
      · rcases List.mem_cons.1 hx with rfl | hx
        · exact le_trans (le_max_right ..) hm
        · exact h1 x (List.mem_cons_of_mem _ hx)
    · rcases List.mem_cons.1 h2 with h | h
      · rw [h]
        rcases max_choice v w with e | e <;> rw [e] <;> simp
      · exact List.mem_cons_of_mem _ (List.mem_cons_of_mem _ h)

theorem mem_entries (t : Table) (x : ℝ) : x ∈ t.entries ↔ ∃ i j, i < t.rows.length ∧ j < t.cols.length ∧ t.value i j = x := by
  simp only [Table.entries, List.mem_flatMap, List.mem_map, List.mem_range]
  constructor
  · rintro ⟨i, hi, j, hj, h⟩; exact ⟨i, j, hi, hj, h⟩
  · rintro ⟨i, j, hi, hj, h⟩; exact ⟨i, hi, j, hj, h⟩

theorem second_iff (lo hi v : ℝ) (h1 : lo ≤ v) (h2 : v ≤ hi) : norm lo hi hi / 2 < norm lo hi v ↔ (lo + hi) / 2 < v := by
  unfold norm
  by_cases h : lo = hi
  · subst h
    have : v = lo := le_antisymm h2 h1
    subst this
    simp
  · rw [if_neg h, if_neg h]
    have hlt : lo < hi := lt_of_le_of_ne (le_trans h1 h2) h
    have hpos : 0 < hi - lo := by linarith
    rw [div_self hpos.ne', lt_div_iff₀ hpos]
    constructor <;> intro h <;> linarith

/-- what an annotated table shows -/
theorem annotate_ok (t : Table) (hr : 0 < t.rows.length) (hc : 0 < t.cols.length) : ∃ cs, annotate t = .ok cs ∧ cs.length = t.rows.length * t.cols.length ∧
    (∀ i j, i < t.rows.length → j < t.cols.length → ∃ c ∈ cs, c.x = j ∧ c.y = i) ∧
    (∀ c ∈ cs, c.x < t.cols.length ∧ c.y < t.rows.length ∧ c.value = t.value c.y c.x) ∧
    (∀ lo hi, (∃ c ∈ cs, c.value = lo) → (∀ c ∈ cs, lo ≤ c.value) → (∃ c ∈ cs, c.value = hi) → (∀ c ∈ cs, c.value ≤ hi) →
      ∀ c ∈ cs, (c.second = true ↔ (lo + hi) / 2 < c.value)) := by
  unfold annotate
  cases he : t.entries with
  | nil =>
    have : t.value 0 0 ∈ t.entries := (mem_entries ..).2 ⟨0, 0, hr, hc, rfl⟩
    rw [he] at this
    cases this
  | cons v vs =>
    have hmem : ∀ c : Cell, c ∈ ((List.range t.rows.length).flatMap fun i => (List.range t.cols.length).map fun j =>
        (⟨j, i, t.value i j, @decide (norm (vs.foldl min v) (vs.foldl max v) (vs.foldl max v) / 2 < norm (vs.foldl min v) (vs.foldl max v) (t.value i j)) (Classical.propDecidable _)⟩ : Cell)) ↔
        ∃ i j, i < t.rows.length ∧ j < t.cols.length ∧ c = ⟨j, i, t.value i j, @decide (norm (vs.foldl min v) (vs.foldl max v) (vs.foldl max v) / 2 < norm (vs.foldl min v) (vs.foldl max v) (t.value i j)) (Classical.propDecidable _)⟩ := by
      intro c
      simp only [List.mem_flatMap, List.mem_map, List.mem_range]
      constructor
      · rintro ⟨i, hi, j, hj, rfl⟩; exact ⟨i, j, hi, hj, rfl⟩
      · rintro ⟨i, j, hi, hj, rfl⟩; exact ⟨i, hi, j, hj, rfl⟩
    refine ⟨_, rfl, ?_, ?_, ?_, ?_⟩
    · simp only [List.length_flatMap, List.length_map, List.length_range]
      simp
    · intro i j hi hj
      exact ⟨_, (hmem _).2 ⟨i, j, hi, hj, rfl⟩, rfl, rfl⟩
    · intro c hc
      obtain ⟨i, j, hi, hj, rfl⟩ := (hmem _).1 hc
      exact ⟨hj, hi, rfl⟩
    · rintro lo hi ⟨cl, hcl, hlo⟩ hlo' ⟨ch, hch, hhi⟩ hhi' c hc
      have hmin := foldl_min_le v vs
      have hmax := le_foldl_max v vs
      rw [← he] at hmin hmax
      rw [hmem] at hcl hch hc
      simp only [hmem] at hlo' hhi'
      have hent : ∀ c : Cell, (∃ i j, i < t.rows.length ∧ j < t.cols.length ∧ c = ⟨j, i, t.value i j, @decide (norm (vs.foldl min v) (vs.foldl max v) (vs.foldl max v) / 2 < norm (vs.foldl min v) (vs.foldl max v) (t.value i j)) (Classical.propDecidable _)⟩) → c.value ∈ t.entries := by
        rintro c ⟨i, j, hi, hj, rfl⟩
        exact (mem_entries ..).2 ⟨i, j, hi, hj, rfl⟩
      have hcell : ∀ x ∈ t.entries, ∃ c : Cell, (∃ i j, i < t.rows.length ∧ j < t.cols.length ∧ c = ⟨j, i, t.value i j, @decide (norm (vs.foldl min v) (vs.foldl max v) (vs.foldl max v) / 2 < norm (vs.foldl min v) (vs.foldl max v) (t.value i j)) (Classical.propDecidable _)⟩) ∧ c.value = x := fun x hx => by
        obtain ⟨i, j, hi, hj, h⟩ := (mem_entries ..).1 hx
        exact ⟨_, ⟨i, j, hi, hj, rfl⟩, h⟩
      have e1 : vs.foldl min v = lo := by
        apply le_antisymm
        · rw [← hlo]; exact hmin.1 _ (hent _ hcl)
        · obtain ⟨c', hc', e⟩ := hcell _ hmin.2
          rw [← e]; exact hlo' _ hc'
      have e2 : vs.foldl max v = hi := by
        apply le_antisymm
        · obtain ⟨c', hc', e⟩ := hcell _ hmax.2
          rw [← e]; exact hhi' _ hc'
        · rw [← hhi]; exact hmax.1 _ (hent _ hch)
      have hv := hent _ hc
      obtain ⟨i, j, hi', hj, rfl⟩ := hc
      rw [← e1, ← e2]
      simp only [decide_eq_true_eq]
      exact second_iff _ _ _ (hmin.1 _ hv) (hmax.1 _ hv)

theorem zip_range {α : Type} (l : List α) (k : Nat) (a : α) (h : l[k]? = some a) : ((List.range l.length).zip l)[k]? = some (k, a) := by
  have hk : k < l.length := by
    by_contra hk; rw [List.getElem?_eq_none (by omega)] at h; cases h
  rw [List.getElem?_zip_eq_some]
  exact ⟨by simp [hk], h⟩

/-! ## variances -/

theorem sq_sum_ge (f : ℝ → ℝ) (hf : ∀ x, 0 ≤ f x) (xs : List ℝ) (i j : Nat) (hij : i < j) (x y : ℝ) (hx : xs[i]? = some x) (hy : xs[j]? = some y) :
    f x + f y ≤ (xs.map f).sum := by
  have nonneg : ∀ l : List ℝ, 0 ≤ (l.map f).sum := fun l => by
    induction l with
    | nil => simp
    | cons a l ih => simp only [List.map_cons, List.sum_cons]; have := hf a; linarith
  have one : ∀ (l : List ℝ) (k : Nat) (z : ℝ), l[k]? = some z → f z ≤ (l.map f).sum := fun l => by
    induction l with
    | nil => intro k z h; simp at h
    | cons a l ih =>
      intro k z h
      simp only [List.map_cons, List.sum_cons]
      cases k with
      | zero => simp only [List.getElem?_cons_zero, Option.some.injEq] at h; subst h; have := nonneg l; linarith
      | succ k => have := ih k z (by simpa using h); have := hf a; linarith
  induction xs generalizing i j with
  | nil => simp at hx
  | cons a l ih =>
    simp only [List.map_cons, List.sum_cons]
    cases i with
    | zero =>
      simp only [List.getElem?_cons_zero, Option.some.injEq] at hx
      subst hx
      cases j with
      | zero => omega
      | succ j => have := one l j y (by simpa using hy); linarith
    | succ i =>
      cases j with
      | zero => omega
      | succ j =>
        have := ih i j (by omega) (by simpa using hx) (by simpa using hy)
        have := hf a
        linarith

end GE.Fig

namespace GE
open Plot Fig

/-- **C129** the heat map of a covariance matrix has, on both axes, one tick per variable asked for (all by default), in order; exactly one number in
each cell, that of its row and column; and the second text colour exactly above the middle between the smallest and the largest number shown.
Unknown variables are refused. -/
theorem C129_covariance (t : Table) (hrn : t.rows.Nodup) (hcn : t.cols.Nodup) (vars : Option (List Str)) (vs : List Str) (hvs : vs = vars.getD t.cols)
    (hne : vs ≠ []) :
    ((∀ v ∈ vs, v ∈ t.rows ∧ v ∈ t.cols) → ∃ h, plotCovariance t vars = .ok h ∧
      h.xticks.length = vs.length ∧ h.yticks.length = vs.length ∧ (∀ (k : Nat) v, vs[k]? = some v → h.xticks[k]? = some (k, v) ∧ h.yticks[k]? = some (k, v)) ∧
      h.cells.length = vs.length * vs.length ∧ (∀ i j, i < vs.length → j < vs.length → ∃ c ∈ h.cells, c.x = j ∧ c.y = i) ∧
      (∀ c ∈ h.cells, ∀ (r k : Nat) rv cv, vs[c.y]? = some rv → vs[c.x]? = some cv → t.rows[r]? = some rv → t.cols[k]? = some cv → c.value = t.value r k) ∧
      (∀ lo hi, (∃ c ∈ h.cells, c.value = lo) → (∀ c ∈ h.cells, lo ≤ c.value) → (∃ c ∈ h.cells, c.value = hi) → (∀ c ∈ h.cells, c.value ≤ hi) →
        ∀ c ∈ h.cells, (c.second = true ↔ (lo + hi) / 2 < c.value))) ∧
    ((∃ v ∈ vs, v ∉ t.rows ∨ v ∉ t.cols) → plotCovariance t vars = .error .keyError) := by
  constructor
  · intro hall
    have hpos : 0 < vs.length := List.length_pos_iff.2 hne
    let s : Table := ⟨vs, vs, fun i j => t.value (t.rows.idxOf (vs.getD i [])) (t.cols.idxOf (vs.getD j []))⟩
    have hsel : t.select vs vs = .ok s := by
      unfold Table.select
      rw [if_pos]
      rw [Bool.and_eq_true, List.all_eq_true, List.all_eq_true]
      exact ⟨fun v hv => decide_eq_true (hall v hv).1, fun v hv => decide_eq_true (hall v hv).2⟩
    obtain ⟨cs, h1, h2, h3, h4, h5⟩ := annotate_ok s hpos hpos
    refine ⟨⟨(List.range vs.length).zip vs, (List.range vs.length).zip vs, cs⟩, ?_, by simp, by simp, ?_, h2, h3, ?_, h5⟩
    · unfold plotCovariance
      simp only
      rw [← hvs, hsel]
      simp only [heatMap]
      rw [show heatTicks s = .ok ((List.range vs.length).zip vs, (List.range vs.length).zip vs) from by
        unfold heatTicks; rw [if_pos rfl]]
      simp only [h1]
    · intro k v hv
      exact ⟨zip_range vs k v hv, zip_range vs k v hv⟩
    · intro c hc r k rv cv hrv hcv hr hk
      have hv := (h4 c hc).2.2
      rw [hv]
      show t.value (t.rows.idxOf (vs.getD c.y [])) (t.cols.idxOf (vs.getD c.x [])) = _
      have idx : ∀ (l : List Str) (n : Nat) (a : Str), l.Nodup → l[n]? = some a → l.idxOf a = n := by
        intro l n a hn ha
        have hlt : n < l.length := by
          by_contra hk; rw [List.getElem?_eq_none (by omega)] at ha; cases ha
        rw [List.getElem?_eq_getElem hlt] at ha
        cases ha
        exact hn.idxOf_getElem n hlt
      rw [List.getD_eq_getElem?_getD, List.getD_eq_getElem?_getD, hrv, hcv]
      simp only [Option.getD_some]
      rw [idx _ _ _ hrn hr, idx _ _ _ hcn hk]
  · rintro ⟨v, hv, hn⟩
    unfold plotCovariance Table.select
    simp only
    rw [← hvs, if_neg]
    rw [Bool.and_eq_true, List.all_eq_true, List.all_eq_true]
    rintro ⟨h1, h2⟩
    have h1 := of_decide_eq_true (h1 v hv)
    have h2 := of_decide_eq_true (h2 v hv)
    rcases hn with h | h
    · exact h h1
    · exact h h2

/-- **C129** a table that is not square has no heat map: the numbers of ticks of the two axes are exchanged. -/
theorem C129_heatmap_violated (t : Table) (h : t.rows.length ≠ t.cols.length) : heatMap t = .error .valueError := by
  unfold heatMap heatTicks
  rw [if_neg (Ne.symm h)]

/-- **C129** a square table drawn by itself: the ticks of the horizontal axis are the columns, those of the vertical axis the rows, and the cell at a column
and a row shows that entry. -/
theorem C129_heatmap_labels (t : Table) (hne : t.rows ≠ []) (h : t.rows.length = t.cols.length) : ∃ m, heatMap t = .ok m ∧
    m.xticks.length = t.cols.length ∧ m.yticks.length = t.rows.length ∧
    (∀ (k : Nat) v, t.cols[k]? = some v → m.xticks[k]? = some (k, v)) ∧ (∀ (k : Nat) v, t.rows[k]? = some v → m.yticks[k]? = some (k, v)) ∧
    m.cells.length = t.rows.length * t.cols.length ∧ (∀ i j, i < t.rows.length → j < t.cols.length → ∃ c ∈ m.cells, c.x = j ∧ c.y = i) ∧
    ∀ c ∈ m.cells, c.x < t.cols.length ∧ c.y < t.rows.length ∧ c.value = t.value c.y c.x := by
  have hpos : 0 < t.rows.length := List.length_pos_iff.2 hne
  obtain ⟨cs, h1, h2, h3, h4, _⟩ := annotate_ok t hpos (h ▸ hpos)
  refine ⟨⟨(List.range t.rows.length).zip t.cols, (List.range t.cols.length).zip t.rows, cs⟩, ?_, by simp [h], by simp [h], ?_, ?_, h2, h3, h4⟩
  · unfold heatMap heatTicks
    rw [if_pos h.symm]
    simp only [h1]
  · intro k v hv
    show ((List.range t.rows.length).zip t.cols)[k]? = _
    rw [h]; exact zip_range _ k v hv
  · intro k v hv
    show ((List.range t.cols.length).zip t.rows)[k]? = _
    rw [← h]; exact zip_range _ k v hv

/-- non-vacuity: two of three variables -/
example : ∃ (t : Table) (vs : List Str), t.rows.Nodup ∧ t.cols.Nodup ∧ vs ≠ [] ∧ ∀ v ∈ vs, v ∈ t.rows ∧ v ∈ t.cols :=
  ⟨⟨["Y".toList, "C".toList, "K".toList], ["Y".toList, "C".toList, "K".toList], fun i j => i + j⟩, ["K".toList, "Y".toList], by decide, by decide, by simp,
    by decide⟩

/-- **C129** the figure of an estimated matrix: a panel stands at the place of the entry it shows; of a symmetric matrix every pair of different shocks is
shown once, otherwise every entry; the left column and the lowest row are labelled with the shock of their row and column. -/
theorem C129_matrix (names : List Str) (symmetrical : Bool) :
    (∀ p ∈ plotMatrix names symmetrical, p.shown = (p.row, p.col) ∧ p.row < names.length ∧ p.col < names.length ∧
      (p.ylabel = if p.col = 0 then names[p.row]? else none) ∧ (p.xlabel = if p.row + 1 = names.length then names[p.col]? else none)) ∧
    (∀ i j, i < names.length → j < names.length → ((∃ p ∈ plotMatrix names symmetrical, p.row = i ∧ p.col = j) ↔ symmetrical = false ∨ j < i)) ∧
    ((plotMatrix names symmetrical).map fun p => (p.row, p.col)).Nodup ∧
    (2 ≤ names.length → ∀ n ∈ names, ∃ p ∈ plotMatrix names symmetrical, p.ylabel = some n ∨ p.xlabel = some n) := by
  have hmem : ∀ p, p ∈ plotMatrix names symmetrical ↔ ∃ i j, i < names.length ∧ j < names.length ∧ (symmetrical = false ∨ j < i) ∧
      p = ⟨i, j, (i, j), if j = 0 then names[i]? else none, if i = names.length - 1 then names[j]? else none⟩ := by
    intro p
    simp only [plotMatrix, List.mem_flatMap, List.mem_filterMap, List.mem_range]
    constructor
    · rintro ⟨i, hi, j, hj, h⟩
      split at h
      · cases h
      · rename_i hc
        cases h
        refine ⟨i, j, hi, hj, ?_, rfl⟩
        cases symmetrical
        · exact .inl rfl
        · right
          simpa using hc
    · rintro ⟨i, j, hi, hj, hs, rfl⟩
      refine ⟨i, hi, j, hj, ?_⟩
      rw [if_neg]
      rcases hs with rfl | hs
      · simp
      · simp [hs]
  refine ⟨?_, ?_, ?_, ?_⟩
  · intro p hp
    obtain ⟨i, j, hi, hj, _, rfl⟩ := (hmem p).1 hp
    refine ⟨rfl, hi, hj, rfl, ?_⟩
    show (if i = names.length - 1 then _ else _) = if i + 1 = names.length then _ else _
    by_cases h : i + 1 = names.length
    · rw [if_pos h, if_pos (by omega)]
    · rw [if_neg h, if_neg (by omega)]
  · intro i j hi hj
    constructor
    · rintro ⟨p, hp, rfl, rfl⟩
      obtain ⟨i', j', _, _, hs, rfl⟩ := (hmem p).1 hp
      exact hs
    · intro hs
      exact ⟨_, (hmem _).2 ⟨i, j, hi, hj, hs, rfl⟩, rfl, rfl⟩
  · unfold plotMatrix
    rw [List.map_flatMap, List.nodup_flatMap]
    constructor
    · intro i _
      rw [List.map_filterMap]
      refine List.Nodup.filterMap ?_ List.nodup_range
      intro a b c ha hb
      simp only [Option.mem_def, Option.map_eq_some_iff] at ha hb
      obtain ⟨p, hp, rfl⟩ := ha
      obtain ⟨q, hq, he⟩ := hb
      split at hp
      · cases hp
      · split at hq
        · cases hq
        · cases hp; cases hq
          simpa using he.symm
    · refine List.Pairwise.imp_of_mem ?_ List.nodup_range
      intro a b _ _ hab
      intro x h1 h2
      simp only [List.map_filterMap, List.mem_filterMap, Option.map_eq_some_iff] at h1 h2
      obtain ⟨j, _, p, hp, rfl⟩ := h1
      obtain ⟨k, _, q, hq, he⟩ := h2
      split at hp
      · cases hp
      · split at hq
        · cases hq
        · cases hp; cases hq
          simp only [Prod.mk.injEq] at he
          exact hab he.1.symm
  · intro h2 n hn
    obtain ⟨k, hk⟩ := List.mem_iff_getElem?.1 hn
    have hlt : k < names.length := by
      by_contra hge; rw [List.getElem?_eq_none (by omega)] at hk; cases hk
    by_cases h0 : k = 0
    · subst h0
      refine ⟨_, (hmem _).2 ⟨names.length - 1, 0, by omega, by omega, .inr (by omega), rfl⟩, .inr ?_⟩
      simpa using hk
    · refine ⟨_, (hmem _).2 ⟨k, 0, hlt, by omega, .inr (by omega), rfl⟩, .inl ?_⟩
      simpa using hk

/-- **C129** the pair plot of solvability results: a panel for every pair of parameters asked for (all by default) on and below the diagonal, the one of
the column across, the one of the row upwards, densities exactly on the diagonal, labels in the left column and the lowest row; parameters that
are not available are refused. -/
theorem C129_solvability (cols : List Column) (params : Option (List Str)) (use : List Str) (hu : use = params.getD (solvParams cols)) :
    ((∃ p ∈ use, p ∉ solvParams cols) → plotSolvability cols params = .error .valueError) ∧
    (use ≠ [] → (∀ p ∈ use, p ∈ solvParams cols) → ∃ ps, plotSolvability cols params = .ok ps ∧
      (∀ i j, (∃ p ∈ ps, p.row = i ∧ p.col = j) ↔ j ≤ i ∧ i < use.length) ∧
      (∀ p ∈ ps, use[p.row]? = some p.y ∧ use[p.col]? = some p.x ∧ (p.density = true ↔ p.row = p.col) ∧
        (p.ylabel = if p.col = 0 then some p.y else none) ∧ (p.xlabel = if p.row + 1 = use.length then some p.x else none))) := by
  constructor
  · rintro ⟨p, hp, hn⟩
    unfold plotSolvability
    simp only
    rw [← hu, if_neg]
    intro h
    exact hn (of_decide_eq_true (List.all_eq_true.1 h p hp))
  · intro hne hall
    have hpos : use.length ≠ 0 := fun h => hne (List.length_eq_zero_iff.1 h)
    refine ⟨_, by
      unfold plotSolvability
      simp only
      rw [← hu, if_pos (List.all_eq_true.2 fun p hp => decide_eq_true (hall p hp)), if_neg hpos], ?_, ?_⟩
    · intro i j
      simp only [List.mem_flatMap, List.mem_map, List.mem_filter, decide_eq_true_eq]
      constructor
      · rintro ⟨p, ⟨r, hr, c, ⟨hc, hle⟩, rfl⟩, rfl, rfl⟩
        have := List.mem_zipIdx_iff_getElem?.1 hr
        refine ⟨hle, ?_⟩
        by_contra hge
        rw [List.getElem?_eq_none (by simpa using hge)] at this; cases this
      · rintro ⟨hji, hi⟩
        exact ⟨_, ⟨(use[i], i), List.mem_zipIdx_iff_getElem?.2 (List.getElem?_eq_getElem hi), (use[j]'(by omega), j),
          ⟨List.mem_zipIdx_iff_getElem?.2 (List.getElem?_eq_getElem (by omega)), hji⟩, rfl⟩, rfl, rfl⟩
    · intro p hp
      simp only [List.mem_flatMap, List.mem_map, List.mem_filter, decide_eq_true_eq] at hp
      obtain ⟨r, hr, c, ⟨hc, hle⟩, rfl⟩ := hp
      have hr' := List.mem_zipIdx_iff_getElem?.1 hr
      have hc' := List.mem_zipIdx_iff_getElem?.1 hc
      refine ⟨hr', hc', by simp, rfl, ?_⟩
      show (if r.2 = use.length - 1 then _ else _) = if r.2 + 1 = use.length then _ else _
      by_cases h : r.2 + 1 = use.length
      · rw [if_pos h, if_pos (by omega)]
      · rw [if_neg h, if_neg (by omega)]

/-- **C129** which parameters are available: no result column, nothing called `success`; columns with the same number in two or more draws are left
out; with a single draw, or if two draws differ by more than about `1e-9` times the square root of the number of draws, a column is kept. -/
theorem C129_parameters_partial (cols : List Column) (c : Column) (hc : c ∈ cols) (hm : c.name ∉ ["failure_step".toList, "norm_deterministic".toList, "norm_stochastic".toList])
    (hs : c.name ≠ "success".toList) (hu : ∀ c' ∈ cols, c'.name = c.name → c' = c) :
    (2 ≤ c.values.length → (∀ x ∈ c.values, ∀ y ∈ c.values, x = y) → c.name ∉ solvParams cols) ∧
    (c.values.length ≤ 1 → c.name ∈ solvParams cols) ∧
    (∀ (i j : Nat) x y, i < j → c.values[i]? = some x → c.values[j]? = some y → 2 * ((c.values.length : ℝ) - 1) / 10 ^ 18 ≤ (x - y) ^ 2 → c.name ∈ solvParams cols) ∧
    (∀ n ∈ solvParams cols, ∃ c ∈ cols, c.name = n ∧ n ∉ ["failure_step".toList, "norm_deterministic".toList, "norm_stochastic".toList]) := by
  have hmem : ∀ n, n ∈ solvParams cols ↔ ∃ c ∈ cols, c.name = n ∧ n ∉ metaCols ∧ isConstant c = false ∧ n ≠ "success".toList := by
    intro n
    simp only [solvParams, List.mem_filter, List.mem_map, Bool.and_eq_true, decide_eq_true_eq, Bool.not_eq_true']
    constructor
    · rintro ⟨⟨c, ⟨h1, h2, h3⟩, rfl⟩, h4⟩; exact ⟨c, h1, rfl, h2, h3, h4⟩
    · rintro ⟨c, h1, rfl, h2, h3, h4⟩; exact ⟨⟨c, ⟨h1, h2, h3⟩, rfl⟩, h4⟩
  have hiff : c.name ∈ solvParams cols ↔ isConstant c = false := by
    rw [hmem]
    constructor
    · rintro ⟨c', h1, h2, _, h3, _⟩
      rw [← hu c' h1 h2]; exact h3
    · intro h; exact ⟨c, hc, rfl, hm, h, hs⟩
  refine ⟨?_, ?_, ?_, ?_⟩
  · intro h2 heq
    rw [hiff]
    have hl : ¬ c.values.length < 2 := by omega
    obtain ⟨a, ha⟩ : ∃ a, a ∈ c.values := by
      cases hv : c.values with
      | nil => rw [hv] at h2; simp at h2
      | cons a l => exact ⟨a, by simp⟩
    have hrep : c.values = List.replicate c.values.length a := List.eq_replicate_iff.2 ⟨rfl, fun b hb => heq b hb a ha⟩
    have hn : (c.values.length : ℝ) ≠ 0 := by
      have : (0 : ℝ) < c.values.length := by exact_mod_cast (by omega : 0 < c.values.length)
      exact this.ne'
    have hsum : c.values.sum / c.values.length = a := by
      rw [hrep]
      simp only [List.sum_replicate, List.length_replicate, nsmul_eq_mul]
      field_simp
    have hvar : variance c.values = some 0 := by
      unfold variance
      rw [if_neg hl]
      simp only [hsum]
      have : (c.values.map fun x => (x - a) ^ 2).sum = 0 := by
        rw [hrep, List.map_replicate]
        simp
      rw [this, zero_div]
    unfold isConstant
    rw [hvar]
    simp
  · intro h1
    rw [hiff]
    unfold isConstant variance
    rw [if_pos (by omega)]
  · intro i j x y hij hx hy hge
    rw [hiff]
    have hjl : j < c.values.length := by
      by_contra hge; rw [List.getElem?_eq_none (by omega)] at hy; cases hy
    have hl : ¬ c.values.length < 2 := by omega
    unfold isConstant variance
    rw [if_neg hl]
    simp only
    generalize hmm : c.values.sum / c.values.length = m
    have hpos : (0 : ℝ) < (c.values.length : ℝ) - 1 := by
      have : (2 : ℝ) ≤ c.values.length := by exact_mod_cast (by omega : 2 ≤ c.values.length)
      linarith
    have hs := sq_sum_ge (fun x => (x - m) ^ 2) (fun x => sq_nonneg _) c.values i j hij x y hx hy
    rw [decide_eq_false]
    rw [not_lt, le_div_iff₀ hpos]
    have h3 : (x - y) ^ 2 / 2 ≤ (x - m) ^ 2 + (y - m) ^ 2 := by nlinarith [sq_nonneg ((x - m) + (y - m))]
    have h4 : 1 / 10 ^ 18 * ((c.values.length : ℝ) - 1) ≤ (x - y) ^ 2 / 2 := by
      rw [le_div_iff₀ (by norm_num)]
      calc 1 / 10 ^ 18 * ((c.values.length : ℝ) - 1) * 2 = 2 * ((c.values.length : ℝ) - 1) / 10 ^ 18 := by ring
        _ ≤ _ := hge
    linarith
  · intro n hn
    obtain ⟨c, h1, h2, h3, _⟩ := (hmem n).1 hn
    exact ⟨c, h1, h2, h3⟩

/-- **C129** a parameter that varies, but only on a scale below `1e-9`, is taken for constant and not shown. -/
theorem C129_parameters_violated : ∃ c : Column, (∃ x ∈ c.values, ∃ y ∈ c.values, x ≠ y) ∧ solvParams [c] = [] ∧
    plotSolvability [c] (some [c.name]) = .error .valueError := by
  have hcon : isConstant ⟨"sigma".toList, [0, 1 / 10 ^ 10]⟩ = true := by
    unfold isConstant variance
    simp only [List.length_cons, List.length_nil, List.sum_cons, List.sum_nil, List.map_cons, List.map_nil]
    rw [if_neg (by decide)]
    simp only [decide_eq_true_eq]
    norm_num
  have hs : solvParams [⟨"sigma".toList, [0, 1 / 10 ^ 10]⟩] = [] := by
    unfold solvParams
    rw [List.filter_cons_of_neg (by rw [hcon]; simp)]
    rfl
  refine ⟨⟨"sigma".toList, [0, 1 / 10 ^ 10]⟩, ⟨0, by simp, 1 / 10 ^ 10, by simp, by norm_num⟩, hs, ?_⟩
  exact (C129_solvability _ _ _ rfl).1 ⟨"sigma".toList, by simp, by rw [hs]; simp⟩

/-- **C129** a parameter called `success` is never shown. -/
theorem C129_success_violated (cols : List Column) : "success".toList ∉ solvParams cols := by
  simp [solvParams]

/-- **C129** time series: one panel per variable asked for (all by default), in order and in its place; unknown ones are refused. -/
theorem C129_timeseries (columns : List Str) (vars : Option (List Str)) (c : Nat) (hc : c ≠ 0) (vs : List Str) (hvs : vs = vars.getD columns) :
    ((∃ v ∈ vs, v ∉ columns) → plotTimeseries columns vars (some c) = .error .keyError) ∧
    ((∀ v ∈ vs, v ∈ columns) → ∃ ps g, plotTimeseries columns vars (some c) = .ok ps ∧ prepareGrid c vs.length = .ok g ∧ ps.map Prod.fst = vs ∧
      ps.map Prod.snd = g.locs) ∧
    (columns ≠ [] → plotTimeseries columns vars none = plotTimeseries columns vars (some (min 4 columns.length))) := by
  obtain ⟨g, hg, _, hlen, _⟩ := C113_layout c vs.length hc
  refine ⟨?_, ?_, fun _ => rfl⟩
  · rintro ⟨v, hv, hn⟩
    unfold plotTimeseries
    simp only [Option.getD_some]
    rw [← hvs, hg]
    simp only
    rw [if_neg]
    intro h
    exact hn (of_decide_eq_true (List.all_eq_true.1 h v hv))
  · intro h
    refine ⟨vs.zip g.locs, g, ?_, hg, ?_, ?_⟩
    · unfold plotTimeseries
      simp only [Option.getD_some]
      rw [← hvs, hg]
      simp only
      rw [if_pos (List.all_eq_true.2 fun v hv => decide_eq_true (h v hv))]
    · rw [List.map_fst_zip]; omega
    · rw [List.map_snd_zip]; omega

/-- **C129** the sensitivity figure: one panel per parameter asked for (all by default), in order and in its place; the value announced is the one given as
keyword argument, else the model's; every arrow starts at an eigenvalue and ends at its first-order position after that parameter's
relative change; only the first panel has the legend. Unknown parameters and an empty selection are refused. -/
theorem C129_sensitivity_partial (s : Sens) (hn : s.params.Nodup) (defaults kwargs : List (Str × ℝ)) (hk : (dkeys kwargs).Nodup)
    (params : Option (List Str)) (perturbation minFrac : ℝ) (cols : Option Nat) (ps : List Str) (hps : ps = params.getD s.params) :
    ((∃ p ∈ ps, p ∉ s.params) → plotSensitivity s defaults kwargs params perturbation minFrac cols = .error .valueError) ∧
    (ps = [] → plotSensitivity s defaults kwargs params perturbation minFrac cols = .error .valueError) ∧
    (ps ≠ [] → (∀ p ∈ ps, p ∈ s.params) → ∃ fig g c, plotSensitivity s defaults kwargs params perturbation minFrac cols = .ok fig ∧
      (cols = none ∨ cols = some 0 → c = min 4 ps.length) ∧ (∀ n, cols = some (n + 1) → c = n + 1) ∧
      prepareGrid c ps.length = .ok g ∧ fig.length = ps.length ∧
      ∀ (k : Nat) p (q : SensPanel), ps[k]? = some p → fig[k]? = some q → q.param = p ∧ g.locs[k]? = some q.loc ∧ (q.legend = true ↔ k = 0) ∧
        (∀ v, p ∈ dkeys defaults → dget kwargs p = some v → q.value = v) ∧ (∀ v, dget kwargs p = none → dget defaults p = some v → q.value = v) ∧
        ∀ (i n : Nat) e, s.params[n]? = some p → (i, e) ∈ q.arrows → ∃ x d, s.points[i]? = some x ∧ (s.grads n)[i]? = some d ∧
          e = (x.1 + d.1 * (q.value * perturbation), x.2 + d.2 * (q.value * perturbation))) := by
  refine ⟨?_, ?_, ?_⟩
  · rintro ⟨p, hp, hnp⟩
    cases params with
    | none => rw [hps] at hp; exact absurd hp hnp
    | some l =>
      have e : ps = l := hps
      subst e
      unfold plotSensitivity sensParams
      simp only
      rw [if_neg]
      intro h
      exact hnp (of_decide_eq_true (List.all_eq_true.1 h p hp))
  · intro hnil
    subst hnil
    cases params with
    | none =>
      have : s.params = [] := hps.symm
      unfold plotSensitivity sensParams
      simp [this]
    | some l =>
      have : l = [] := hps.symm
      unfold plotSensitivity sensParams
      simp [this]
  · intro hne hall
    have hpos : 0 < ps.length := List.length_pos_iff.2 hne
    have hval : sensParams params s.params = .ok ps := by
      cases params with
      | none => rw [hps]; rfl
      | some l =>
        have e : ps = l := hps
        subst e
        unfold sensParams
        simp only
        rw [if_pos (List.all_eq_true.2 fun v hv => decide_eq_true (hall v hv))]
    obtain ⟨c, hc, hc0, hc1, hc2⟩ : ∃ c, sensCols cols ps.length = c ∧ c ≠ 0 ∧
        (cols = none ∨ cols = some 0 → c = min 4 ps.length) ∧ (∀ n, cols = some (n + 1) → c = n + 1) := by
      rcases cols with _ | _ | n
      · exact ⟨_, rfl, by show min 4 ps.length ≠ 0; omega, fun _ => rfl, by simp⟩
      · exact ⟨_, rfl, by show min 4 ps.length ≠ 0; omega, fun _ => rfl, by simp⟩
      · exact ⟨n + 1, rfl, by simp, by simp, by simp⟩
    obtain ⟨g, hg, _, hlen, _⟩ := C113_layout c ps.length hc0
    refine ⟨_, g, c, by
      unfold plotSensitivity
      rw [hval]
      simp only
      rw [if_neg (by omega), hc, hg], hc1, hc2, hg, by simp [hlen], ?_⟩
    intro k p q hp hq
    simp only [List.getElem?_map, Option.map_eq_some_iff] at hq
    obtain ⟨⟨⟨p', loc⟩, k'⟩, hz, rfl⟩ := hq
    rw [List.getElem?_zipIdx, Option.map_eq_some_iff] at hz
    obtain ⟨pl, hz, he⟩ := hz
    simp only [Prod.mk.injEq] at he
    obtain ⟨rfl, rfl⟩ := he
    obtain ⟨h1, h2⟩ := List.getElem?_zip_eq_some.1 hz
    rw [hp] at h1
    obtain rfl : p = p' := by simpa using h1
    have hfil : (dkeys (kwargs.filter fun k => decide (k.1 ∈ dkeys defaults))).Nodup := by
      unfold dkeys at hk ⊢
      exact List.Nodup.sublist (List.Sublist.map _ List.filter_sublist) hk
    have hrev : (dkeys (kwargs.filter fun k => decide (k.1 ∈ dkeys defaults)).reverse).Nodup := by
      simpa [dkeys] using hfil
    refine ⟨rfl, h2, by simp, ?_, ?_, ?_⟩
    · intro v hd hkv
      show sensValue defaults kwargs p = v
      unfold sensValue
      rw [dget_dupdate, dget_of_mem _ hrev p v]
      · rfl
      · rw [List.mem_reverse, List.mem_filter]
        exact ⟨mem_of_dget _ _ _ hkv, decide_eq_true hd⟩
    · intro v hkn hdv
      show sensValue defaults kwargs p = v
      unfold sensValue
      have : dget (kwargs.filter fun k => decide (k.1 ∈ dkeys defaults)).reverse p = none := by
        rw [dget_eq_none] at hkn ⊢
        intro hm
        apply hkn
        simp only [dkeys, List.map_reverse, List.mem_reverse, List.mem_map, List.mem_filter] at hm ⊢
        obtain ⟨a, ⟨ha, _⟩, e⟩ := hm
        exact ⟨a, ha, e⟩
      rw [dget_dupdate, this, hdv]
      rfl
    · intro i n e hpn harr
      have hidx : s.params.idxOf p = n := by
        have hlt : n < s.params.length := by
          by_contra hk; rw [List.getElem?_eq_none (by omega)] at hpn; cases hpn
        rw [List.getElem?_eq_getElem hlt] at hpn
        cases hpn
        exact hn.idxOf_getElem n hlt
      have := (C115_arrows s.points (s.grads (s.params.idxOf p)) (s.mags (s.params.idxOf p)) (sensValue defaults kwargs p) perturbation minFrac i).1 e harr
      rw [hidx] at this
      exact this

/-- **C129** a parameter the model has no value for is drawn at 1, whatever the keyword arguments say. -/
theorem C129_sensitivity_default (s : Sens) (p : Str) (hp : s.params = [p]) (defaults kwargs : List (Str × ℝ)) (hd : p ∉ dkeys defaults)
    (perturbation minFrac : ℝ) : ∃ q, plotSensitivity s defaults kwargs none perturbation minFrac none = .ok [q] ∧ q.param = p ∧ q.value = 1 := by
  obtain ⟨g, hg, -, hlen, -⟩ := C113_layout (sensCols none 1) 1 (by decide)
  obtain ⟨loc, hloc⟩ := List.length_eq_one_iff.1 hlen
  have hv : sensValue defaults kwargs p = 1 := by
    unfold sensValue
    rw [(dget_eq_none _ _).2]
    · rfl
    · rw [mem_dkeys_dupdate, not_or]
      refine ⟨hd, ?_⟩
      intro hm
      obtain ⟨a, ha, rfl⟩ := List.mem_map.1 hm
      exact hd (of_decide_eq_true (List.mem_filter.1 ha).2)
  refine ⟨_, by
    unfold plotSensitivity sensParams
    simp only [hp, List.length_singleton]
    rw [if_neg (by decide), hg]
    simp only [hloc]
    rfl, rfl, hv⟩

/-- **C129** for sensitivities computed beforehand at another value of the parameter, the title and the arrows use the model's value, not that one. -/
theorem C129_sensitivity_violated (s : Sens) (p : Str) (hp : s.params = [p]) (v at' : ℝ) (hv : v ≠ at') (perturbation minFrac : ℝ) :
    ∃ q, plotSensitivity s [(p, v)] [] none perturbation minFrac none = .ok [q] ∧ q.value ≠ at' := by
  obtain ⟨fig, g, c, h1, _, _, _, h2, h3⟩ := (C129_sensitivity_partial s (by rw [hp]; simp) [(p, v)] [] (by simp [dkeys]) none perturbation minFrac none [p]
    (by rw [hp]; rfl)).2.2 (by simp) (by rw [hp]; simp)
  obtain ⟨q, rfl⟩ := List.length_eq_one_iff.1 h2
  refine ⟨q, h1, ?_⟩
  have := (h3 0 p q rfl rfl).2.2.2.2.1 v rfl (by simp [dget])
  rw [this]
  exact hv

/-- **C129** the legend of the shocks names, for every shock asked for and in order, the line drawn for it for the first scenario. -/
theorem C129_shock_legend (irf : IrfArg) (vars shocks : Sel) (cols : Option Nat) (ps : List Panel) (h : plotIrf irf vars shocks cols = .ok ps)
    (m : List (Str × Irf)) (hm : Scenarios irf m) (first : Str × Irf) (hf : m.head? = some first) (av ss : List Str) (hav : first.2.shocks = some av)
    (hss : Wanted shocks av ss) :
    ∃ leg, shockLegend ps (some ss) = .ok leg ∧ leg.length = ss.length ∧
      ∀ (k : Nat) s, ss[k]? = some s → leg[k]? = some (⟨first.1, 0, some s⟩, s) := by
  obtain ⟨m', first', vs, ss', dr, hm', hf', hw, hne, _, _, hs, hdr, hlen, g, rows, keep, _, _, hps⟩ := (C114_irf ..).1 h
  have hmm : m' = m := by
    have e1 := (scenarios_iff irf m).2 hm
    have e2 := (scenarios_iff irf m').2 hm'
    rw [e1] at e2
    exact (Except.ok.inj e2).symm
  subst hmm
  rw [hf] at hf'
  cases hf'
  rw [hav] at hs
  simp only at hs
  obtain ⟨s0, rfl, hw0⟩ := hs
  have hs0 : s0 = ss := by
    cases shocks with
    | all => exact hw0.trans hss.symm
    | one s => exact hw0.trans hss.symm
    | many l => exact hw0.trans hss.symm
    | other => exact absurd hss (by simp [Wanted])
  subst hs0
  cases ps with
  | nil =>
    rw [List.length_nil] at hlen
    exact absurd (List.length_eq_zero_iff.1 hlen.symm) hne
  | cons p rest =>
    obtain ⟨v, hv⟩ : ∃ v, vs[0]? = some v := ⟨_, List.getElem?_eq_getElem (List.length_pos_iff.2 hne)⟩
    obtain ⟨_, _, hl, _⟩ := hps 0 v p hv rfl
    cases m' with
    | nil => cases hf
    | cons f mrest =>
      cases hf
      cases hdr with
      | cons h1 h2 =>
        rename_i d0 drest
        have hd0 : d0 = s0.map some := by
          unfold Drawn at h1
          rw [hav] at h1
          exact h1.1
        have htake : p.lines.take s0.length = s0.map fun s => (⟨first.1, 0, some s⟩ : Line) := by
          rw [hl]
          unfold linesOf
          rw [List.zipIdx_cons, List.zip_cons_cons, List.flatMap_cons, hd0, List.take_append_of_le_length (by simp)]
          rw [List.take_of_length_le (by simp)]
          simp
        refine ⟨_, rfl, ?_, ?_⟩
        · rw [htake]; simp
        · intro k s hk
          rw [htake, List.getElem?_zip_eq_some]
          exact ⟨by simp [hk], hk⟩

/-- **C129** the legend of the scenarios pairs every name with the line style of its scenario, when there are several and the first has a name. -/
theorem C129_scenario_legend_partial (names : List Str) (h2 : 2 ≤ names.length) (h0 : names[0]? ≠ some []) :
    (scenarioLegend names).length = names.length ∧ ∀ (k : Nat) n, names[k]? = some n → (scenarioLegend names)[k]? = some (k % 4, n) := by
  cases names with
  | nil => simp at h2
  | cons n ns =>
    have hn : n ≠ [] := by simpa using h0
    have e : scenarioLegend (n :: ns) = (n :: ns).zipIdx.map fun p => (p.2 % 4, p.1) := by
      show (if 1 < (n :: ns).length ∧ n ≠ [] then (n :: ns).zipIdx.map (fun p => (p.2 % 4, p.1)) else []) = _
      rw [if_pos ⟨by omega, hn⟩]
    rw [e]
    refine ⟨by simp, ?_⟩
    intro k x hx
    rw [List.getElem?_map, List.getElem?_zipIdx, hx]
    simp

/-- **C129** if the first scenario has the empty name, the others are not told apart by a legend. -/
theorem C129_scenario_legend_violated (names : List Str) : scenarioLegend ([] :: names) = [] := by
  simp [scenarioLegend]

/-- non-vacuity: a figure of impulse responses of two scenarios with two shocks has a legend of two entries -/
example : ∃ ps leg, plotIrf (.dict [("a".toList, ⟨["Y".toList], some ["e".toList, "u".toList]⟩), ("b".toList, ⟨["Y".toList], some ["u".toList, "e".toList]⟩)])
    .all (.many ["u".toList, "e".toList]) none = .ok ps ∧ shockLegend ps (some ["u".toList, "e".toList]) = .ok leg ∧ leg.map Prod.snd = ["u".toList, "e".toList] ∧
    scenarioLegend ["a".toList, "b".toList] = [(0, "a".toList), (1, "b".toList)] := ⟨_, _, rfl, rfl, rfl, rfl⟩

end GE
