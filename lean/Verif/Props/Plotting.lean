import Verif.Model.Plotting
import Verif.Model.Diagnostics
import Mathlib.Algebra.BigOperators.Group.List.Basic
import Verif.Props.Sym
import Verif.Props.ObsEq
import Mathlib.Tactic.Linarith
import Mathlib.Tactic.Ring
/-! # C113–C116: figures -/

namespace GE
namespace Plot

/-- a panel covers a cell of the grid -/
def Loc.Has (l : Loc) (r c : Nat) : Prop := l.top ≤ r ∧ r < l.bottom ∧ l.left ≤ c ∧ c < l.right

/-- a panel stands below another: lower, with a column in common -/
def Loc.Below (l m : Loc) : Prop := m.bottom ≤ l.top ∧ ∃ c, (l.left ≤ c ∧ c < l.right) ∧ m.left ≤ c ∧ c < m.right

/-- where panel `k` of `n` is, in a grid of `c` columns -/
def locAt (c n k : Nat) : Loc :=
  let pad := if k / c = n / c then c - n % c else 0
  ⟨k / c * 2, (k / c + 1) * 2, pad + k % c * 2, pad + (k % c + 1) * 2⟩

theorem grid_range (c : Nat) (f : Nat → Nat → Loc) (hc : 0 < c) : ∀ a, ((List.range a).flatMap fun i => (List.range c).map (f i)) =
    (List.range (a * c)).map fun k => f (k / c) (k % c)
  | 0 => by simp
  | a + 1 => by
    rw [List.range_succ, List.flatMap_append, grid_range c f hc a, Nat.add_mul, Nat.one_mul, List.range_add, List.map_append]
    congr 1
    simp only [List.flatMap_cons, List.flatMap_nil, List.append_nil, List.map_map]
    refine List.map_congr_left fun j hj => ?_
    have hj : j < c := by simpa using hj
    simp only [Function.comp]
    rw [show a * c + j = j + c * a by rw [Nat.mul_comm]; omega, Nat.add_mul_div_left _ _ hc, Nat.add_mul_mod_self_left,
      Nat.div_eq_of_lt hj, Nat.mod_eq_of_lt hj, Nat.zero_add]

theorem prepareGrid_eq (c n : Nat) (hc : c ≠ 0) : prepareGrid c n =
    .ok ⟨2 * (n / c + if 0 < n % c then 1 else 0), 2 * c, (List.range n).map (locAt c n)⟩ := by
  have hc' : 0 < c := Nat.pos_of_ne_zero hc
  unfold prepareGrid
  rw [if_neg hc]
  simp only [Except.ok.injEq, Grid.mk.injEq, true_and]
  have hsub : n / c + (if 0 < n % c then 1 else 0) - (if 0 < n % c then 1 else 0) = n / c := Nat.add_sub_cancel ..
  rw [hsub, grid_range c (fun i j => ⟨i * 2, (i + 1) * 2, j * 2, (j + 1) * 2⟩) hc']
  have hn : n = n / c * c + n % c := by rw [Nat.mul_comm]; exact (Nat.div_add_mod n c).symm
  conv_rhs => rw [show List.range n = List.range (n / c * c + n % c) by rw [← hn]]
  rw [List.range_add, List.map_append]
  congr 1
  · refine List.map_congr_left fun k hk => ?_
    have hk : k < n / c * c := by simpa using hk
    have : k / c < n / c := by rwa [Nat.div_lt_iff_lt_mul hc']
    simp only [locAt]
    rw [if_neg (by omega)]
    simp
  · by_cases hr : 0 < n % c
    · simp only [if_pos hr, List.map_map]
      refine List.map_congr_left fun j hj => ?_
      have hj : j < n % c := by simpa using hj
      have hjc : j < c := lt_trans hj (Nat.mod_lt n hc')
      have h1 : (n / c * c + j) / c = n / c := by
        rw [show n / c * c + j = j + c * (n / c) by rw [Nat.mul_comm]; omega, Nat.add_mul_div_left _ _ hc', Nat.div_eq_of_lt hjc, Nat.zero_add]
      have h2 : (n / c * c + j) % c = j := by
        rw [show n / c * c + j = j + c * (n / c) by rw [Nat.mul_comm]; omega, Nat.add_mul_mod_self_left, Nat.mod_eq_of_lt hjc]
      simp only [Function.comp, locAt, h1, h2, if_true]
      simp
    · simp [show n % c = 0 by omega]

theorem locs_get {c n : Nat} (hc : c ≠ 0) {g : Grid} (h : prepareGrid c n = .ok g) (k : Nat) :
    g.locs[k]? = if k < n then some (locAt c n k) else none := by
  rw [prepareGrid_eq c n hc] at h
  cases h
  rw [List.getElem?_map]
  by_cases hk : k < n
  · rw [if_pos hk, List.getElem?_range hk]; rfl
  · rw [if_neg hk, List.getElem?_eq_none (by simpa using hk)]; rfl

theorem rows_eq (c n : Nat) (hc : c ≠ 0) : ∃ r, sortBy (fun a b => decide (a ≤ b)) ((List.range n).map (· / c)).eraseDups = List.range r ∧
    (0 < n → r = (n - 1) / c + 1) ∧ (n = 0 → r = 0) := by
  have hc' : 0 < c := Nat.pos_of_ne_zero hc
  refine ⟨if n = 0 then 0 else (n - 1) / c + 1, ?_, fun h => if_neg (by omega), fun h => if_pos h⟩
  have hs := Ldr.sortBy_sorted (fun a b : Nat => decide (a ≤ b)) (by simp; omega) (by simp; omega) ((List.range n).map (· / c)).eraseDups
  have hp := Ldr.sortBy_perm (fun a b : Nat => decide (a ≤ b)) ((List.range n).map (· / c)).eraseDups
  have hnd := hp.nodup_iff.2 (OEq.nodup_eraseDups _)
  have hm : ∀ x, x ∈ ((List.range n).map (· / c)).eraseDups ↔ x ∈ List.range (if n = 0 then 0 else (n - 1) / c + 1) := by
    intro x
    rw [List.mem_eraseDups]
    simp only [List.mem_map, List.mem_range]
    constructor
    · rintro ⟨k, hk, rfl⟩
      rw [if_neg (by omega)]
      have : k / c ≤ (n - 1) / c := Nat.div_le_div_right (by omega)
      omega
    · intro h
      by_cases hn : n = 0
      · simp [hn] at h
      · rw [if_neg hn] at h
        refine ⟨x * c, ?_, Nat.mul_div_cancel _ hc'⟩
        have h1 : x * c ≤ (n - 1) / c * c := Nat.mul_le_mul_right c (by omega)
        have h2 := Nat.div_mul_le_self (n - 1) c
        omega
  have hp2 : (sortBy (fun a b => decide (a ≤ b)) ((List.range n).map (· / c)).eraseDups).Perm (List.range (if n = 0 then 0 else (n - 1) / c + 1)) :=
    hp.trans ((List.perm_ext_iff_of_nodup (OEq.nodup_eraseDups _) List.nodup_range).2 hm)
  refine hp2.eq_of_pairwise (le := fun a b => a ≤ b) (fun a b _ _ h1 h2 => by omega) ?_ ?_
  · exact hs.imp (by simp)
  · exact List.pairwise_le_range

theorem count_row (c n i : Nat) (hc : c ≠ 0) : ((List.range n).map (· / c)).count i = min n ((i + 1) * c) - min n (i * c) := by
  have hc' : 0 < c := Nat.pos_of_ne_zero hc
  induction n with
  | zero => simp
  | succ n ih =>
    rw [List.range_succ, List.map_append, List.count_append, ih]
    simp only [List.map_cons, List.map_nil, List.count_singleton]
    have h1 := Nat.div_add_mod n c
    have h2 := Nat.mod_lt n hc'
    have e : (i + 1) * c = i * c + c := by rw [Nat.add_mul, Nat.one_mul]
    by_cases hi : n / c = i
    · rw [hi, Nat.mul_comm] at h1
      simp [hi]; omega
    · have : n < i * c ∨ i * c + c ≤ n := by
        rcases Nat.lt_or_gt_of_ne hi with h | h
        · left
          have := Nat.mul_le_mul_right c (show n / c + 1 ≤ i by omega)
          rw [Nat.add_mul] at this
          rw [Nat.mul_comm] at h1; omega
        · right
          have := Nat.mul_le_mul_right c (show i + 1 ≤ n / c by omega)
          rw [Nat.mul_comm] at h1; omega
      simp [hi]; omega

theorem irfGrid_eq (c n : Nat) (hc : c ≠ 0) (hn : 0 < n) (cols : Option Nat) (hcols : chosenCols cols n = c) :
    ∃ g, prepareGrid c n = .ok g ∧ irfGrid n cols = .ok (g, (List.range n).map (· / c),
      if c ∣ n then [(n - 1) / c] else (List.range ((n - 1) / c + 1)).drop ((n - 1) / c + 1 - 2)) := by
  have hc' : 0 < c := Nat.pos_of_ne_zero hc
  refine ⟨_, prepareGrid_eq c n hc, ?_⟩
  unfold irfGrid
  simp only [hcols, prepareGrid_eq c n hc, List.map_map]
  have e : ((fun l : Loc => l.bottom / 2 - 1) ∘ locAt c n) = fun k => k / c := by
    funext k
    have : (k / c + 1) * 2 / 2 - 1 = k / c := by rw [Nat.mul_div_cancel _ (by decide)]; rfl
    simpa only [Function.comp, locAt] using this
  rw [e]
  obtain ⟨r, hr, hr1, _⟩ := rows_eq c n hc
  have hr2 := hr1 hn
  rw [hr]
  have hsq : ((List.range r).all fun i => decide (((List.range n).map fun k => k / c).count i = c)) = true ↔ c ∣ n := by
    rw [List.all_eq_true]
    simp only [List.mem_range, decide_eq_true_eq, count_row c n _ hc]
    have h1 := Nat.div_add_mod (n - 1) c
    have h2 := Nat.mod_lt (n - 1) hc'
    rw [Nat.mul_comm] at h1
    constructor
    · intro h
      have := h ((n - 1) / c) (by omega)
      rw [Nat.add_mul] at this
      exact ⟨(n - 1) / c + 1, by rw [Nat.mul_add, Nat.mul_comm]; omega⟩
    · rintro ⟨m, rfl⟩ i hi
      have hm : (c * m - 1) / c < m := by rw [Nat.div_lt_iff_lt_mul hc', Nat.mul_comm m c]; omega
      have : (i + 1) * c ≤ m * c := Nat.mul_le_mul_right c (by omega)
      rw [Nat.mul_comm c m, Nat.add_mul] at *
      omega
  by_cases hd : c ∣ n
  · rw [if_pos (hsq.2 hd), if_pos hd, hr2, List.range_succ, List.getLast?_append]
    rfl
  · rw [if_neg (fun h => hd (hsq.1 h)), if_neg hd, List.length_range, hr2]

theorem drop_range (r k : Nat) : k ∈ (List.range r).drop (r - 2) ↔ r - 2 ≤ k ∧ k < r := by
  rw [List.mem_iff_getElem?]
  constructor
  · rintro ⟨i, hi⟩
    rw [List.getElem?_drop, List.getElem?_eq_some_iff] at hi
    obtain ⟨h, hi⟩ := hi
    simp at h hi
    omega
  · rintro ⟨h1, h2⟩
    refine ⟨k - (r - 2), ?_⟩
    rw [List.getElem?_drop, show r - 2 + (k - (r - 2)) = k by omega, List.getElem?_range h2]

end Plot
open Plot

/-- **C113**: every figure of `n` panels in `c` columns has one place for each panel, of two by two cells inside the grid; panels follow one
another in rows of `c`, and the grid has no more rows than needed -/
theorem C113_layout (c n : Nat) (hc : c ≠ 0) : ∃ g, prepareGrid c n = .ok g ∧ g.cols = 2 * c ∧ g.locs.length = n ∧
    (∃ r, g.rows = 2 * r ∧ n ≤ r * c ∧ ∀ r', n ≤ r' * c → r ≤ r') ∧
    ∀ k < n, ∃ l, g.locs[k]? = some l ∧ l.top = 2 * (k / c) ∧ l.bottom = l.top + 2 ∧ l.right = l.left + 2 ∧ l.right ≤ g.cols ∧ l.bottom ≤ g.rows := by
  have hc' : 0 < c := Nat.pos_of_ne_zero hc
  have hn : n / c * c + n % c = n := by rw [Nat.mul_comm]; exact Nat.div_add_mod n c
  refine ⟨_, prepareGrid_eq c n hc, rfl, by simp, ⟨_, rfl, ?_, ?_⟩, ?_⟩
  · have := Nat.mod_lt n hc'
    rw [Nat.add_mul]
    split
    · omega
    · omega
  · intro r' h
    have h1 : n / c ≤ r' := by
      have := Nat.div_le_div_right (c := c) h
      rwa [Nat.mul_div_cancel _ hc'] at this
    split
    · rename_i hr
      by_contra hlt
      have : r' = n / c := by omega
      subst this
      omega
    · omega
  · intro k hk
    refine ⟨locAt c n k, by rw [locs_get hc (prepareGrid_eq c n hc), if_pos hk], by simp [locAt, Nat.mul_comm], by simp [locAt]; omega,
      by simp [locAt]; omega, ?_, ?_⟩
    · have h1 := Nat.mod_lt k hc'
      have h2 := Nat.mod_lt n hc'
      simp only [locAt]
      split
      · rename_i he
        have : k % c < n % c := by
          have := Nat.div_add_mod k c
          have := Nat.div_add_mod n c
          rw [he] at *
          omega
        omega
      · omega
    · have h1 : k / c ≤ n / c := Nat.div_le_div_right (le_of_lt hk)
      simp only [locAt]
      by_cases he : k / c = n / c
      · have : k % c < n % c := by
          have := Nat.div_add_mod k c
          have := Nat.div_add_mod n c
          rw [he] at *
          omega
        rw [if_pos (by omega : 0 < n % c)]; omega
      · omega

/-- **C113**: no two panels overlap, and in a row each panel stands immediately to the right of the one before it -/
theorem C113_disjoint (c n : Nat) (hc : c ≠ 0) (g : Grid) (h : prepareGrid c n = .ok g) (i j : Nat) (l m : Loc) (hij : i < j)
    (hl : g.locs[i]? = some l) (hm : g.locs[j]? = some m) :
    (∀ r x, l.Has r x → ¬ m.Has r x) ∧ (m.top = l.top → l.right ≤ m.left ∧ (j = i + 1 → m.left = l.right)) ∧ l.top ≤ m.top := by
  have hc' : 0 < c := Nat.pos_of_ne_zero hc
  rw [locs_get hc h] at hl hm
  split at hl <;> cases hl
  split at hm <;> cases hm
  have hd : i / c ≤ j / c := Nat.div_le_div_right (le_of_lt hij)
  have key : i / c = j / c → i % c < j % c ∧ (j = i + 1 → j % c = i % c + 1) := by
    intro he
    have h1 := Nat.div_add_mod i c
    have h2 := Nat.div_add_mod j c
    rw [he] at h1
    omega
  have htop : (locAt c n j).top = (locAt c n i).top → i / c = j / c := by
    simp only [locAt]; omega
  refine ⟨?_, ?_, by simp only [locAt]; omega⟩
  · rintro r x ⟨h1, h2, h3, h4⟩ ⟨h5, h6, h7, h8⟩
    have he : i / c = j / c := by simp only [locAt] at *; omega
    obtain ⟨k1, _⟩ := key he
    simp only [locAt, he] at h4 h7
    omega
  · intro ht
    have he := htop ht
    obtain ⟨k1, k2⟩ := key he
    simp only [locAt, he]
    constructor
    · omega
    · intro h; have := k2 h; omega

/-- **C113**: every row is centred: as much room is left free on the left of its first panel as on the right of its last one -/
theorem C113_centred (c n : Nat) (hc : c ≠ 0) (g : Grid) (h : prepareGrid c n = .ok g) (k : Nat) (hk : k < n) :
    ∃ f z, g.locs[k / c * c]? = some f ∧ g.locs[min n ((k / c + 1) * c) - 1]? = some z ∧ f.top = 2 * (k / c) ∧ z.top = 2 * (k / c) ∧
      f.left + z.right = g.cols := by
  have hc' : 0 < c := Nat.pos_of_ne_zero hc
  have hg : g.cols = 2 * c := by rw [prepareGrid_eq c n hc] at h; cases h; rfl
  have hk1 := Nat.div_add_mod k c
  have hn1 := Nat.div_add_mod n c
  have hkm := Nat.mod_lt k hc'
  have hnm := Nat.mod_lt n hc'
  rw [Nat.mul_comm] at hk1 hn1
  have hf : k / c * c < n := by omega
  have hd : k / c ≤ n / c := Nat.div_le_div_right (le_of_lt hk)
  have e1 : k / c * c / c = k / c := Nat.mul_div_cancel _ hc'
  have e2 : k / c * c % c = 0 := Nat.mul_mod_left _ _
  rw [locs_get hc h, if_pos hf, locs_get hc h]
  by_cases he : k / c = n / c
  · have hr : 0 < n % c := by rw [he] at hk1; omega
    have e3 : min n ((k / c + 1) * c) - 1 = n / c * c + (n % c - 1) := by rw [he, Nat.add_mul]; omega
    have e4 : (n / c * c + (n % c - 1)) / c = n / c := by
      rw [show n / c * c + (n % c - 1) = (n % c - 1) + c * (n / c) by rw [Nat.mul_comm]; omega, Nat.add_mul_div_left _ _ hc',
        Nat.div_eq_of_lt (by omega), Nat.zero_add]
    have e5 : (n / c * c + (n % c - 1)) % c = n % c - 1 := by
      rw [show n / c * c + (n % c - 1) = (n % c - 1) + c * (n / c) by rw [Nat.mul_comm]; omega, Nat.add_mul_mod_self_left,
        Nat.mod_eq_of_lt (by omega)]
    rw [e3, if_pos (by omega)]
    refine ⟨_, _, rfl, rfl, ?_, ?_, ?_⟩
    · simp only [locAt, e1]; omega
    · simp only [locAt, e4]; omega
    · simp only [locAt, e1, e2, e4, e5, hg, if_pos he, if_true]; omega
  · have hlt : k / c < n / c := by omega
    have h1 : (k / c + 1) * c ≤ n / c * c := Nat.mul_le_mul_right c hlt
    have e3 : min n ((k / c + 1) * c) - 1 = k / c * c + (c - 1) := by rw [Nat.add_mul] at *; omega
    have e4 : (k / c * c + (c - 1)) / c = k / c := by
      rw [show k / c * c + (c - 1) = (c - 1) + c * (k / c) by rw [Nat.mul_comm]; omega, Nat.add_mul_div_left _ _ hc',
        Nat.div_eq_of_lt (by omega), Nat.zero_add]
    have e5 : (k / c * c + (c - 1)) % c = c - 1 := by
      rw [show k / c * c + (c - 1) = (c - 1) + c * (k / c) by rw [Nat.mul_comm]; omega, Nat.add_mul_mod_self_left,
        Nat.mod_eq_of_lt (by omega)]
    rw [e3, if_pos (by rw [Nat.add_mul] at h1; omega)]
    refine ⟨_, _, rfl, rfl, ?_, ?_, ?_⟩
    · simp only [locAt, e1]; omega
    · simp only [locAt, e4]; omega
    · simp only [locAt, e1, e2, e4, e5, hg, if_neg he]; omega

/-- seven panels in four columns: the last row of three starts one cell in -/
example : ∃ g, prepareGrid 4 7 = .ok g ∧ g.rows = 4 ∧ g.locs[4]? = some ⟨2, 4, 1, 3⟩ ∧ g.locs[6]? = some ⟨2, 4, 5, 7⟩ :=
  ⟨_, rfl, by decide, by decide, by decide⟩

/-- **C113**, the exception: a figure without panels cannot be drawn in the default number of columns (`vars_to_plot=[]` raises
ZeroDivisionError) -/
theorem C113_empty_violated : prepareGrid (chosenCols none 0) 0 = .error .zeroDivision := by decide


/-- **C113**: in a figure of impulse responses a panel that has no panel below it keeps the labels of its x axis; if the rows are all full
these are the panels of the bottom row and no others, and labels never appear above the last row but one -/
theorem C113_ticks (n : Nat) (cols : Option Nat) (hcols : chosenCols cols n ≠ 0) (hn : 0 < n) :
    ∃ g rows keep, prepareGrid (chosenCols cols n) n = .ok g ∧ irfGrid n cols = .ok (g, rows, keep) ∧
      ∀ (k : Nat) l, g.locs[k]? = some l → ∃ r, rows[k]? = some r ∧ l.top = 2 * r ∧
        ((∀ m ∈ g.locs, ¬ m.Below l) → r ∈ keep) ∧
        (r ∈ keep → ∀ m ∈ g.locs, m.top ≤ l.top + 2) ∧
        (chosenCols cols n ∣ n → (r ∈ keep ↔ l.bottom = g.rows)) := by
  generalize hc0 : chosenCols cols n = c at hcols
  have hc : 0 < c := Nat.pos_of_ne_zero hcols
  obtain ⟨g, hg, hi⟩ := irfGrid_eq c n hcols hn cols hc0
  refine ⟨g, _, _, hg, hi, fun k l hl => ?_⟩
  have hmem : ∀ j, j < n → locAt c n j ∈ g.locs := fun j hj =>
    List.mem_of_getElem? (by rw [locs_get hcols hg, if_pos hj])
  have hall : ∀ m ∈ g.locs, ∃ j < n, m = locAt c n j := by
    intro m hm
    obtain ⟨j, hj⟩ := List.mem_iff_getElem?.1 hm
    rw [locs_get hcols hg] at hj
    split at hj
    · exact ⟨j, by assumption, by cases hj; rfl⟩
    · cases hj
  have hrows : g.rows = 2 * (n / c + if 0 < n % c then 1 else 0) := by
    have := prepareGrid_eq c n hcols
    rw [hg] at this
    cases this; rfl
  rw [locs_get hcols hg] at hl
  split at hl
  swap
  · cases hl
  rename_i hk
  cases hl
  have n1 := Nat.div_add_mod n c
  have m1 := Nat.div_add_mod (n - 1) c
  have n2 := Nat.mod_lt n hc
  have m2 := Nat.mod_lt (n - 1) hc
  have k1 := Nat.div_add_mod k c
  have k2 := Nat.mod_lt k hc
  have hkn : k / c ≤ (n - 1) / c := Nat.div_le_div_right (by omega)
  have hstep : (k + c) / c = k / c + 1 := Nat.add_div_right k hc
  have hmod : (k + c) % c = k % c := Nat.add_mod_right k c
  have hbelow : k / c + 1 < n / c ∨ (c ∣ n ∧ k / c + 1 ≤ (n - 1) / c) → ∃ m ∈ g.locs, m.Below (locAt c n k) := by
    intro h
    have hlt : k / c + 1 < n / c := by
      rcases h with h | ⟨⟨q, rfl⟩, h⟩
      · exact h
      · rw [Nat.mul_div_cancel_left _ hc]
        have : (c * q - 1) / c < q := by rw [Nat.div_lt_iff_lt_mul hc, Nat.mul_comm q c]; omega
        omega
    have hkc : k + c < n := by
      have := Nat.mul_le_mul_left c (show k / c + 2 ≤ n / c by omega)
      rw [Nat.mul_add] at this
      omega
    refine ⟨_, hmem (k + c) hkc, ?_⟩
    simp only [Loc.Below, locAt, hstep, hmod]
    rw [if_neg (by omega), if_neg (by omega)]
    exact ⟨Nat.le_refl _, 0 + k % c * 2, by omega, by omega⟩
  refine ⟨k / c, by rw [List.getElem?_map, List.getElem?_range hk]; rfl, by simp only [locAt]; omega, ?_, ?_, ?_⟩
  · intro hno
    split
    · rename_i hd
      rw [List.mem_singleton]
      by_contra hne
      obtain ⟨m, hm, hb⟩ := hbelow (Or.inr ⟨hd, by omega⟩)
      exact hno m hm hb
    · rename_i hd
      rw [drop_range]
      refine ⟨?_, by omega⟩
      by_contra hlt
      have : (n - 1) / c ≤ n / c := Nat.div_le_div_right (by omega)
      have := Nat.zero_le (k / c)
      obtain ⟨m, hm, hb⟩ := hbelow (Or.inl (by generalize k / c = q at *; omega))
      exact hno m hm hb
  · intro hk' m hm
    obtain ⟨j, hj, rfl⟩ := hall m hm
    have hjn : j / c ≤ (n - 1) / c := Nat.div_le_div_right (by omega)
    simp only [locAt]
    split at hk'
    · rw [List.mem_singleton] at hk'; omega
    · rw [drop_range] at hk'; omega
  · intro hd
    rw [if_pos hd, List.mem_singleton, hrows]
    have hz : n % c = 0 := Nat.mod_eq_zero_of_dvd hd
    have : n / c = (n - 1) / c + 1 := by
      obtain ⟨q, rfl⟩ := hd
      rw [Nat.mul_div_cancel_left _ hc]
      have hq : 0 < q := Nat.pos_of_mul_pos_left hn
      have h1 : (c * q - 1) / c < q := by rw [Nat.div_lt_iff_lt_mul hc, Nat.mul_comm q c]; omega
      have h2 : q - 1 ≤ (c * q - 1) / c := by
        rw [Nat.le_div_iff_mul_le hc, Nat.mul_comm, Nat.mul_sub]; omega
      omega
    simp only [locAt, hz, if_neg (Nat.lt_irrefl 0), this]
    generalize k / c = q at *
    omega

/-- seven panels in four columns: both rows keep their labels; eight panels: only the bottom row -/
example : (irfGrid 7 none).toOption.map Prod.snd = some ([0, 0, 0, 0, 1, 1, 1], [0, 1]) ∧
    (irfGrid 8 none).toOption.map Prod.snd = some ([0, 0, 0, 0, 1, 1, 1, 1], [1]) := by decide +kernel


/-! ## C114: what is drawn -/

namespace Plot

/-- the names an argument asks for -/
def Wanted (sel : Sel) (available l : List Str) : Prop :=
  match sel with | .all => l = available | .one s => l = [s] | .many k => l = k | .other => False

theorem resolveList_iff (sel : Sel) (av l : List Str) : resolveList sel av = .ok l ↔ Wanted sel av l ∧ ∀ v ∈ l, v ∈ av := by
  cases sel with
  | all => simp only [resolveList, Wanted, Except.ok.injEq]
           exact ⟨fun h => ⟨h.symm, fun v hv => h ▸ hv⟩, fun h => h.1.symm⟩
  | one s => 
    simp only [resolveList, Wanted]
    split
    · rename_i h
      simp only [Except.ok.injEq]
      constructor
      · rintro rfl; exact ⟨rfl, by simpa using h⟩
      · rintro ⟨rfl, _⟩; rfl
    · rename_i h
      simp only [reduceCtorEq, false_iff, not_and]
      rintro rfl; simpa using h
  | many k =>
    simp only [resolveList, Wanted]
    split
    · rename_i h
      simp only [Except.ok.injEq]
      constructor
      · rintro rfl; exact ⟨rfl, by simpa using h⟩
      · rintro ⟨rfl, _⟩; rfl
    · rename_i h
      simp only [reduceCtorEq, false_iff, not_and]
      rintro rfl; simpa using h
  | other => simp [resolveList, Wanted]

/-- the scenarios of an argument `irf`, with their names, in order -/
def Scenarios (irf : IrfArg) (m : List (Str × Irf)) : Prop :=
  match irf with
  | .single a => m = [([], a)]
  | .list l => m.map Prod.snd = l ∧ ∀ i (h : i < m.length), m[i].1 = "Scenario ".toList ++ natStr i
  | .dict d => m = d
  | .other => False

/-- the shocks of one scenario that are drawn: those selected, or all of them when the first scenario has no shock dimension; one line, for
no shock in particular, when this scenario has none either -/
def Drawn (sel : Option (List Str)) (a : Irf) (l : List (Option Str)) : Prop :=
  match sel, a.shocks with
  | none, none => l = [none]
  | none, some ss => l = ss.map some
  | some _, none => False
  | some s, some ss => l = s.map some ∧ ∀ x ∈ s, x ∈ ss

theorem scenarios_iff (irf : IrfArg) (m : List (Str × Irf)) : irfToMapping irf = .ok m ↔ Scenarios irf m := by
  cases irf with
  | single a => simp [irfToMapping, Scenarios, eq_comm]
  | dict d => simp [irfToMapping, Scenarios, eq_comm]
  | other => simp [irfToMapping, Scenarios]
  | list l =>
    simp only [irfToMapping, Scenarios, Except.ok.injEq]
    constructor
    · rintro rfl
      refine ⟨?_, fun i h => ?_⟩
      · rw [List.map_map]
        refine List.ext_getElem (by simp) (by simp)
      · simp
    · rintro ⟨rfl, h⟩
      refine List.ext_getElem (by simp) fun i h1 h2 => ?_
      simp only [List.getElem_map, List.getElem_zipIdx, Nat.zero_add]
      rw [← h i h2]

theorem scenarioLines_iff (i : Nat) (n : Str) (a : Irf) (v : Str) (s : Option (List Str)) (ls : List Line) :
    scenarioLines i n a v s = .ok ls ↔ v ∈ a.vars ∧ ∃ l, Drawn s a l ∧ ls = l.map fun x => ⟨n, i % 4, x⟩ := by
  unfold scenarioLines Drawn
  split
  · rename_i hv
    cases s <;> cases ha : a.shocks
    · simp [hv, eq_comm]
    · simp [hv, eq_comm]; rfl
    · simp
    · rename_i s ss
      dsimp only
      split
      · rename_i h
        simp only [Except.ok.injEq, hv, true_and]
        constructor
        · rintro rfl; exact ⟨_, ⟨rfl, by simpa using h⟩, by rw [List.map_map]; rfl⟩
        · rintro ⟨l, ⟨rfl, _⟩, rfl⟩; rw [List.map_map]; rfl
      · rename_i h
        simp only [reduceCtorEq, false_iff, not_and, not_exists]
        rintro _ l ⟨_, h2⟩
        exact absurd (by simpa using h2) h
  · rename_i hv
    simp [hv]

theorem panelLines_iff (v : Str) (s : Option (List Str)) : ∀ (m : List ((Str × Irf) × Nat)) (ls : List Line),
    panelLines m v s = .ok ls ↔ (∀ sc ∈ m, v ∈ sc.1.2.vars) ∧
      ∃ dr : List (List (Option Str)), List.Forall₂ (fun sc l => Drawn s sc.1.2 l) m dr ∧
        ls = (m.zip dr).flatMap fun p => p.2.map fun x => ⟨p.1.1.1, p.1.2 % 4, x⟩
  | [], ls => by
    simp only [panelLines, Except.ok.injEq]
    constructor
    · rintro rfl; exact ⟨by simp, [], List.Forall₂.nil, rfl⟩
    · rintro ⟨_, dr, h, rfl⟩; cases h; rfl
  | ((n, a), i) :: rest, ls => by
    simp only [panelLines]
    constructor
    · intro h
      split at h
      · cases h
      rename_i l hl
      split at h
      · cases h
      rename_i l' hl'
      cases h
      obtain ⟨hv, d, hd, rfl⟩ := (scenarioLines_iff ..).1 hl
      obtain ⟨hv', dr, hdr, rfl⟩ := (panelLines_iff v s rest _).1 hl'
      refine ⟨?_, d :: dr, List.Forall₂.cons hd hdr, by simp⟩
      intro sc hsc
      rcases List.mem_cons.1 hsc with rfl | h
      · exact hv
      · exact hv' sc h
    · rintro ⟨hv, dr, hdr, rfl⟩
      cases hdr with
      | cons h1 h2 =>
        rw [(scenarioLines_iff i n a v s _).2 ⟨hv _ (List.mem_cons_self ..), _, h1, rfl⟩]
        dsimp only
        rw [(panelLines_iff v s rest _).2 ⟨fun sc hsc => hv sc (List.mem_cons_of_mem _ hsc), _, h2, rfl⟩]
        simp

theorem drawn_unique {s : Option (List Str)} {a : Irf} {l l' : List (Option Str)} (h : Drawn s a l) (h' : Drawn s a l') : l = l' := by
  unfold Drawn at h h'
  cases s <;> cases ha : a.shocks <;> simp only [ha] at h h'
  · rw [h, h']
  · rw [h, h']
  · rw [h.1, h'.1]

theorem drawn_all_unique {s : Option (List Str)} : ∀ {m : List ((Str × Irf) × Nat)} {d d' : List (List (Option Str))},
    List.Forall₂ (fun sc l => Drawn s sc.1.2 l) m d → List.Forall₂ (fun sc l => Drawn s sc.1.2 l) m d' → d = d'
  | [], _, _, .nil, .nil => rfl
  | _ :: _, _, _, .cons h1 h2, .cons k1 k2 => by rw [drawn_unique h1 k1, drawn_all_unique h2 k2]

/-- the lines of a panel: for each scenario in turn, in its style, its shocks in turn -/
def linesOf (m : List (Str × Irf)) (dr : List (List (Option Str))) : List Line :=
  (m.zipIdx.zip dr).flatMap fun p => p.2.map fun x => ⟨p.1.1.1, p.1.2 % 4, x⟩

theorem irfPanels_iff (m : List (Str × Irf)) (s : Option (List Str)) (g : Grid) (rows keep : List Nat) :
    ∀ (l : List (Str × Nat)) (ps : List Panel), irfPanels m s g rows keep l = .ok ps ↔
      List.Forall₂ (fun vi p => p.title = vi.1 ∧ g.locs[vi.2]? = some p.loc ∧ (∃ r, rows[vi.2]? = some r ∧ p.xticks = decide (r ∈ keep)) ∧
        panelLines m.zipIdx vi.1 s = .ok p.lines) l ps
  | [], ps => by
    simp only [irfPanels, Except.ok.injEq]
    constructor
    · rintro rfl; exact .nil
    · intro h; cases h; rfl
  | (v, i) :: rest, ps => by
    simp only [irfPanels]
    constructor
    · intro h
      split at h
      · rename_i loc r ls h1 h2 h3
        split at h
        · cases h
        · rename_i ps' hp
          cases h
          exact .cons ⟨rfl, h1, ⟨r, h2, rfl⟩, h3⟩ ((irfPanels_iff m s g rows keep rest _).1 hp)
      · cases h
      · cases h
    · intro h
      cases h with
      | cons h1 h2 =>
        rename_i p ps'
        obtain ⟨rfl, hl, ⟨r, hr, hx⟩, hp⟩ := h1
        dsimp only at hl hr hp
        rw [hl, hr, hp, (irfPanels_iff m s g rows keep rest _).2 h2]
        dsimp only
        rw [← hx]

theorem forall2_zipIdx {α β : Type} {R : α × Nat → β → Prop} : ∀ {l : List α} {ps : List β} {k : Nat}, List.Forall₂ R (l.zipIdx k) ps ↔
    l.length = ps.length ∧ ∀ i a p, l[i]? = some a → ps[i]? = some p → R (a, k + i) p
  | [], ps, k => by
    simp only [List.zipIdx_nil]
    constructor
    · intro h; cases h; simp
    · rintro ⟨h, _⟩
      rw [show ps = [] from List.length_eq_zero_iff.1 h.symm]; exact .nil
  | a :: l, [], k => by
    rw [List.zipIdx_cons]
    constructor
    · intro h; cases h
    · rintro ⟨h, _⟩; simp at h
  | a :: l, p :: ps, k => by
    rw [List.zipIdx_cons, List.forall₂_cons, forall2_zipIdx]
    constructor
    · rintro ⟨h, h1, h2⟩
      refine ⟨by simp [h1], fun i b q hb hq => ?_⟩
      cases i with
      | zero => cases hb; cases hq; exact h
      | succ i => rw [show k + (i + 1) = k + 1 + i by omega]; exact h2 i b q (by simpa using hb) (by simpa using hq)
    · rintro ⟨h1, h2⟩
      refine ⟨h2 0 a p rfl rfl, by simpa using h1, fun i b q hb hq => ?_⟩
      rw [show k + 1 + i = k + (i + 1) by omega]
      exact h2 (i + 1) b q (by simpa using hb) (by simpa using hq)

theorem irfGrid_pos {n : Nat} {cols : Option Nat} {x} (h : irfGrid n cols = .ok x) : 0 < n := by
  rcases Nat.eq_zero_or_pos n with rfl | h'
  · exfalso
    unfold irfGrid at h
    cases cols with
    | none => simp [chosenCols, prepareGrid] at h
    | some c =>
      by_cases hc : c = 0
      · simp [chosenCols, prepareGrid, hc] at h
      · simp [chosenCols, prepareGrid_eq c 0 hc, sortBy] at h
  · exact h'

end Plot
open Plot

/-- **C114**: a figure of impulse responses shows one panel for each variable asked for, in that order, in the place of its number, and in
each panel one line for every scenario and every shock asked for, in order, the scenarios told apart by their line style. It is drawn
exactly when at least one variable is asked for, the number of columns is not zero, every variable is one of the variables of every scenario
and every shock one of the shocks of every scenario; otherwise an error is raised and no figure returned -/
theorem C114_irf (irf : IrfArg) (vars shocks : Sel) (cols : Option Nat) (ps : List Panel) :
    plotIrf irf vars shocks cols = .ok ps ↔ ∃ m first vs ss dr, Scenarios irf m ∧ m.head? = some first ∧
      Wanted vars first.2.vars vs ∧ vs ≠ [] ∧ cols ≠ some 0 ∧ (∀ v ∈ vs, ∀ sc ∈ m, v ∈ sc.2.vars) ∧
      (match first.2.shocks with | none => ss = none | some av => ∃ s, ss = some s ∧ Wanted shocks av s) ∧
      List.Forall₂ (fun sc l => Drawn ss sc.2 l) m dr ∧
      ps.length = vs.length ∧ ∃ g rows keep, prepareGrid (chosenCols cols vs.length) vs.length = .ok g ∧
        irfGrid vs.length cols = .ok (g, rows, keep) ∧
        ∀ (k : Nat) v (p : Panel), vs[k]? = some v → ps[k]? = some p → p.title = v ∧ g.locs[k]? = some p.loc ∧ p.lines = linesOf m dr ∧
          ∃ r, rows[k]? = some r ∧ (p.xticks = true ↔ r ∈ keep) := by
  constructor
  · intro h
    unfold plotIrf at h
    split at h
    · cases h
    rename_i m hm
    split at h
    · cases h
    rename_i vs ss hvs
    split at h
    · cases h
    rename_i g rows keep hg
    rw [irfPanels_iff, forall2_zipIdx] at h
    obtain ⟨hlen, hps⟩ := h
    cases m with
    | nil => simp [resolveVarsShocks] at hvs
    | cons first rest =>
      obtain ⟨n0, a0⟩ := first
      have hpos := irfGrid_pos hg
      have hcols : chosenCols cols vs.length ≠ 0 := by
        intro h0
        simp [irfGrid, prepareGrid, h0] at hg
      obtain ⟨g', hg1, hg2⟩ := irfGrid_eq _ _ hcols hpos cols rfl
      rw [hg2] at hg
      simp only [Except.ok.injEq, Prod.mk.injEq] at hg
      obtain ⟨rfl, hrows, hkeep⟩ := hg
      have hall : ∀ (k : Nat) v (p : Panel), vs[k]? = some v → ps[k]? = some p → panelLines ((n0, a0) :: rest).zipIdx v ss = .ok p.lines := by
        intro k v p hv hp
        exact (hps k v p hv hp).2.2.2
      have hp0 : ∃ v p, vs[0]? = some v ∧ ps[0]? = some p := ⟨_, _, List.getElem?_eq_getElem hpos, List.getElem?_eq_getElem (hlen ▸ hpos)⟩
      obtain ⟨v0, p0, hv0, hp0⟩ := hp0
      obtain ⟨_, dr, hdr, hl0⟩ := (panelLines_iff _ _ _ _).1 (hall 0 v0 p0 hv0 hp0)
      have hvar : ∀ v ∈ vs, ∀ sc ∈ (n0, a0) :: rest, v ∈ sc.2.vars := by
        intro v hv sc hsc
        obtain ⟨k, hk⟩ := List.mem_iff_getElem?.1 hv
        have hkl : k < vs.length := by
          by_contra hge
          rw [List.getElem?_eq_none (by omega)] at hk; cases hk
        obtain ⟨h1, _⟩ := (panelLines_iff _ _ _ _).1 (hall k v _ hk (List.getElem?_eq_getElem (hlen ▸ hkl)))
        obtain ⟨i, hi⟩ := List.mem_iff_getElem?.1 hsc
        exact h1 (sc, i) (List.mem_zipIdx_iff_getElem?.2 hi)
      have hw : Wanted vars a0.vars vs ∧ (match a0.shocks with | none => ss = none | some av => ∃ s, ss = some s ∧ Wanted shocks av s) := by
        simp only [resolveVarsShocks] at hvs
        split at hvs
        · cases hvs
        rename_i vs' hr
        cases ha : a0.shocks with
        | none => rw [ha] at hvs; cases hvs; exact ⟨((resolveList_iff ..).1 hr).1, rfl⟩
        | some av =>
          rw [ha] at hvs
          dsimp only at hvs
          split at hvs
          · cases hvs
          rename_i s hs
          cases hvs
          exact ⟨((resolveList_iff ..).1 hr).1, _, rfl, ((resolveList_iff ..).1 hs).1⟩
      refine ⟨_, (n0, a0), vs, ss, dr, (scenarios_iff _ _).1 hm, rfl, hw.1, ?_, ?_, hvar, hw.2, ?_, hlen.symm, g', rows, keep, hg1, ?_, ?_⟩
      · rintro rfl; simp at hpos
      · rintro rfl; simp [chosenCols] at hcols
      · have := List.forall₂_map_left_iff (R := fun (sc : Str × Irf) l => Drawn ss sc.2 l) (f := Prod.fst) |>.2 hdr
        rwa [List.zipIdx_map_fst] at this
      · rw [hg2, hrows, hkeep]
      · intro k v p hv hp
        obtain ⟨h1, h2, ⟨r, hr, hx⟩, h4⟩ := hps k v p hv hp
        obtain ⟨_, dr', hdr', hl⟩ := (panelLines_iff _ _ _ _).1 h4
        rw [drawn_all_unique hdr' hdr] at hl
        rw [Nat.zero_add] at h2 hr
        exact ⟨h1, h2, hl, r, hr, by rw [hx]; simp⟩
  · rintro ⟨m, first, vs, ss, dr, hm, hf, hw, hne, hc0, hvar, hs, hdr, hlen, g, rows, keep, hg, hi, hps⟩
    cases m with
    | nil => cases hf
    | cons f rest =>
      cases hf
      obtain ⟨n0, a0⟩ := first
      have hr : resolveVarsShocks ((n0, a0) :: rest) vars shocks = .ok (vs, ss) := by
        simp only [resolveVarsShocks]
        rw [(resolveList_iff ..).2 ⟨hw, fun v hv => hvar v hv _ (List.mem_cons_self ..)⟩]
        dsimp only at hs ⊢
        cases ha : a0.shocks with
        | none => rw [ha] at hs; rw [hs]
        | some av =>
          rw [ha] at hs
          obtain ⟨s, rfl, hs⟩ := hs
          dsimp only
          have : ∀ x ∈ s, x ∈ av := by
            cases hdr with
            | cons h1 _ => simp only [Drawn, ha] at h1; exact h1.2
          rw [(resolveList_iff ..).2 ⟨hs, this⟩]
      unfold plotIrf
      rw [(scenarios_iff _ _).2 hm]
      dsimp only
      rw [hr]
      dsimp only
      rw [hi]
      dsimp only
      rw [irfPanels_iff, forall2_zipIdx]
      refine ⟨hlen.symm, fun k v p hv hp => ?_⟩
      obtain ⟨h1, h2, h3, r, hr, hx⟩ := hps k v p hv hp
      rw [Nat.zero_add]
      refine ⟨h1, h2, ⟨r, hr, ?_⟩, ?_⟩
      · by_cases hk : r ∈ keep
        · rw [hx.2 hk, decide_eq_true hk]
        · rw [decide_eq_false hk]; exact Bool.eq_false_iff.2 fun h => hk (hx.1 h)
      · refine (panelLines_iff _ _ _ _).2 ⟨?_, dr, ?_, h3⟩
        · rintro ⟨sc, i⟩ hsc
          exact hvar v (List.mem_of_getElem? hv) sc (List.mem_of_getElem? (List.mem_zipIdx_iff_getElem?.1 hsc))
        · have := List.forall₂_map_left_iff (R := fun (sc : Str × Irf) l => Drawn ss sc.2 l) (f := Prod.fst) (l := ((n0, a0) :: rest).zipIdx) (u := dr)
          rw [List.zipIdx_map_fst] at this
          exact this.1 hdr


/-- two scenarios, two shocks, two of three variables: two panels of four lines each -/
example : ∃ p q, plotIrf (.dict [("a".toList, ⟨["Y".toList, "C".toList, "K".toList], some ["e".toList, "u".toList]⟩),
      ("b".toList, ⟨["Y".toList, "K".toList], some ["u".toList, "e".toList]⟩)]) (.many ["K".toList, "Y".toList]) .all none = .ok [p, q] ∧
    p.title = "K".toList ∧ q.title = "Y".toList ∧ p.lines = [⟨"a".toList, 0, some "e".toList⟩, ⟨"a".toList, 0, some "u".toList⟩,
      ⟨"b".toList, 1, some "e".toList⟩, ⟨"b".toList, 1, some "u".toList⟩] ∧ p.loc = ⟨0, 2, 0, 2⟩ ∧ q.loc = ⟨0, 2, 2, 4⟩ :=
  ⟨_, _, rfl, rfl, rfl, by decide, by decide, by decide⟩

/-- **C114**: with up to four scenarios, lines of one panel drawn in the same style belong to the same scenario -/
theorem C114_styles (irf : IrfArg) (vars shocks : Sel) (cols : Option Nat) (ps : List Panel) (h : plotIrf irf vars shocks cols = .ok ps)
    (m : List (Str × Irf)) (hm : Scenarios irf m) (h4 : m.length ≤ 4) (p : Panel) (hp : p ∈ ps) (l l' : Line) (hl : l ∈ p.lines)
    (hl' : l' ∈ p.lines) (hs : l.style = l'.style) : l.scenario = l'.scenario := by
  obtain ⟨m', first, vs, ss, dr, hm', _, _, _, _, _, _, _, hlen, g, rows, keep, _, _, hps⟩ := (C114_irf ..).1 h
  have : m' = m := by
    have h1 := (scenarios_iff _ _).2 hm
    have h2 := (scenarios_iff _ _).2 hm'
    rw [h1] at h2; cases h2; rfl
  subst this
  obtain ⟨k, hk⟩ := List.mem_iff_getElem?.1 hp
  have hkl : k < vs.length := by
    by_contra hge
    rw [List.getElem?_eq_none (by omega)] at hk; cases hk
  obtain ⟨_, _, hlines, _⟩ := hps k _ p (List.getElem?_eq_getElem hkl) hk
  have key : ∀ l ∈ p.lines, ∃ i < 4, ∃ sc, m'[i]? = some sc ∧ l.scenario = sc.1 ∧ l.style = i := by
    intro l hl
    rw [hlines] at hl
    simp only [linesOf, List.mem_flatMap, List.mem_map] at hl
    obtain ⟨⟨⟨sc, i⟩, d⟩, hmem, x, _, rfl⟩ := hl
    have h1 := List.mem_zipIdx_iff_getElem?.1 (List.of_mem_zip hmem).1
    dsimp only at h1
    have hi : i < m'.length := by
      by_contra hge
      rw [List.getElem?_eq_none (by omega)] at h1; cases h1
    have hi4 : i < 4 := by omega
    exact ⟨i, hi4, sc, h1, rfl, Nat.mod_eq_of_lt hi4⟩
  obtain ⟨i, _, sc, hi, e1, e2⟩ := key l hl
  obtain ⟨j, _, sc', hj, e3, e4⟩ := key l' hl'
  have : i = j := by omega
  subst this
  rw [hi] at hj
  cases hj
  rw [e1, e3]

/-- **C114**, the exception: with five scenarios the first and the fifth are drawn alike -/
theorem C114_styles_violated : ∃ p l l', plotIrf (.list (List.replicate 5 ⟨["Y".toList], none⟩)) .all .all none = .ok [p] ∧
    p.lines[0]? = some l ∧ p.lines[4]? = some l' ∧ l.scenario ≠ l'.scenario ∧ l.style = l'.style ∧ l.shock = l'.shock :=
  ⟨_, _, _, rfl, rfl, rfl, by decide, rfl, rfl⟩

namespace Plot
theorem simPanels_iff (av : List Str) (locs : List Loc) : ∀ (l : List (Str × Nat)) (ps : List (Str × Loc)),
    simPanels av locs l = .ok ps ↔ List.Forall₂ (fun vi p => p.1 = vi.1 ∧ vi.1 ∈ av ∧ locs[vi.2]? = some p.2) l ps
  | [], ps => by
    simp only [simPanels, Except.ok.injEq]
    constructor
    · rintro rfl; exact .nil
    · intro h; cases h; rfl
  | (v, i) :: rest, ps => by
    simp only [simPanels]
    constructor
    · intro h
      split at h
      · rename_i hv
        split at h
        · cases h
        rename_i loc hl
        split at h
        · cases h
        rename_i ps' hp
        cases h
        exact .cons ⟨rfl, hv, hl⟩ ((simPanels_iff av locs rest _).1 hp)
      · cases h
    · intro h
      cases h with
      | cons h1 h2 =>
        rename_i p ps'
        obtain ⟨p1, p2⟩ := p
        obtain ⟨h1, hv, hl⟩ := h1
        dsimp only at h1 hv hl
        subst h1
        rw [if_pos hv, hl, (simPanels_iff av locs rest _).2 h2]

/-- the dictionary of priors is well formed -/
theorem keys_dupdate {α : Type} (d e : List (Str × α)) (h : (dkeys d).Nodup) : (dkeys (dupdate d e)).Nodup := by
  unfold dupdate
  induction e generalizing d with
  | nil => exact h
  | cons p e ih => exact ih _ (dset_nodup d p.1 p.2 h)
end Plot
open Plot

/-- **C114**: a figure of simulated paths shows the variables asked for (all by default), each in its place, and is refused if one of them is
not simulated -/
theorem C114_simulation (available : List Str) (vars : Option (List Str)) (cols : Option Nat) (ps : List (Str × Loc)) :
    plotSimulation available vars cols = .ok ps ↔ ∃ vs, vs = vars.getD available ∧ (∀ v ∈ vs, v ∈ available) ∧
      ∃ g, prepareGrid (chosenCols cols vs.length) vs.length = .ok g ∧ ps.map Prod.fst = vs ∧ ps.map Prod.snd = g.locs := by
  unfold plotSimulation
  generalize hvs : vars.getD available = vs
  cases hg : prepareGrid (chosenCols cols vs.length) vs.length with
  | error e => simp [hg]
  | ok g =>
    have hc : chosenCols cols vs.length ≠ 0 := by
      intro h0
      simp [prepareGrid, h0] at hg
    have hlen : g.locs.length = vs.length := by
      rw [prepareGrid_eq _ _ hc] at hg; cases hg; simp
    dsimp only
    rw [hg]
    dsimp only
    rw [simPanels_iff, forall2_zipIdx]
    constructor
    · rintro ⟨h1, h2⟩
      refine ⟨vs, rfl, fun v hv => ?_, g, hg, ?_, ?_⟩
      · obtain ⟨k, hk⟩ := List.mem_iff_getElem?.1 hv
        have hkl : k < vs.length := by
          by_contra hge
          rw [List.getElem?_eq_none (by omega)] at hk; cases hk
        exact (h2 k v _ hk (List.getElem?_eq_getElem (h1 ▸ hkl))).2.1
      · refine List.ext_getElem (by simp [h1]) fun i h3 h4 => ?_
        have := (h2 i _ _ (List.getElem?_eq_getElem h4) (List.getElem?_eq_getElem (h1 ▸ h4))).1
        simpa using this
      · refine List.ext_getElem (by simp [hlen, h1]) fun i h3 h4 => ?_
        have := (h2 i _ _ (List.getElem?_eq_getElem (hlen ▸ h4)) (List.getElem?_eq_getElem (h1 ▸ hlen ▸ h4))).2.2
        rw [Nat.zero_add, List.getElem?_eq_getElem h4] at this
        simpa [eq_comm] using this
    · rintro ⟨vs', rfl, hv, g', hg', h1, h2⟩
      rw [hg] at hg'
      cases hg'
      refine ⟨by rw [← h1, List.length_map], fun i v p hvi hpi => ?_⟩
      have e1 : (ps.map Prod.fst)[i]? = some p.1 := by rw [List.getElem?_map, hpi]; rfl
      have e2 : (ps.map Prod.snd)[i]? = some p.2 := by rw [List.getElem?_map, hpi]; rfl
      rw [h1, hvi] at e1
      rw [h2] at e2
      cases e1
      exact ⟨rfl, hv _ (List.mem_of_getElem? hvi), by rw [Nat.zero_add]; exact e2⟩

/-- two of three simulated variables; and an unknown one -/
example : (∃ ps, plotSimulation ["Y".toList, "C".toList, "K".toList] (some ["K".toList, "Y".toList]) none = .ok ps ∧ ps.map Prod.fst = ["K".toList, "Y".toList]) ∧
    plotSimulation ["Y".toList] (some ["K".toList]) none = .error .valueError := ⟨⟨_, rfl, by decide⟩, by decide⟩

/-- **C114**: `plot_priors` without `var_names` shows every prior and hyper-prior once, in its place -/
theorem C114_priors_partial {α : Type} (priors hyper : List (Str × α)) (hp : (dkeys priors).Nodup) (cols : Nat) (hc : cols ≠ 0) :
    ∃ ps g, plotPriors priors hyper none cols = .ok ps ∧ ps.map Prod.fst = dupdate priors hyper ∧
      prepareGrid cols (dupdate priors hyper).length = .ok g ∧ ps.map Prod.snd = g.locs := by
  have hnd := keys_dupdate priors hyper hp
  have hg := prepareGrid_eq cols (dupdate priors hyper).length hc
  have hall : ((dkeys (dupdate priors hyper)).all fun n => (dget (dupdate priors hyper) n).isSome) = true := by
    rw [List.all_eq_true]
    intro n hn
    rcases h : dget (dupdate priors hyper) n with _ | v
    · exact absurd hn ((dget_eq_none _ _).1 h)
    · rfl
  have hl : (dkeys (dupdate priors hyper)).eraseDups.length = (dupdate priors hyper).length := by
    rw [((List.perm_ext_iff_of_nodup (OEq.nodup_eraseDups _) hnd).2 fun a => List.mem_eraseDups).length_eq]; simp [dkeys]
  refine ⟨(dupdate priors hyper).zip ((List.range (dupdate priors hyper).length).map (locAt cols (dupdate priors hyper).length)), _, ?_, ?_, hg, ?_⟩
  · unfold plotPriors
    simp only [Option.getD_none, hall, if_true, hl, hg]
  · exact List.map_fst_zip (by simp)
  · exact List.map_snd_zip (by simp)

/-- **C114**, the exception: asked for the prior of `beta`, `plot_priors` draws the prior of `alpha`, the first one -/
theorem C114_priors_violated : ∃ loc, plotPriors [("alpha".toList, 0), ("beta".toList, 1)] ([] : List (Str × Nat)) (some ["beta".toList]) 6 =
    .ok [(("alpha".toList, 0), loc)] := ⟨_, rfl⟩

/-- **C114**: the initial value of a parameter is marked when it is not zero -/
theorem C114_marks_partial (v : Rat) (hv : v ≠ 0) : initialMark true (some v) = some v ∧ ∀ o, initialMark false o = none := by
  refine ⟨by simp [initialMark, hv], fun o => by cases o <;> simp [initialMark]⟩

/-- **C114**, the exception: an initial value of zero is not marked -/
theorem C114_marks_violated : initialMark true (some 0) = none := by simp [initialMark]

/-- **C114**: a corner plot of two or more variables shows every pair of them once, below the diagonal, and every one of them on it -/
theorem C114_corner_partial (available vs : List Str) (h2 : 2 ≤ vs.length) (hv : ∀ v ∈ vs, v ∈ available) (hn : vs.Nodup) :
    ∃ ps, plotCorner available (some vs) = .ok ps ∧ ps.Nodup ∧
      ∀ a b, (a, b) ∈ ps ↔ ∃ i j : Nat, j ≤ i ∧ vs[i]? = some a ∧ vs[j]? = some b := by
  have hall : (vs.all fun v => decide (v ∈ available)) = true := by simpa using hv
  refine ⟨vs.zipIdx.flatMap fun r => (vs.zipIdx.filter fun c => decide (c.2 ≤ r.2)).map fun c => (r.1, c.1), ?_, ?_, ?_⟩
  · have : cornerVars available (some vs) = vs := by cases vs with | nil => simp at h2 | cons => rfl
    simp only [plotCorner, this]
    rw [if_pos hall, if_neg (by omega), if_neg (by omega)]
  · have hz : vs.zipIdx.Nodup := by
      have : (vs.zipIdx.map Prod.fst).Nodup := by rwa [List.zipIdx_map_fst]
      exact List.Nodup.of_map _ this
    rw [List.nodup_flatMap]
    refine ⟨fun r hr => ?_, ?_⟩
    · have h1 : ((vs.zipIdx.filter fun c => decide (c.2 ≤ r.2)).map Prod.fst).Nodup := by
        refine List.Nodup.sublist (List.filter_sublist.map _) ?_
        rwa [List.zipIdx_map_fst]
      have h2 := h1.map (f := fun x => (r.1, x)) (fun x y h => by simpa using h)
      rwa [List.map_map] at h2
    · have h1 : vs.zipIdx.Pairwise fun a b => a.1 ≠ b.1 := by
        have : (vs.zipIdx.map Prod.fst).Nodup := by rwa [List.zipIdx_map_fst]
        exact List.pairwise_map.1 this
      refine h1.imp fun {a b} hne => ?_
      intro x hx hy
      obtain ⟨_, _, rfl⟩ := List.mem_map.1 hx
      obtain ⟨_, _, h⟩ := List.mem_map.1 hy
      exact hne (congrArg Prod.fst h).symm
  · intro a b
    simp only [List.mem_flatMap, List.mem_map, List.mem_filter, decide_eq_true_eq, Prod.mk.injEq]
    constructor
    · rintro ⟨⟨x, i⟩, hx, ⟨y, j⟩, ⟨hy, hle⟩, rfl, rfl⟩
      exact ⟨i, j, hle, List.mem_zipIdx_iff_getElem?.1 hx, List.mem_zipIdx_iff_getElem?.1 hy⟩
    · rintro ⟨i, j, hle, ha, hb⟩
      exact ⟨(a, i), List.mem_zipIdx_iff_getElem?.2 ha, (b, j), ⟨List.mem_zipIdx_iff_getElem?.2 hb, hle⟩, rfl, rfl⟩

/-- three variables: six panels -/
example : plotCorner ["a".toList, "b".toList, "c".toList] none = .ok [("a".toList, "a".toList), ("b".toList, "a".toList), ("b".toList, "b".toList),
    ("c".toList, "a".toList), ("c".toList, "b".toList), ("c".toList, "c".toList)] := by decide

/-- **C114**, the exception: the marginal of a single variable cannot be drawn -/
theorem C114_corner_violated (available : List Str) (v : Str) (h : v ∈ available) : plotCorner available (some [v]) = .error .typeError := by
  simp [plotCorner, cornerVars, h]

/-- **C114**: `plot_kalman_filter` shows the output asked for when it is written in lower case -/
theorem C114_kalman_partial (groups : List Str) (output group : Str) (observed : Bool)
    (ho : output ∈ ["filtered".toList, "predicted".toList, "smoothed".toList]) :
    kalmanGroup groups output group observed =
      if output ++ "_".toList ++ group ++ (if observed then "_observed".toList else []) ∈ groups then
        .ok (output ++ "_".toList ++ group ++ (if observed then "_observed".toList else [])) else .error .keyError := by
  have hl : lower output ∈ ["filtered".toList, "predicted".toList, "smoothed".toList] := by
    simp only [List.mem_cons, List.not_mem_nil, or_false] at ho
    rcases ho with rfl | rfl | rfl <;> decide
  unfold kalmanGroup
  rw [if_pos hl]
  rfl

/-- **C114**, the exception: an output name in other letters passes the check of the argument, and then is not found -/
theorem C114_kalman_violated : kalmanGroup ["filtered_posterior".toList] "Filtered".toList "posterior".toList false = .error .keyError := by
  decide


/-! ## C115: eigenvalues -/

namespace Plot
theorem foldl_max_le (l : List ℝ) (a b : ℝ) : l.foldl max a ≤ b ↔ a ≤ b ∧ ∀ x ∈ l, x ≤ b := by
  induction l generalizing a with
  | nil => simp
  | cons x l ih => simp only [List.foldl_cons, ih, max_le_iff, List.mem_cons, forall_eq_or_imp]; tauto

theorem le_foldl_min (l : List ℝ) (a b : ℝ) : b ≤ l.foldl min a ↔ b ≤ a ∧ ∀ x ∈ l, b ≤ x := by
  induction l generalizing a with
  | nil => simp
  | cons x l ih => simp only [List.foldl_cons, ih, le_min_iff, List.mem_cons, forall_eq_or_imp]; tauto

theorem le_foldl_max (l : List ℝ) (a x : ℝ) (h : x ∈ a :: l) : x ≤ l.foldl max a := by
  have := (foldl_max_le l a (l.foldl max a)).1 (le_refl _)
  rcases List.mem_cons.1 h with rfl | h
  · exact this.1
  · exact this.2 x h

theorem foldl_min_le (l : List ℝ) (a x : ℝ) (h : x ∈ a :: l) : l.foldl min a ≤ x := by
  have := (le_foldl_min l a (l.foldl min a)).1 (le_refl _)
  rcases List.mem_cons.1 h with rfl | h
  · exact this.1
  · exact this.2 x h

theorem kept_mem {α : Type} (l : List α) (keep : α → Bool) (i : Nat) :
    i ∈ (l.zipIdx.filter fun p => keep p.1).map Prod.snd ↔ ∃ m, l[i]? = some m ∧ keep m = true := by
  simp only [List.mem_map, List.mem_filter]
  constructor
  · rintro ⟨⟨m, j⟩, ⟨h1, h2⟩, rfl⟩; exact ⟨m, List.mem_zipIdx_iff_getElem?.1 h1, h2⟩
  · rintro ⟨m, h1, h2⟩; exact ⟨(m, i), ⟨List.mem_zipIdx_iff_getElem?.2 h1, h2⟩, rfl⟩

theorem kept_sorted {α : Type} (l : List α) (keep : α × Nat → Bool) : ((l.zipIdx.filter keep).map Prod.snd).Pairwise (· < ·) := by
  refine List.Pairwise.sublist (List.filter_sublist.map _) ?_
  rw [List.zipIdx_map_snd]
  exact List.pairwise_lt_range'
end Plot
open Plot

open Classical in
/-- **C115**: the eigenvalues shown are exactly those whose modulus lies in the range asked for, in their order, and the number announced as
left out is the number of the others -/
theorem C115_filter (mods : List F) (zeros infinite : Bool) (zeroTol : ℝ) (tol : Option ℝ) :
    ∃ t, (∀ t', tol = some t' → t = t') ∧
      (tol = none → ∀ x, .num x ∈ mods → x < 1000000 → x < t) ∧
      let r := filterEigenvalues mods zeros infinite zeroTol tol
      r.1.Pairwise (· < ·) ∧ r.1.length + r.2 = mods.length ∧
      ∀ i, i ∈ r.1 ↔ ∃ m, mods[i]? = some m ∧ (zeros = true → m = .inf ∨ ∃ x, m = .num x ∧ zeroTol < x) ∧
        (infinite = true → ∃ x, m = .num x ∧ x < t) := by
  refine ⟨infTol tol mods, fun t' h => by rw [h]; rfl, ?_, ?_, ?_, fun i => ?_⟩
  · rintro rfl x hx h6
    have hmem : x ∈ finiteMods mods :=
      List.mem_filterMap.2 ⟨.num x, hx, by simp [h6]⟩
    simp only [infTol]
    split
    · exact h6
    · rename_i y ys he
      have hle : x ≤ ys.foldl max y := le_foldl_max ys y x (by rw [← he]; exact hmem)
      rcases le_or_gt (ys.foldl max y) 0 with h0 | h0
      · exact lt_of_lt_of_le (by linarith) (le_max_right _ _)
      · exact lt_of_lt_of_le (by linarith) (le_max_left _ _)
  · exact kept_sorted _ _
  · have hle : ((mods.zipIdx.filter fun p => (!zeros || decide (p.1.above zeroTol)) && (!infinite || decide (p.1.below (infTol tol mods)))).map Prod.snd).length ≤ mods.length := by
      rw [List.length_map]
      refine le_trans (List.length_filter_le _ _) (by simp)
    simp only [filterEigenvalues]
    exact Nat.add_sub_cancel' hle
  · simp only [filterEigenvalues]
    rw [kept_mem mods (fun m => (!zeros || decide (m.above zeroTol)) && (!infinite || decide (m.below (infTol tol mods))))]
    refine exists_congr fun m => and_congr_right fun _ => ?_
    simp only [Bool.and_eq_true, Bool.or_eq_true, Bool.not_eq_true', decide_eq_true_eq]
    cases m <;> cases zeros <;> cases infinite <;> simp [F.above, F.below]

open Classical in
/-- **C115**: the eigenvalues of `plot_eigenvalues` are those with modulus below ten, in red those outside the unit circle -/
theorem C115_drawn (mods : List F) (i : Nat) (red : Bool) :
    (i, red) ∈ (plotEigenvalues mods).1 ↔ ∃ x, mods[i]? = some (.num x) ∧ x < 10 ∧ (red = true ↔ 1 < x) := by
  simp only [plotEigenvalues, List.mem_map, List.mem_filter, Prod.mk.injEq, decide_eq_true_eq]
  constructor
  · rintro ⟨⟨m, j⟩, ⟨h1, h2⟩, rfl, rfl⟩
    have h1 := List.mem_zipIdx_iff_getElem?.1 h1
    cases m with
    | num x => exact ⟨x, h1, h2, by rw [decide_eq_true_eq]; exact Iff.rfl⟩
    | inf => exact h2.elim
    | nan => exact h2.elim
  · rintro ⟨x, h1, h2, h3⟩
    refine ⟨(.num x, i), ⟨List.mem_zipIdx_iff_getElem?.2 h1, h2⟩, rfl, ?_⟩
    cases red
    · rw [decide_eq_false_iff_not]; exact fun h => by simpa using h3.2 h
    · rw [decide_eq_true_eq]; exact h3.1 rfl

/-- **C115**: every eigenvalue is either drawn or counted as not shown, if none has modulus ten or is NaN -/
theorem C115_count_partial (mods : List F) (h : ∀ m ∈ mods, m ≠ .num 10 ∧ m ≠ .nan) :
    (plotEigenvalues mods).1.length + (plotEigenvalues mods).2 = mods.length := by
  classical
  have h1 : (plotEigenvalues mods).1.length = (mods.filter fun m => decide (m.below 10)).length := by
    simp only [plotEigenvalues, List.length_map]
    conv_rhs => rw [← List.zipIdx_map_fst 0 mods, List.filter_map, List.length_map]
    congr!
  have h2 : (plotEigenvalues mods).2 = (mods.filter fun m => !decide (m.below 10)).length := by
    simp only [plotEigenvalues]
    congr 1
    refine List.filter_congr fun m hm => ?_
    obtain ⟨h3, h4⟩ := h m hm
    rw [Bool.eq_iff_iff, Bool.not_eq_true', decide_eq_true_eq, decide_eq_false_iff_not]
    cases m with
    | num x =>
      have : x ≠ 10 := fun h => h3 (by rw [h])
      exact ⟨fun h => not_lt.2 h.le, fun h => lt_of_le_of_ne (not_lt.1 h) (Ne.symm this)⟩
    | inf => simp [F.above, F.below]
    | nan => exact absurd rfl h4
  rw [h1, h2]
  simpa [List.countP_eq_length_filter] using (List.length_eq_countP_add_countP (p := fun m => decide (m.below 10)) (l := mods)).symm

/-- **C115**, the exception: an eigenvalue of modulus ten is neither drawn nor counted -/
theorem C115_count_violated : plotEigenvalues [.num 10] = ([], 0) := by
  simp [plotEigenvalues, F.below, F.above]

/-- **C115**: the axes of an eigenvalue panel are equally long and show every eigenvalue, away from the border -/
theorem C115_limits (re im : List ℝ) (hre : re ≠ []) (him : im ≠ []) :
    let l := axisLimits re im
    l.1.2 - l.1.1 = 2 * l.2.2 ∧ l.2.1.2 - l.2.1.1 = 2 * l.2.2 ∧ (∀ x ∈ re, l.1.1 < x ∧ x < l.1.2) ∧ ∀ y ∈ im, l.2.1.1 < y ∧ y < l.2.1.2 := by
  cases re with
  | nil => exact absurd rfl hre
  | cons r rs =>
    cases im with
    | nil => exact absurd rfl him
    | cons i is =>
      have a1 := fun x hx => le_foldl_max rs r x hx
      have a2 := fun x hx => foldl_min_le rs r x hx
      have b1 := fun x hx => le_foldl_max is i x hx
      have b2 := fun x hx => foldl_min_le is i x hx
      simp only [axisLimits]
      generalize rs.foldl max r = M at *
      generalize rs.foldl min r = m at *
      generalize is.foldl max i = N at *
      generalize is.foldl min i = n at *
      have hp : 0 < max (M - m) (1 / 10) * (3 / 10) := by
        have : (0 : ℝ) < max (M - m) (1 / 10) := lt_of_lt_of_le (by norm_num) (le_max_right _ _)
        linarith
      have hq : 0 < max (N - n) (1 / 10) * (3 / 10) := by
        have : (0 : ℝ) < max (N - n) (1 / 10) := lt_of_lt_of_le (by norm_num) (le_max_right _ _)
        linarith
      generalize max (M - m) (1 / 10) * (3 / 10) = p at *
      generalize max (N - n) (1 / 10) * (3 / 10) = q at *
      have h1 := le_max_left (M + p - (m - p)) (N + q - (n - q))
      have h2 := le_max_right (M + p - (m - p)) (N + q - (n - q))
      generalize max (M + p - (m - p)) (N + q - (n - q)) = w at *
      refine ⟨by ring, by ring, fun x hx => ?_, fun y hy => ?_⟩
      · have := a1 x hx; have := a2 x hx
        constructor <;> linarith
      · have := b1 y hy; have := b2 y hy
        constructor <;> linarith

/-- **C115**: an arrow starts at an eigenvalue and ends where the first-order change of the eigenvalue puts it when the parameter moves by the
fraction asked for; the eigenvalue that moves most has its arrow -/
theorem C115_arrows (pts grads : List (ℝ × ℝ)) (mags : List ℝ) (param perturbation minFrac : ℝ) (i : Nat) :
    (∀ e, (i, e) ∈ arrows pts grads mags param perturbation minFrac → ∃ p d, pts[i]? = some p ∧ grads[i]? = some d ∧
      e = (p.1 + d.1 * (param * perturbation), p.2 + d.2 * (param * perturbation))) ∧
    (∀ p d m, pts[i]? = some p → grads[i]? = some d → mags[i]? = some m → (∀ m' ∈ mags, m' ≤ m) → 1 / 1000000000000 < m → minFrac < 1 →
      ∃ e, (i, e) ∈ arrows pts grads mags param perturbation minFrac) := by
  have hz : ∀ p d m, ((p, d, m), i) ∈ (pts.zip (grads.zip mags)).zipIdx ↔ pts[i]? = some p ∧ grads[i]? = some d ∧ mags[i]? = some m := by
    intro p d m
    rw [List.mem_zipIdx_iff_getElem?]
    simp only [List.getElem?_zip_eq_some]
  constructor
  · intro e he
    simp only [arrows, List.mem_map, List.mem_filter, Prod.mk.injEq] at he
    obtain ⟨⟨⟨p, d, m⟩, j⟩, ⟨h1, _⟩, rfl, rfl⟩ := he
    obtain ⟨hp, hd, _⟩ := (hz p d m).1 h1
    exact ⟨p, d, hp, hd, rfl⟩
  · intro p d m hp hd hm hmax h12 hmin
    refine ⟨(p.1 + d.1 * (param * perturbation), p.2 + d.2 * (param * perturbation)), ?_⟩
    simp only [arrows, List.mem_map, List.mem_filter, Prod.mk.injEq]
    refine ⟨((p, d, m), i), ⟨(hz p d m).2 ⟨hp, hd, hm⟩, ?_⟩, rfl, rfl, rfl⟩
    rw [decide_eq_true_eq]
    have hpos : 0 < m := lt_trans (by norm_num) h12
    cases mags with
    | nil => simp at hm
    | cons a l =>
      have hle : l.foldl max a ≤ m := (foldl_max_le l a m).2 ⟨hmax a (List.mem_cons_self ..), fun x hx => hmax x (List.mem_cons_of_mem _ hx)⟩
      have hge : m ≤ l.foldl max a := le_foldl_max l a m (List.mem_of_getElem? hm)
      have he : l.foldl max a = m := le_antisymm hle hge
      dsimp only
      rw [he, if_pos h12]
      nlinarith

/-- two eigenvalues; the second moves, by its gradient times one per cent of the parameter -/
example : arrows [(1, 0), (1 / 2, 0)] [(0, 0), (2, 0)] [0, 2] 10 (1 / 100) (1 / 20) = [(1, (7 / 10, 0))] := by
  norm_num [arrows]


/-! ## C116: solvability -/

namespace Plot

/-- the labels of a table of solvability results (perturbation_diagnostics.py:120-161); `none` is success -/
def stepLabel : FailStep → Str
  | .steadyState => "steady_state".toList
  | .perturbation => "perturbation".toList
  | .blanchardKahn => "blanchard-kahn".toList
  | .deterministicNorm => "deterministic_norm".toList
  | .stochasticNorm => "stochastic_norm".toList

/-- bars that stand side by side from `x` -/
def Abut : Rat → List (Option Str × Rat × Rat) → Prop
  | _, [] => True
  | x, b :: bs => b.2.1 = x ∧ Abut (x + b.2.2) bs

theorem bars_abut (draws : List (Option Str)) : ∀ (ls : List (Option Str)) (x : Rat), Abut x (summaryBars draws ls x)
  | [], _ => trivial
  | l :: ls, x => by
    simp only [summaryBars]
    split
    · exact bars_abut draws ls x
    · exact ⟨rfl, bars_abut draws ls _⟩

theorem bars_mem (draws : List (Option Str)) : ∀ (ls : List (Option Str)) (x : Rat) (l : Option Str) (w : Rat),
    (∃ a, (l, a, w) ∈ summaryBars draws ls x) ↔ l ∈ ls ∧ w = (draws.count l : Rat) / draws.length ∧ w ≠ 0
  | [], _, l, w => by simp [summaryBars]
  | k :: ls, x, l, w => by
    simp only [summaryBars]
    split
    · rename_i h0
      rw [bars_mem draws ls x l w, List.mem_cons]
      constructor
      · rintro ⟨h1, h2⟩; exact ⟨Or.inr h1, h2⟩
      · rintro ⟨rfl | h1, rfl, h3⟩
        · exact absurd h0 h3
        · exact ⟨h1, rfl, h3⟩
    · rename_i h0
      have ih := bars_mem draws ls (x + (draws.count k : Rat) / draws.length) l w
      simp only [List.mem_cons, Prod.mk.injEq]
      constructor
      · rintro ⟨a, ⟨rfl, _, rfl⟩ | h⟩
        · exact ⟨Or.inl rfl, rfl, h0⟩
        · obtain ⟨h1, h2⟩ := ih.1 ⟨a, h⟩
          exact ⟨Or.inr h1, h2⟩
      · rintro ⟨rfl | h1, h2⟩
        · exact ⟨x, Or.inl ⟨rfl, rfl, h2.1⟩⟩
        · obtain ⟨a, h⟩ := ih.2 ⟨h1, h2⟩
          exact ⟨a, Or.inr h⟩

theorem bars_sum (draws : List (Option Str)) : ∀ (ls : List (Option Str)) (x : Rat),
    ((summaryBars draws ls x).map fun b => b.2.2).sum = ((ls.map fun l => draws.count l).sum : Nat) / (draws.length : Rat)
  | [], _ => by simp [summaryBars]
  | l :: ls, x => by
    simp only [summaryBars]
    split
    · rename_i h0
      rw [bars_sum draws ls x, List.map_cons, List.sum_cons, Nat.cast_add, add_div, h0, zero_add]
    · rw [List.map_cons, List.sum_cons, bars_sum draws ls, List.map_cons, List.sum_cons, Nat.cast_add, add_div]

theorem count_total (ls : List (Option Str)) (hn : ls.Nodup) : ∀ draws : List (Option Str), (∀ d ∈ draws, d ∈ ls) →
    (ls.map fun l => draws.count l).sum = draws.length
  | [], _ => by simp
  | d :: draws, h => by
    have ih := count_total ls hn draws fun x hx => h x (List.mem_cons_of_mem _ hx)
    have hd := h d (List.mem_cons_self ..)
    have e : ∀ l, (d :: draws).count l = draws.count l + (if d = l then 1 else 0) := by
      intro l; rw [List.count_cons]; simp
    simp only [e, List.length_cons, ← ih]
    rw [List.sum_map_add]
    congr 1
    clear ih e h
    induction ls with
    | nil => cases hd
    | cons a ls ih2 =>
      rw [List.map_cons, List.sum_cons]
      rw [List.nodup_cons] at hn
      by_cases ha : d = a
      · rw [if_pos ha]
        have : (ls.map fun l => if d = l then 1 else 0).sum = 0 := by
          rw [List.sum_eq_zero_iff]
          intro x hx
          obtain ⟨l, hl, rfl⟩ := List.mem_map.1 hx
          rw [if_neg]
          rintro rfl; exact hn.1 (ha ▸ hl)
        omega
      · rw [if_neg ha, ih2 hn.2 (by rcases List.mem_cons.1 hd with h | h; exact absurd h ha; exact h)]

end Plot
open Plot

/-- **C116**: the summary of a solvability check is a row of bars standing side by side from 0 to 1: one for success and for each stage at
which some draw failed, as wide as the share of these draws -/
theorem C116_summary (steps : List (Option FailStep)) (hne : steps ≠ []) :
    let bars := plotSummary (steps.map (Option.map stepLabel))
    Abut 0 bars ∧ (bars.map fun b => b.2.2).sum = 1 ∧ (bars.map Prod.fst).Nodup ∧
      ∀ (s : Option FailStep) w, (∃ x, (s.map stepLabel, x, w) ∈ bars) ↔ s ∈ steps ∧ w = (steps.count s : Rat) / steps.length := by
  have hinj : Function.Injective (Option.map stepLabel) := by
    intro a b h
    rcases a with _ | a <;> rcases b with _ | b
    · rfl
    · simp at h
    · simp at h
    · simp only [Option.map_some, Option.some.injEq] at h
      cases a <;> cases b <;> first | rfl | (exfalso; revert h; decide)
  have horder : ∀ s : Option FailStep, s.map stepLabel ∈ summaryOrder := by
    intro s
    rcases s with _ | s
    · decide
    · cases s <;> decide
  have hpos : (0 : Rat) < steps.length := by
    have := List.length_pos_iff.2 hne
    exact_mod_cast this
  intro bars
  refine ⟨bars_abut _ _ _, ?_, ?_, fun s w => ?_⟩
  · show ((summaryBars _ _ _).map fun b => b.2.2).sum = 1
    rw [bars_sum, count_total _ (by decide)]
    · rw [List.length_map, div_self (ne_of_gt hpos)]
    · intro d hd
      obtain ⟨s, _, rfl⟩ := List.mem_map.1 hd
      exact horder s
  · have : ∀ (ls : List (Option Str)) x, ((summaryBars (steps.map (Option.map stepLabel)) ls x).map Prod.fst).Sublist ls := by
      intro ls
      induction ls with
      | nil => intro x; exact List.Sublist.refl _
      | cons l ls ih =>
        intro x
        simp only [summaryBars]
        split
        · exact (ih x).trans (List.sublist_cons_self _ _)
        · exact (ih _).cons_cons _
    exact (this _ _).nodup (by decide)
  · show (∃ x, (s.map stepLabel, x, w) ∈ summaryBars _ _ _) ↔ _
    rw [bars_mem, List.count_map_of_injective _ _ hinj, List.length_map]
    constructor
    · rintro ⟨_, rfl, h⟩
      refine ⟨?_, rfl⟩
      by_contra hs
      rw [List.count_eq_zero_of_not_mem hs] at h
      simp at h
    · rintro ⟨hs, rfl⟩
      refine ⟨horder s, rfl, ?_⟩
      have : 0 < steps.count s := List.count_pos_iff.2 hs
      have : (0 : Rat) < steps.count s := by exact_mod_cast this
      exact ne_of_gt (div_pos this hpos)

/-- four draws: two solved, one without steady state, one indeterminate -/
example : plotSummary ([none, some FailStep.steadyState, none, some .blanchardKahn].map (Option.map stepLabel)) =
    [(none, 0, 1 / 2), (some "steady_state".toList, 1 / 2, 1 / 4), (some "blanchard-kahn".toList, 3 / 4, 1 / 4)] := by decide +kernel

namespace Plot
theorem fail_mem (draws : List (Option Str)) (i : Nat) (r : Str) :
    (i, r) ∈ draws.zipIdx.filterMap (fun p => p.1.map fun r => (p.2, r)) ↔ draws[i]? = some (some r) := by
  simp only [List.mem_filterMap, Option.map_eq_some_iff, Prod.mk.injEq]
  constructor
  · rintro ⟨⟨d, j⟩, h1, a, rfl, rfl, rfl⟩; exact List.mem_zipIdx_iff_getElem?.1 h1
  · intro h; exact ⟨(some r, i), List.mem_zipIdx_iff_getElem?.2 h, r, rfl, rfl, rfl⟩
end Plot
open Plot

/-- **C116**: a panel of the solvability figure shows every draw exactly once, in the series of its own outcome -/
theorem C116_scatter (draws : List (Option Str)) : (offDiagonal draws).Nodup ∧ (offDiagonal draws).length = draws.length ∧
    ∀ i o, (i, o) ∈ offDiagonal draws ↔ draws[i]? = some o := by
  have hmem : ∀ i o, (i, o) ∈ offDiagonal draws ↔ draws[i]? = some o := by
    intro i o
    simp only [offDiagonal, List.mem_append, List.mem_map, List.mem_filter, List.mem_flatMap, List.mem_eraseDups, Prod.mk.injEq, decide_eq_true_eq]
    constructor
    · rintro (⟨⟨d, j⟩, ⟨h1, h2⟩, rfl, rfl⟩ | ⟨r, _, ⟨j, r'⟩, ⟨h1, rfl⟩, rfl, rfl⟩)
      · have := List.mem_zipIdx_iff_getElem?.1 h1
        cases d with
        | none => exact this
        | some _ => simp at h2
      · exact (fail_mem draws j _).1 h1
    · intro h
      cases o with
      | none => exact Or.inl ⟨(none, i), ⟨List.mem_zipIdx_iff_getElem?.2 h, rfl⟩, rfl, rfl⟩
      | some r =>
        have := (fail_mem draws i r).2 h
        exact Or.inr ⟨r, ⟨(i, r), this, rfl⟩, (i, r), ⟨this, rfl⟩, rfl, rfl⟩
  have hidx : ∀ {α : Type} (f : Option Str × Nat → Option α) (g : α → Nat), (∀ p a, f p = some a → g a = p.2) →
      ((draws.zipIdx.filterMap f).map g).Pairwise (· < ·) := by
    intro α f g hfg
    rw [List.pairwise_map, List.pairwise_filterMap]
    have : draws.zipIdx.Pairwise fun a b => a.2 < b.2 := by
      rw [← List.pairwise_map (f := Prod.snd), List.zipIdx_map_snd]
      exact List.pairwise_lt_range'
    exact this.imp fun {a b} hlt x hx y hy => by rw [hfg a x hx, hfg b y hy]; exact hlt
  have hnd : (offDiagonal draws).Nodup := by
    simp only [offDiagonal]
    refine List.nodup_append.2 ⟨?_, ?_, ?_⟩
    · refine List.Nodup.of_map Prod.fst ?_
      rw [List.map_map]
      have := kept_sorted draws fun p => p.1.isNone
      exact (this.imp fun h => Nat.ne_of_lt h)
    · rw [List.nodup_flatMap]
      refine ⟨fun r _ => ?_, ?_⟩
      · refine List.Nodup.of_map Prod.fst ?_
        rw [List.map_map]
        have h1 := hidx (fun p => p.1.map fun r => (p.2, r)) Prod.fst (by rintro p a h; obtain ⟨_, _, rfl⟩ := Option.map_eq_some_iff.1 h; rfl)
        have h2 := List.Pairwise.sublist (List.Sublist.map Prod.fst (List.filter_sublist (p := fun p => decide (p.2 = r)))) h1
        exact h2.imp fun h => Nat.ne_of_lt h
      · refine (OEq.nodup_eraseDups _).imp fun {a b} hne => ?_
        intro x hx hy
        obtain ⟨p, hp, rfl⟩ := List.mem_map.1 hx
        obtain ⟨q, hq, h⟩ := List.mem_map.1 hy
        have := congrArg Prod.snd h
        simp at this
        exact hne this.symm
    · rintro a ha b hb rfl
      obtain ⟨p, hp, rfl⟩ := List.mem_map.1 ha
      obtain ⟨r, _, h⟩ := List.mem_flatMap.1 hb
      obtain ⟨q, _, h⟩ := List.mem_map.1 h
      simp at h
  refine ⟨hnd, ?_, hmem⟩
  have hz : (draws.zipIdx.map fun p => (p.2, p.1)).Nodup := by
    refine List.Nodup.of_map Prod.fst ?_
    rw [List.map_map]
    show (draws.zipIdx.map Prod.snd).Nodup
    rw [List.zipIdx_map_snd]
    exact List.nodup_range'
  have := ((List.perm_ext_iff_of_nodup hnd hz).2 fun ⟨i, o⟩ => by
    rw [hmem, List.mem_map]
    constructor
    · intro h; exact ⟨(o, i), List.mem_zipIdx_iff_getElem?.2 h, rfl⟩
    · rintro ⟨⟨d, j⟩, h, he⟩
      cases he
      exact List.mem_zipIdx_iff_getElem?.1 h).length_eq
  rw [this]; simp

/-- **C116**: each density of a diagonal panel is that of all the draws that were solved, or of all the draws that were not -/
theorem C116_density (draws : List (Option Str)) (s : List Nat) (hs : s ∈ diagonal draws) :
    2 ≤ s.length ∧ ((∀ i, i ∈ s ↔ draws[i]? = some none) ∨ ∀ i, i ∈ s ↔ ∃ r, draws[i]? = some (some r)) := by
  simp only [diagonal, List.mem_filter, List.mem_cons, List.not_mem_nil, or_false, decide_eq_true_eq] at hs
  obtain ⟨h1 | h1, h2⟩ := hs
  · refine ⟨h2, Or.inl fun i => ?_⟩
    rw [h1, kept_mem draws fun m => m.isNone]
    constructor
    · rintro ⟨m, hm, h⟩; cases m with | none => exact hm | some _ => simp at h
    · intro h; exact ⟨_, h, rfl⟩
  · refine ⟨h2, Or.inr fun i => ?_⟩
    rw [h1, kept_mem draws fun m => !m.isNone]
    constructor
    · rintro ⟨m, hm, h⟩; cases m with | none => simp at h | some r => exact ⟨r, hm⟩
    · rintro ⟨r, h⟩; exact ⟨_, h, rfl⟩

/-- **C116**: and both densities are drawn, when there are two draws or more of the kind -/
theorem C116_densities (draws : List (Option Str)) (i j : Nat) (hij : i ≠ j) :
    (draws[i]? = some none → draws[j]? = some none → ∃ s ∈ diagonal draws, ∀ k, k ∈ s ↔ draws[k]? = some none) ∧
    (∀ r r', draws[i]? = some (some r) → draws[j]? = some (some r') → ∃ s ∈ diagonal draws, ∀ k, k ∈ s ↔ ∃ r, draws[k]? = some (some r)) := by
  have two : ∀ s : List Nat, i ∈ s → j ∈ s → 2 ≤ s.length := by
    intro s hi hj
    match s, hi, hj with
    | [a], hi, hj => simp at hi hj; omega
    | _ :: _ :: _, _, _ => simp
  constructor
  · intro hi hj
    have hs : ∀ k, k ∈ (draws.zipIdx.filter fun p => p.1.isNone).map Prod.snd ↔ draws[k]? = some none := by
      intro k
      rw [kept_mem draws fun m => m.isNone]
      constructor
      · rintro ⟨m, hm, h⟩; cases m with | none => exact hm | some _ => simp at h
      · intro h; exact ⟨_, h, rfl⟩
    exact ⟨_, List.mem_filter.2 ⟨List.mem_cons_self .., decide_eq_true (two _ ((hs i).2 hi) ((hs j).2 hj))⟩, hs⟩
  · intro r r' hi hj
    have hs : ∀ k, k ∈ (draws.zipIdx.filter fun p => !p.1.isNone).map Prod.snd ↔ ∃ r, draws[k]? = some (some r) := by
      intro k
      rw [kept_mem draws fun m => !m.isNone]
      constructor
      · rintro ⟨m, hm, h⟩; cases m with | none => simp at h | some r => exact ⟨r, hm⟩
      · rintro ⟨r, h⟩; exact ⟨_, h, rfl⟩
    exact ⟨_, List.mem_filter.2 ⟨List.mem_cons_of_mem _ (List.mem_cons_self ..), decide_eq_true (two _ ((hs i).2 ⟨r, hi⟩) ((hs j).2 ⟨r', hj⟩))⟩, hs⟩

/-- a table with both outcomes: the two series have two draws each -/
example : diagonal [none, some "perturbation".toList, none, some "steady_state".toList] = [[0, 2], [1, 3]] := by decide +kernel

end GE
