import Verif.Props.Tensor
import Mathlib.Data.List.OfFn
import Mathlib.Logic.Relation
/-!
# C100, continued: nested joins as block-diagonal matrices; rewrites anywhere in a graph -/

namespace GE

namespace Tns

theorem evalL_of {env : TEnv} : ∀ (xs : List TExpr) (ts : List Tensor), xs.length = ts.length →
    (∀ (i : ℕ) (x : TExpr) (t : Tensor), xs[i]? = some x → ts[i]? = some t → x.eval env = some t) → TExpr.evalL env xs = some ts
  | [], [], _, _ => rfl
  | [], _ :: _, h, _ => by simp at h
  | _ :: _, [], h, _ => by simp at h
  | x :: xs, t :: ts, h, hx => by
    rw [TExpr.evalL, hx 0 x t rfl rfl, Option.bind_some, evalL_of xs ts (by simpa using h) (fun i y u h1 h2 => hx (i + 1) y u (by simpa using h1) (by simpa using h2))]
    rfl

/-- a concatenation in which one piece only is not zero -/
theorem joinVal_single {a : ℕ} : ∀ (ts : List Tensor) (k : ℕ) (x : Tensor) (idx : List ℕ), ts[k]? = some x → a < idx.length → a < x.shape.length →
    (∀ (i : ℕ) (y : Tensor), ts[i]? = some y → i ≠ k → ∀ idx, y.val idx = 0) →
    joinVal a ts idx = if ((ts.take k).map fun y => y.shape.getD a 0).sum ≤ idx.getD a 0
      then x.val (idx.set a (idx.getD a 0 - ((ts.take k).map fun y => y.shape.getD a 0).sum)) else 0
  | [], _, _, _, h, _, _, _ => by simp at h
  | y :: ts, 0, x, idx, h, ha, hx, hz => by
    simp at h; subst h
    have e : idx.set a (idx.getD a 0 - 0) = idx := by
      apply ext_getD (by simp)
      intro b hb
      rw [getD_set]
      split_ifs with h
      · rw [h.1]; rfl
      · rfl
    rw [List.take_zero, List.map_nil, List.sum_nil, if_pos (Nat.zero_le _), e, joinVal]
    split_ifs with h
    · rfl
    · rw [y.zero_outside idx (fun hc => h (hc.2 a hx))]
      have : ∀ (ts : List Tensor) (idx : List ℕ), (∀ y ∈ ts, ∀ idx, y.val idx = 0) → joinVal a ts idx = 0 := by
        intro ts
        induction ts with
        | nil => intro _ _; rfl
        | cons z zs ih =>
          intro idx hz
          rw [joinVal]
          split_ifs
          · exact hz z (by simp) idx
          · exact ih _ (fun y hy => hz y (by simp [hy]))
      apply this
      intro z hz'
      obtain ⟨i, hi⟩ := List.mem_iff_getElem?.1 hz'
      exact hz (i + 1) z (by simpa using hi) (by simp)
  | y :: ts, k + 1, x, idx, h, ha, hx, hz => by
    rw [joinVal, List.take_succ_cons, List.map_cons, List.sum_cons]
    have ih := joinVal_single ts k x (idx.set a (idx.getD a 0 - y.shape.getD a 0)) (by simpa using h) (by simpa using ha) hx
      (fun i z h1 h2 => hz (i + 1) z (by simpa using h1) (by omega))
    rw [ih, getD_set, if_pos (c := a = a ∧ a < idx.length) ⟨rfl, ha⟩, List.set_set, hz 0 y rfl (by omega)]
    set o := ((ts.take k).map fun y => y.shape.getD a 0).sum
    by_cases h1 : idx.getD a 0 < y.shape.getD a 0
    · rw [if_pos h1, if_neg (by omega)]
    · rw [if_neg h1]
      by_cases h2 : o ≤ idx.getD a 0 - y.shape.getD a 0
      · rw [if_pos h2, if_pos (by omega)]
        congr 2; omega
      · rw [if_neg h2, if_neg (by omega)]

/-- rows of a block-diagonal grid and its diagonal; `off` columns stand to the left -/
def RowsRel (N : ℕ) : ℕ → List Tensor → List Tensor → Prop
  | _, [], [] => True
  | off, R :: Rs, D :: Ds => R.shape.getD (N - 2) 0 = D.shape.getD (N - 2) 0 ∧ R.shape.length = N ∧ D.shape.length = N ∧
      (∀ idx, InShape R.shape idx → R.val idx = if off ≤ idx.getD (N - 1) 0 then D.val (idx.set (N - 1) (idx.getD (N - 1) 0 - off)) else 0) ∧
      RowsRel N (off + D.shape.getD (N - 1) 0) Rs Ds
  | _, _, _ => False

theorem rowsRel_of {N : ℕ} : ∀ (Rs Ds : List Tensor) (off : ℕ), Rs.length = Ds.length →
    (∀ (i : ℕ) (R D : Tensor), Rs[i]? = some R → Ds[i]? = some D → R.shape.getD (N - 2) 0 = D.shape.getD (N - 2) 0 ∧ R.shape.length = N ∧ D.shape.length = N ∧
      ∀ idx, InShape R.shape idx → R.val idx = if off + ((Ds.take i).map fun y => y.shape.getD (N - 1) 0).sum ≤ idx.getD (N - 1) 0
        then D.val (idx.set (N - 1) (idx.getD (N - 1) 0 - (off + ((Ds.take i).map fun y => y.shape.getD (N - 1) 0).sum))) else 0) → RowsRel N off Rs Ds
  | [], [], _, _, _ => trivial
  | [], _ :: _, _, h, _ => by simp at h
  | _ :: _, [], _, h, _ => by simp at h
  | R :: Rs, D :: Ds, off, h, hp => by
    obtain ⟨h1, h2, h3, h4⟩ := hp 0 R D rfl rfl
    refine ⟨h1, h2, h3, by simpa using h4, rowsRel_of Rs Ds _ (by simpa using h) (fun i R' D' hR hD => ?_)⟩
    obtain ⟨g1, g2, g3, g4⟩ := hp (i + 1) R' D' (by simpa using hR) (by simpa using hD)
    refine ⟨g1, g2, g3, fun idx hi => ?_⟩
    rw [g4 idx hi, List.take_succ_cons, List.map_cons, List.sum_cons, Nat.add_assoc]

theorem bd_rows {N : ℕ} (hN : 2 ≤ N) (S : List ℕ) (hS : S.length = N) : ∀ (Rs Ds : List Tensor) (off : ℕ) (idx : List ℕ), RowsRel N off Rs Ds →
    (∀ R ∈ Rs, R.shape.set (N - 2) 0 = S.set (N - 2) 0) → idx.length = N → (∀ c, c ≠ N - 2 → c < N → idx.getD c 0 < S.getD c 0) →
    joinVal (N - 2) Rs idx = if off ≤ idx.getD (N - 1) 0 then bdVal N Ds (idx.set (N - 1) (idx.getD (N - 1) 0 - off)) else 0
  | [], [], off, idx, _, _, _, _ => by simp [joinVal, bdVal]
  | [], _ :: _, _, _, h, _, _, _ => by cases h
  | _ :: _, [], _, _, h, _, _, _ => by cases h
  | R :: Rs, D :: Ds, off, idx, ⟨h1, h2, h3, h4, h5⟩, hsh, hl, hin => by
    have hne : N - 2 ≠ N - 1 := by omega
    have hRs := hsh R (by simp)
    rw [joinVal, bdVal]
    have e1 : (idx.set (N - 1) (idx.getD (N - 1) 0 - off)).getD (N - 2) 0 = idx.getD (N - 2) 0 := by rw [getD_set, if_neg (fun h => hne h.1)]
    have e2 : (idx.set (N - 1) (idx.getD (N - 1) 0 - off)).getD (N - 1) 0 = idx.getD (N - 1) 0 - off := by rw [getD_set, if_pos ⟨rfl, by omega⟩]
    rw [e1, e2, h1]
    by_cases hi : idx.getD (N - 2) 0 < D.shape.getD (N - 2) 0
    · rw [if_pos hi, if_pos hi, h4]
      · by_cases ho : off ≤ idx.getD (N - 1) 0
        · rw [if_pos ho, if_pos ho]
          split_ifs with hj
          · rfl
          · apply D.zero_outside
            intro hc
            have := hc.2 (N - 1) (by omega)
            rw [e2] at this
            exact hj this
        · rw [if_neg ho, if_neg ho]
      · refine ⟨by omega, fun c hc => ?_⟩
        by_cases hc2 : c = N - 2
        · subst hc2; rw [h1]; exact hi
        · rw [set_shape_getD hRs hc2]
          exact hin c hc2 (by omega)
    · rw [if_neg hi, if_neg hi, bd_rows hN S hS Rs Ds _ _ h5 (fun R hR => hsh R (by simp [hR])) (by simpa using hl) (fun c hc1 hc2 => by
        rw [getD_set, if_neg (fun h => hc1 h.1)]
        exact hin c hc1 hc2)]
      have e3 : (idx.set (N - 2) (idx.getD (N - 2) 0 - D.shape.getD (N - 2) 0)).getD (N - 1) 0 = idx.getD (N - 1) 0 := by
        rw [getD_set, if_neg (fun h => hne h.1.symm)]
      rw [e3]
      by_cases ho : off ≤ idx.getD (N - 1) 0
      · rw [if_pos ho]
        by_cases hj : idx.getD (N - 1) 0 - off < D.shape.getD (N - 1) 0
        · rw [if_pos hj, if_neg (by omega)]
        · rw [if_neg hj, if_pos (by omega)]
          congr 1
          rw [List.set_comm (idx.getD (N - 1) 0 - off) _ hne.symm, List.set_set]
          congr 1; omega
      · rw [if_neg ho, if_neg (by omega)]

theorem joinMatmul_some {st : Static} {e : TExpr} {z : Int} (h : joinMatmulAxis st e = some z) :
    ∃ axis xs w, e = .join axis xs ∧ constInt axis = some w ∧
      (z = -1 → normAxis (st.ty e).length w = ((st.ty e).length : Int) - 1) ∧ (z = -2 → normAxis (st.ty e).length w = ((st.ty e).length : Int) - 2) := by
  unfold joinMatmulAxis at h
  split at h
  · rename_i axis xs
    split at h
    · cases h
    · rename_i w hw
      dsimp only at h
      refine ⟨axis, xs, w, rfl, hw, ?_, ?_⟩
      · rintro rfl
        split_ifs at h with h1 h2
        · exact h1
        · simp at h
      · rintro rfl
        split_ifs at h with h1 h2
        · simp at h
        · exact h2
  · cases h

theorem collectGrid_some {st : Static} {n : ℕ} : ∀ (rows : List TExpr) (grid : List (List TExpr)), collectGrid st n rows = some grid →
    grid.length = rows.length ∧ ∀ (i : ℕ) (row : TExpr), rows[i]? = some row → joinMatmulAxis st row = some (-1) ∧ (joinInputs row).length = n ∧
      grid[i]? = some (joinInputs row)
  | [], grid, h => by
    simp only [collectGrid, Option.some.injEq] at h
    subst h; simp
  | r :: rows, grid, h => by
    rw [collectGrid] at h
    split_ifs at h with h1 h2
    push Not at h1 h2
    obtain ⟨g, hg, rfl⟩ := Option.map_eq_some_iff.1 h
    obtain ⟨i1, i2⟩ := collectGrid_some rows g hg
    refine ⟨by simp [i1], fun i row hrow => ?_⟩
    cases i with
    | zero => simp at hrow; subst hrow; exact ⟨h1, h2, rfl⟩
    | succ i => simpa using i2 i row (by simpa using hrow)

theorem mapM_get {α β : Type} {f : α → Option β} : ∀ (l : List α) (r : List β), l.mapM f = some r →
    r.length = l.length ∧ ∀ (i : ℕ) (x : α), l[i]? = some x → ∃ y, r[i]? = some y ∧ f x = some y
  | [], r, h => by simp at h; subst h; simp
  | x :: l, r, h => by
    rw [List.mapM_cons] at h
    obtain ⟨y, hy, h⟩ := Option.bind_eq_some_iff.1 h
    obtain ⟨ys, hys, h⟩ := Option.bind_eq_some_iff.1 h
    cases h
    obtain ⟨i1, i2⟩ := mapM_get l ys hys
    refine ⟨by simp [i1], fun i z hz => ?_⟩
    cases i with
    | zero => simp at hz; subst hz; exact ⟨y, rfl, hy⟩
    | succ i => simpa using i2 i z (by simpa using hz)

end Tns

/-- **C100.** A grid of blocks whose columns of blocks have common widths and whose blocks off the diagonal are zero equals the block-diagonal matrix that replaces it;
for any size of the grid, sizes of the blocks and batch axes. What is missing: the code does not check the widths, see `C100_block_diag_violated`. -/
theorem C100_block_diag_partial (st : Static) (env : TEnv) (hs : st.Sound env) (e e' : TExpr) (t : Tensor) (h : e.eval env = some t)
    (hr : nestedJoinToBlockDiag st e = some e')
    (haligned : ∀ axis rows, e = .join axis rows → ∀ r ∈ rows, ∀ r' ∈ rows, ∀ (j : ℕ) b b' tb tb', (joinInputs r)[j]? = some b → (joinInputs r')[j]? = some b' →
      b.eval env = some tb → b'.eval env = some tb' → tb.shape.getD (t.shape.length - 1) 0 = tb'.shape.getD (t.shape.length - 1) 0) :
    e'.eval env = some t := by
  unfold nestedJoinToBlockDiag at hr
  split at hr
  swap
  · cases hr
  rename_i axis rows
  split_ifs at hr with h1 h2
  push Not at h1 h2
  split at hr
  · cases hr
  rename_i grid hgrid
  obtain ⟨ds, hds, rfl⟩ := Option.map_eq_some_iff.1 hr
  obtain ⟨axis', rows', z, e0, hz, -, hzn⟩ := Tns.joinMatmul_some h1
  cases e0
  have hty := hs.ndim _ _ h
  obtain ⟨R0, Rs, a, hRs, ha, hj⟩ := Tns.eval_join h
  rw [Tns.constInt_eval hz] at ha
  obtain ⟨_, _, e1, hax, hall, et⟩ := Tns.tjoin_some hj
  cases e1
  have hts : t.shape = R0.shape.set a ((R0 :: Rs).map fun y => y.shape.getD a 0).sum := by rw [et]; rfl
  have htl : t.shape.length = R0.shape.length := by rw [hts]; simp
  set N := R0.shape.length with hN
  have haN : a + 2 = N := by
    have := hzn rfl
    rw [hty, htl, ← (Tns.axisOf_some ha).2.1] at this
    omega
  have ha2 : a = N - 2 := by omega
  subst ha2
  have hn : ∀ R ∈ R0 :: Rs, R.shape.length = N := fun R hR => Tns.set_shape_len (hall R hR)
  obtain ⟨hgl, hgrow⟩ := Tns.collectGrid_some rows grid hgrid
  obtain ⟨hdl, hdrow⟩ := Tns.mapM_get _ _ hds
  have hlenR := Tns.evalL_length _ _ hRs
  have hdlen : ds.length = rows.length := by rw [hdl, List.length_zipIdx, hgl]
  -- each row
  have hrow : ∀ i : Fin rows.length, ∃ (R D : Tensor) (C : List Tensor) (d : TExpr), (R0 :: Rs)[i.1]? = some R ∧ C[i.1]? = some D ∧ ds[i.1]? = some d ∧
      d.eval env = some D ∧ tjoin (N - 1) C = some R ∧ C.length = rows.length ∧ (∀ (j : ℕ) (y : Tensor), C[j]? = some y → j ≠ i.1 → ∀ idx, y.val idx = 0) ∧
      TExpr.evalL env (joinInputs rows[i.1]) = some C := by
    intro i
    have hri : rows[i.1]? = some rows[i.1] := List.getElem?_eq_getElem i.2
    obtain ⟨hm, hlen, hg⟩ := hgrow i.1 _ hri
    obtain ⟨R, hR, hRe⟩ := Tns.evalL_get _ _ hRs i.1 _ hri
    obtain ⟨ax, cols, w, ecol, hw, hwn, -⟩ := Tns.joinMatmul_some hm
    have htyR := hs.ndim _ _ hRe
    rw [ecol] at hRe hm htyR hg hlen hwn
    obtain ⟨C0, Cs, b, hC, hb, hjC⟩ := Tns.eval_join hRe
    rw [Tns.constInt_eval hw] at hb
    obtain ⟨_, _, e1, hbx, hallC, eR⟩ := Tns.tjoin_some hjC
    cases e1
    have hRl : R.shape.length = N := hn R (List.mem_of_getElem? hR)
    have hC0 : C0.shape.length = N := by rw [← hRl, eR]; simp [Tensor.of]
    have hbN : b = N - 1 := by
      have := hwn rfl
      rw [htyR, hRl, ← hC0, ← (Tns.axisOf_some hb).2.1, hC0] at this
      omega
    subst hbN
    simp only [joinInputs] at hg hlen
    obtain ⟨d, hd, hdi⟩ := hdrow i.1 (cols, i.1) (by rw [List.getElem?_zipIdx, hg]; simp)
    dsimp only at hdi
    unfold diagRow at hdi
    split_ifs at hdi with hall0
    obtain ⟨D, hD, hDe⟩ := Tns.evalL_get _ _ hC i.1 d hdi
    refine ⟨R, D, C0 :: Cs, d, hR, hD, hd, hDe, hjC, by rw [← Tns.evalL_length _ _ hC, hlen], fun j y hy hji => ?_, by rw [ecol]; exact hC⟩
    have hjl : j < cols.length := by
      rw [Tns.evalL_length _ _ hC]
      exact (List.getElem?_eq_some_iff.1 hy).1
    have hcj : cols[j]? = some cols[j] := List.getElem?_eq_getElem hjl
    obtain ⟨y', hy', hye⟩ := Tns.evalL_get _ _ hC j _ hcj
    rw [hy] at hy'
    cases hy'
    apply hs.zero _ _ hye
    rw [List.all_eq_true] at hall0
    have := hall0 (cols[j], j) (List.mem_iff_getElem?.2 ⟨j, by rw [List.getElem?_zipIdx, hcj]; simp⟩)
    simpa [hji] using this
  choose Rf Df Cf df hRf hDf hdf hde hjf hCl hzero hCe using hrow
  have hRget : ∀ i : Fin rows.length, ∀ R, (R0 :: Rs)[i.1]? = some R → R = Rf i := fun i R h => by rw [hRf i] at h; exact (Option.some.inj h).symm
  have hDs : TExpr.evalL env ds = some (List.ofFn Df) := by
    apply Tns.evalL_of _ _ (by rw [hdlen, List.length_ofFn])
    intro i x u hx hu
    have hi : i < rows.length := by rw [← hdlen]; exact (List.getElem?_eq_some_iff.1 hx).1
    rw [List.getElem?_ofFn, dif_pos hi] at hu
    cases hu
    have := hdf ⟨i, hi⟩
    rw [hx] at this
    cases this
    exact hde ⟨i, hi⟩
  -- shapes of the blocks of a row
  have hC : ∀ i : Fin rows.length, ∀ y ∈ Cf i, y.shape.length = N ∧ y.shape.set (N - 1) 0 = (Rf i).shape.set (N - 1) 0 ∧
      (Rf i).shape.getD (N - 1) 0 = ((Cf i).map fun y => y.shape.getD (N - 1) 0).sum ∧ (Rf i).shape.length = N := by
    intro i y hy
    obtain ⟨C0, Cs, eC, hb, hallC, eR⟩ := Tns.tjoin_some (hjf i)
    have hRl : (Rf i).shape.length = N := hn _ (List.mem_of_getElem? (hRf i))
    have hRs' : (Rf i).shape = C0.shape.set (N - 1) ((Cf i).map fun y => y.shape.getD (N - 1) 0).sum := by rw [eR]; rfl
    have hC0 : C0.shape.length = N := by rw [← hRl, hRs']; simp
    refine ⟨by rw [Tns.set_shape_len (hallC y hy), hC0], by rw [hallC y hy, hRs', List.set_set], ?_, hRl⟩
    rw [hRs', Tns.getD_set, if_pos ⟨rfl, hb⟩]
  have hDmem : ∀ i, Df i ∈ Cf i := fun i => List.mem_of_getElem? (hDf i)
  have hpos : 0 < rows.length := by omega
  -- alignment: the width of block j of row i is the width of the j-th diagonal block
  have hwidth : ∀ i j : Fin rows.length, ∀ y, (Cf i)[j.1]? = some y → y.shape.getD (N - 1) 0 = (Df j).shape.getD (N - 1) 0 := by
    intro i j y hy
    have hlen : ∀ i : Fin rows.length, (joinInputs rows[i.1]).length = rows.length := fun i => by rw [Tns.evalL_length _ _ (hCe i), hCl i]
    have h1 : (joinInputs rows[i.1])[j.1]? = some ((joinInputs rows[i.1])[j.1]'(by rw [hlen]; exact j.2)) := List.getElem?_eq_getElem _
    have h2 : (joinInputs rows[j.1])[j.1]? = some ((joinInputs rows[j.1])[j.1]'(by rw [hlen]; exact j.2)) := List.getElem?_eq_getElem _
    obtain ⟨u1, g1, g2⟩ := Tns.evalL_get _ _ (hCe i) j.1 _ h1
    obtain ⟨u2, g3, g4⟩ := Tns.evalL_get _ _ (hCe j) j.1 _ h2
    rw [hy] at g1
    cases g1
    rw [hDf j] at g3
    cases g3
    have := haligned axis rows rfl _ (List.getElem_mem i.2) _ (List.getElem_mem j.2) j.1 _ _ _ _ h1 h2 g2 g4
    rwa [htl] at this
  have hmapw : ∀ i : Fin rows.length, ((Cf i).map fun y => y.shape.getD (N - 1) 0) = (List.ofFn Df).map fun y => y.shape.getD (N - 1) 0 := by
    intro i
    apply List.ext_getElem?
    intro j
    rw [List.getElem?_map, List.getElem?_map, List.getElem?_ofFn]
    by_cases hjn : j < rows.length
    · rw [dif_pos hjn]
      have : (Cf i)[j]? = some ((Cf i)[j]'(by rw [hCl]; exact hjn)) := List.getElem?_eq_getElem _
      rw [this]
      simp only [Option.map_some, Option.some.injEq]
      exact hwidth i ⟨j, hjn⟩ _ this
    · rw [dif_neg hjn, List.getElem?_eq_none (by rw [hCl]; omega), Option.map_none]
  have hrel : Tns.RowsRel N 0 (R0 :: Rs) (List.ofFn Df) := by
    apply Tns.rowsRel_of _ _ _ (by rw [List.length_ofFn, ← hlenR])
    intro i R D hR hD
    have hi : i < rows.length := by rw [hlenR]; exact (List.getElem?_eq_some_iff.1 hR).1
    have eR := hRget ⟨i, hi⟩ R hR
    rw [List.getElem?_ofFn, dif_pos hi] at hD
    cases hD
    subst eR
    obtain ⟨c1, c2, c3, c4⟩ := hC ⟨i, hi⟩ _ (hDmem ⟨i, hi⟩)
    refine ⟨(Tns.set_shape_getD c2 (by omega)).symm, c4, c1, fun idx hidx => ?_⟩
    obtain ⟨C0, Cs, eC, hb, hallC, eR⟩ := Tns.tjoin_some (hjf ⟨i, hi⟩)
    have hval : (Rf ⟨i, hi⟩).val idx = joinVal (N - 1) (Cf ⟨i, hi⟩) idx := by
      have := hidx
      rw [eR] at this ⊢
      exact Tns.of_val _ _ this
    rw [hval, Tns.joinVal_single _ i _ idx (hDf ⟨i, hi⟩) (by rw [hidx.1, c4]; omega) (by rw [c1]; omega) (hzero ⟨i, hi⟩), List.map_take, hmapw, ← List.map_take,
      Nat.zero_add]
  -- the block-diagonal matrix
  have hofn : List.ofFn Df = Df ⟨0, hpos⟩ :: (List.ofFn Df).tail := by
    have : (List.ofFn Df) ≠ [] := by
      intro hc
      have := congrArg List.length hc
      rw [List.length_ofFn, List.length_nil] at this
      omega
    obtain ⟨x, xs, hx⟩ := List.exists_cons_of_ne_nil this
    have h0 : (List.ofFn Df)[0]? = some x := by rw [hx]; rfl
    rw [List.getElem?_ofFn, dif_pos hpos] at h0
    cases h0
    rw [hx]; rfl
  have e00 : R0 = Rf ⟨0, hpos⟩ := hRget ⟨0, hpos⟩ R0 rfl
  obtain ⟨d1, d2, d3, d4⟩ := hC ⟨0, hpos⟩ _ (hDmem ⟨0, hpos⟩)
  have hDshape : ∀ y ∈ List.ofFn Df, (y.shape.set (N - 2) 0).set (N - 1) 0 = ((Df ⟨0, hpos⟩).shape.set (N - 2) 0).set (N - 1) 0 := by
    intro y hy
    obtain ⟨i, rfl⟩ := List.mem_ofFn.1 hy
    obtain ⟨c1, c2, -, -⟩ := hC i _ (hDmem i)
    rw [List.set_comm _ _ (by omega : N - 2 ≠ N - 1), c2, List.set_comm _ _ (by omega : N - 1 ≠ N - 2), hall _ (List.mem_of_getElem? (hRf i)), e00,
      List.set_comm _ _ (by omega : N - 2 ≠ N - 1), ← d2, List.set_comm _ _ (by omega : N - 1 ≠ N - 2)]
  rw [TExpr.eval, hDs, Option.bind_some]
  have hbd : tblockDiag (List.ofFn Df) = some (Tensor.of (((Df ⟨0, hpos⟩).shape.set (N - 2) ((List.ofFn Df).map fun y => y.shape.getD (N - 2) 0).sum).set (N - 1)
      ((List.ofFn Df).map fun y => y.shape.getD (N - 1) 0).sum) (bdVal N (List.ofFn Df))) := by
    have := hofn
    revert this hDshape
    generalize hL : List.ofFn Df = L
    intro hDshape hL2
    rw [hL2]
    unfold tblockDiag
    dsimp only
    rw [d1, ← hL2, if_pos ⟨by omega, hDshape⟩]
  rw [hbd, Option.some.injEq]
  have hsumrows : ((List.ofFn Df).map fun y => y.shape.getD (N - 2) 0) = (R0 :: Rs).map fun y => y.shape.getD (N - 2) 0 := by
    apply List.ext_getElem?
    intro j
    rw [List.getElem?_map, List.getElem?_map, List.getElem?_ofFn]
    by_cases hjn : j < rows.length
    · rw [dif_pos hjn, hRf ⟨j, hjn⟩]
      obtain ⟨c1, c2, -, -⟩ := hC ⟨j, hjn⟩ _ (hDmem ⟨j, hjn⟩)
      simp only [Option.map_some, Option.some.injEq]
      exact Tns.set_shape_getD c2 (by omega)
    · rw [dif_neg hjn, List.getElem?_eq_none (by omega), Option.map_none]
  have hshape : ((Df ⟨0, hpos⟩).shape.set (N - 2) ((List.ofFn Df).map fun y => y.shape.getD (N - 2) 0).sum).set (N - 1)
      ((List.ofFn Df).map fun y => y.shape.getD (N - 1) 0).sum = t.shape := by
    rw [hsumrows, hts, List.set_comm _ _ (by omega : N - 2 ≠ N - 1)]
    congr 1
    rw [← hmapw ⟨0, hpos⟩, ← d3, e00]
    exact Tns.set_shape_eq d2.symm (fun _ => rfl)
  apply Tns.tensor_ext hshape
  intro idx hidx
  have hidx : InShape (((Df ⟨0, hpos⟩).shape.set (N - 2) ((List.ofFn Df).map fun y => y.shape.getD (N - 2) 0).sum).set (N - 1)
      ((List.ofFn Df).map fun y => y.shape.getD (N - 1) 0).sum) idx := hidx
  rw [Tns.of_val _ _ hidx]
  rw [hshape] at hidx
  have hti : t.val idx = joinVal (N - 2) (R0 :: Rs) idx := by
    have := hidx
    rw [et] at this ⊢
    exact Tns.of_val _ _ this
  rw [hti, Tns.bd_rows (by omega) R0.shape rfl _ _ 0 idx hrel hall (by rw [hidx.1, htl]) (fun c hc1 hc2 => by
    have := hidx.2 c (by omega)
    rwa [hts, Tns.getD_set, if_neg (fun h => hc1 h.1)] at this), if_pos (Nat.zero_le _)]
  congr 1
  apply Tns.ext_getD (by simp)
  intro b hb
  rw [Tns.getD_set]
  split_ifs with h
  · rw [h.1]; rfl
  · rfl

/-- the static information of an ideal pytensor for one set of values: everything is known -/
noncomputable def Static.ideal (env : TEnv) : Static :=
  open Classical in
  ⟨fun e => ((e.eval env).map fun t => t.shape.map some).getD [], fun e => decide (∃ t, e.eval env = some t ∧ ∀ idx, t.val idx = 0)⟩

/-- such information is sound -/
theorem Static.ideal_sound (env : TEnv) : (Static.ideal env).Sound env := by
  refine ⟨fun e t h => by simp [Static.ideal, h], fun e t a n h hn => ?_, fun e t h hz => ?_⟩
  · simp only [Static.ideal, h, Option.map_some, Option.getD_some, List.getElem?_map] at hn
    obtain ⟨m, hm, hm2⟩ := Option.map_eq_some_iff.1 hn
    cases hm2
    simp [List.getD_eq_getElem?_getD, hm]
  · simp only [Static.ideal, decide_eq_true_eq] at hz
    obtain ⟨t', ht', hv⟩ := hz
    rw [h] at ht'
    cases ht'
    exact hv

namespace Tns

/-- a matrix with equal entries -/
noncomputable def const (r c : ℕ) (v : ℝ) : Tensor := Tensor.of [r, c] fun _ => v

/-- three inputs: a row of two ones, a 1×1 zero, a row of two twos -/
noncomputable def env3 : TEnv := ⟨fun op _ => if op = 0 then some (const 1 2 1) else if op = 1 then some (const 1 1 0) else some (const 1 2 2), fun _ => 0, fun _ => []⟩

/-- the grid `[[A, 0], [0, D]]` with those blocks -/
def grid3 : TExpr := .join (.const 0) [.join (.const 1) [.app 0 [], .app 1 []], .join (.const 1) [.app 1 [], .app 2 []]]

theorem ev_app (k : ℕ) (t : Tensor) (h : env3.op k [] = some t) : (TExpr.app k []).eval env3 = some t := by
  rw [TExpr.eval, TExpr.evalL, Option.bind_some, h]

theorem ev_join2 {env : TEnv} (z : Int) (x y : TExpr) (tx ty : Tensor) (a : ℕ) (hx : x.eval env = some tx) (hy : y.eval env = some ty)
    (ha : axisOf tx.shape.length z = some a) (h1 : a < tx.shape.length) (h2 : ty.shape.set a 0 = tx.shape.set a 0) :
    (TExpr.join (.const z) [x, y]).eval env = some (Tensor.of (tx.shape.set a (tx.shape.getD a 0 + ty.shape.getD a 0)) (joinVal a [tx, ty])) := by
  rw [TExpr.eval, TExpr.evalL, TExpr.evalL, TExpr.evalL, hx, hy]
  simp only [Option.bind_some, Scal.eval, ha]
  rw [tjoin_intro h1 (by
    intro w hw
    simp only [List.mem_cons, List.not_mem_nil, or_false] at hw
    rcases hw with rfl | rfl
    · rfl
    · exact h2)]
  simp

end Tns

/-- **C100, false in general.** The widths of the blocks are not checked: for `A` of shape 1×2, zeros of shape 1×1 and `D` of shape 1×2 the grid `[[A, 0], [0, D]]` is a
valid 2×3 matrix, and the rewrite turns it into a 2×4 matrix. -/
theorem C100_block_diag_violated :
    ∃ (env : TEnv) (st : Static) (e e' : TExpr) (t t' : Tensor), st.Sound env ∧ nestedJoinToBlockDiag st e = some e' ∧ e.eval env = some t ∧ e'.eval env = some t' ∧
      t.shape = [2, 3] ∧ t'.shape = [2, 4] := by
  have e0 := Tns.ev_app 0 (Tns.const 1 2 1) rfl
  have e1 := Tns.ev_app 1 (Tns.const 1 1 0) rfl
  have e2 := Tns.ev_app 2 (Tns.const 1 2 2) rfl
  have r1 := Tns.ev_join2 1 _ _ _ _ 1 e0 e1 rfl (by decide) rfl
  have r2 := Tns.ev_join2 1 _ _ _ _ 1 e1 e2 rfl (by decide) rfl
  have g := Tns.ev_join2 0 _ _ _ _ 0 r1 r2 rfl (by decide) rfl
  refine ⟨Tns.env3, Static.ideal Tns.env3, Tns.grid3, .blockDiag [.app 0 [], .app 2 []], _, Tensor.of [2, 4] (bdVal 2 [Tns.const 1 2 1, Tns.const 1 2 2]), Static.ideal_sound _, ?_, g, ?_, rfl, rfl⟩
  · have hm1 : joinMatmulAxis (Static.ideal Tns.env3) (.join (.const 1) [.app 0 [], .app 1 []]) = some (-1) := by
      simp only [joinMatmulAxis, constInt, Static.ideal, r1, Option.map_some, Option.getD_some]
      rfl
    have hm2 : joinMatmulAxis (Static.ideal Tns.env3) (.join (.const 1) [.app 1 [], .app 2 []]) = some (-1) := by
      simp only [joinMatmulAxis, constInt, Static.ideal, r2, Option.map_some, Option.getD_some]
      rfl
    have hm : joinMatmulAxis (Static.ideal Tns.env3) Tns.grid3 = some (-2) := by
      simp only [Tns.grid3, joinMatmulAxis, constInt, Static.ideal, g, Option.map_some, Option.getD_some]
      rfl
    have hz : (Static.ideal Tns.env3).isZero (.app 1 []) = true := by
      simp only [Static.ideal, decide_eq_true_eq]
      exact ⟨_, e1, fun idx => by simp [Tns.const, Tensor.of]⟩
    unfold Tns.grid3 at hm ⊢
    simp only [nestedJoinToBlockDiag, hm, ne_eq, not_true_eq_false, if_false, List.length_cons, List.length_nil, collectGrid, hm1, hm2, joinInputs,
      Option.map_some, List.zipIdx_cons, List.zipIdx_nil, List.mapM_cons, List.mapM_nil, diagRow, List.all_cons, List.all_nil, hz]
    rfl
  · rw [TExpr.eval, TExpr.evalL, TExpr.evalL, TExpr.evalL, e0, e2]
    simp only [Option.bind_some]
    unfold tblockDiag
    dsimp only
    rw [if_pos]
    · rfl
    · refine ⟨by decide, fun y hy => ?_⟩
      simp only [List.mem_cons, List.not_mem_nil, or_false] at hy
      rcases hy with rfl | rfl <;> rfl

/-- one rewrite, by one of the first two rules, anywhere in a graph -/
inductive RewriteStep (st : Static) : TExpr → TExpr → Prop
  | transpose {e e'} : transposeOfJoin st e = some e' → RewriteStep st e e'
  | split {e e'} : splitOfJoin st e = some e' → RewriteStep st e e'
  | inApp {x y} (op l r) : RewriteStep st x y → RewriteStep st (.app op (l ++ x :: r)) (.app op (l ++ y :: r))
  | inJoin {x y} (a l r) : RewriteStep st x y → RewriteStep st (.join a (l ++ x :: r)) (.join a (l ++ y :: r))
  | inMT {x y} : RewriteStep st x y → RewriteStep st (.mT x) (.mT y)
  | inSplit {x y} (a s n k) : RewriteStep st x y → RewriteStep st (.split x a s n k) (.split y a s n k)
  | inBlockDiag {x y} (l r) : RewriteStep st x y → RewriteStep st (.blockDiag (l ++ x :: r)) (.blockDiag (l ++ y :: r))

namespace Tns

theorem evalL_replace {env : TEnv} {x y : TExpr} (h : ∀ t, x.eval env = some t → y.eval env = some t) : ∀ (l r : List TExpr) (ts : List Tensor),
    TExpr.evalL env (l ++ x :: r) = some ts → TExpr.evalL env (l ++ y :: r) = some ts
  | [], r, ts, he => by
    rw [List.nil_append, TExpr.evalL] at he ⊢
    obtain ⟨t, ht, he⟩ := Option.bind_eq_some_iff.1 he
    rw [h t ht]
    exact he
  | z :: l, r, ts, he => by
    rw [List.cons_append, TExpr.evalL] at he ⊢
    obtain ⟨t, ht, he⟩ := Option.bind_eq_some_iff.1 he
    obtain ⟨ts', hts, he⟩ := Option.bind_eq_some_iff.1 he
    rw [ht, Option.bind_some, evalL_replace h l r ts' hts]
    exact he

theorem step_eval {st : Static} {env : TEnv} (hs : st.Sound env) {e e' : TExpr} (hr : RewriteStep st e e') : ∀ t, e.eval env = some t → e'.eval env = some t := by
  induction hr with
  | transpose h => exact fun t ht => C100_transpose st env hs _ _ t ht h
  | split h => exact fun t ht => C100_split st env hs _ _ t ht h
  | inApp op l r _ ih =>
    intro t ht
    rw [TExpr.eval] at ht ⊢
    obtain ⟨ts, hts, ht⟩ := Option.bind_eq_some_iff.1 ht
    rw [evalL_replace ih l r ts hts]
    exact ht
  | inJoin a l r _ ih =>
    intro t ht
    rw [TExpr.eval] at ht ⊢
    obtain ⟨ts, hts, ht⟩ := Option.bind_eq_some_iff.1 ht
    rw [evalL_replace ih l r ts hts]
    exact ht
  | inMT _ ih =>
    intro t ht
    rw [TExpr.eval] at ht ⊢
    obtain ⟨u, hu, ht⟩ := Option.bind_eq_some_iff.1 ht
    rw [ih u hu]
    exact ht
  | inSplit a s n k _ ih =>
    intro t ht
    rw [TExpr.eval] at ht ⊢
    obtain ⟨u, hu, ht⟩ := Option.bind_eq_some_iff.1 ht
    rw [ih u hu]
    exact ht
  | inBlockDiag l r _ ih =>
    intro t ht
    rw [TExpr.eval] at ht ⊢
    obtain ⟨ts, hts, ht⟩ := Option.bind_eq_some_iff.1 ht
    rw [evalL_replace ih l r ts hts]
    exact ht

end Tns

/-- **C100.** Any number of these two rewrites, at any places of any graph and in any order, leaves the value of the graph unchanged. -/
theorem C100_anywhere (st : Static) (env : TEnv) (hs : st.Sound env) (e e' : TExpr) (hr : Relation.ReflTransGen (RewriteStep st) e e') (t : Tensor)
    (h : e.eval env = some t) : e'.eval env = some t := by
  induction hr with
  | refl => exact h
  | tail _ h2 ih => exact Tns.step_eval hs h2 _ ih

/-- the rewrites do fire: the transpose of the grid is pushed inside … -/
example : ∃ e' t, transposeOfJoin (Static.ideal Tns.env3) (.mT Tns.grid3) = some e' ∧ (TExpr.mT Tns.grid3).eval Tns.env3 = some t ∧ e'.eval Tns.env3 = some t := by
  have e0 := Tns.ev_app 0 (Tns.const 1 2 1) rfl
  have e1 := Tns.ev_app 1 (Tns.const 1 1 0) rfl
  have e2 := Tns.ev_app 2 (Tns.const 1 2 2) rfl
  have r1 := Tns.ev_join2 1 _ _ _ _ 1 e0 e1 rfl (by decide) rfl
  have r2 := Tns.ev_join2 1 _ _ _ _ 1 e1 e2 rfl (by decide) rfl
  have g := Tns.ev_join2 0 _ _ _ _ 0 r1 r2 rfl (by decide) rfl
  have hv : ∃ t, (TExpr.mT Tns.grid3).eval Tns.env3 = some t := by
    rw [TExpr.eval]
    unfold Tns.grid3
    rw [g]
    exact ⟨_, rfl⟩
  obtain ⟨t, ht⟩ := hv
  exact ⟨_, t, rfl, ht, C100_transpose _ _ (Static.ideal_sound _) _ _ t ht rfl⟩

/-- … and splitting a row into the widths of its blocks gives the blocks back -/
example : ∃ t, (TExpr.split (.join (.const 1) [.app 0 [], .app 1 []]) (.const (-1)) (.const [2, 1]) 2 0).eval Tns.env3 = some t ∧
    splitOfJoin (Static.ideal Tns.env3) (.split (.join (.const 1) [.app 0 [], .app 1 []]) (.const (-1)) (.const [2, 1]) 2 0) = some (.app 0 []) := by
  have e0 := Tns.ev_app 0 (Tns.const 1 2 1) rfl
  have e1 := Tns.ev_app 1 (Tns.const 1 1 0) rfl
  have r1 := Tns.ev_join2 1 _ _ _ _ 1 e0 e1 rfl (by decide) rfl
  have hv : ∃ t, (TExpr.split (.join (.const 1) [.app 0 [], .app 1 []]) (.const (-1)) (.const [2, 1]) 2 0).eval Tns.env3 = some t := by
    rw [TExpr.eval, r1]
    exact ⟨_, rfl⟩
  obtain ⟨t, ht⟩ := hv
  refine ⟨t, ht, ?_⟩
  simp only [splitOfJoin, splitUndoesJoin, constInt, Static.ideal, r1, e0, e1, Option.map_some, Option.getD_some, List.mapM_cons, List.mapM_nil]
  rfl

end GE
