import Verif.Model.BKReport
import Verif.Props.BKRoots
import Verif.Props.BKSymbolic2
import Verif.Props.StateSpaceWritten
import Mathlib.Data.List.Perm.Basic
/-! # C139: the Blanchard-Kahn report -/

open Matrix Polynomial

namespace GE

/-! ## specification -/

/-- a sorting order by modulus -/
def SortsByModulus (order : List ℂ → List ℂ) : Prop := ∀ l, (order l).Perm l ∧ (order l).Pairwise fun a b => ‖a‖ ≤ ‖b‖

namespace BKP

theorem nrm (z : ℂ) : Real.sqrt (z.re ^ 2 + z.im ^ 2) = ‖z‖ := by
  rw [Complex.norm_def, Complex.normSq_apply]; congr 1; ring

theorem unstable_perm {l l' : List ℂ} (h : l.Perm l') : bkUnstable l = bkUnstable l' := by
  classical
  unfold bkUnstable
  exact h.countP_eq _

theorem pairs_length {n : ℕ} {A B C : Mat n n} {tol : ℝ} (q : SortedQZ (toC (-setupG0 B C tol)) (toC (setupG1 A C tol))) :
    q.pairs.length = n + bkForward C tol := by
  classical
  have h1 := REig.qz_card q
  rw [Fintype.card_sum, Fintype.card_fin, Fintype.card_fin, Fintype.card_sum, Fintype.card_fin] at h1
  have hf : bkForward C tol = Fintype.card (Lead C tol) := by rw [bkForward, ← Fintype.card_subtype]
  rw [hf, SortedQZ.pairs, List.length_append, List.length_map, List.length_map, List.length_finRange, List.length_finRange]
  omega

/-- in an ascending list the values above a threshold are the last ones -/
theorem sorted_split (l : List ℂ) (h : l.Pairwise fun a b => ‖a‖ ≤ ‖b‖) :
    (∀ z ∈ l.take (l.length - bkUnstable l), ‖z‖ ≤ 1) ∧ ∀ z ∈ l.drop (l.length - bkUnstable l), 1 < ‖z‖ := by
  classical
  have hb : ∀ l : List ℂ, bkUnstable l = l.countP fun z => decide (1 < ‖z‖) := fun l => by
    unfold bkUnstable
    congr 1
    funext z
    rw [nrm]
  induction l with
  | nil => simp
  | cons z l ih =>
    obtain ⟨hz, hl⟩ := List.pairwise_cons.1 h
    obtain ⟨i1, i2⟩ := ih hl
    by_cases hc : 1 < ‖z‖
    · have all : ∀ w ∈ z :: l, 1 < ‖w‖ := by
        intro w hw
        rcases List.mem_cons.1 hw with rfl | hw
        · exact hc
        · exact lt_of_lt_of_le hc (hz w hw)
      have he : bkUnstable (z :: l) = (z :: l).length := by
        rw [hb, List.countP_eq_length]
        intro w hw
        simpa using all w hw
      rw [he, Nat.sub_self]
      exact ⟨by simp, by simpa using all⟩
    · have he : bkUnstable (z :: l) = bkUnstable l := by
        rw [hb, hb, List.countP_cons_of_neg (by simpa using hc)]
      have hle : bkUnstable l ≤ l.length := by rw [hb]; exact List.countP_le_length
      rw [he, show (z :: l).length - bkUnstable l = (l.length - bkUnstable l) + 1 by simp; omega, List.take_succ_cons, List.drop_succ_cons]
      refine ⟨fun w hw => ?_, i2⟩
      rcases List.mem_cons.1 hw with rfl | hw
      · exact not_lt.1 hc
      · exact i1 w hw

end BKP

variable {n : ℕ} {A B C : Mat n n} {tol : ℝ}

/-- **C139** the table: one row per variable and per variable with a lead, in ascending order of the modulus, whatever sorting NumPy uses; the
columns are the modulus, real and imaginary part of the same value; the values are those of the decomposition; the reported number of unstable
values is the number of rows with a modulus above one, which are the last rows -/
theorem C139_table (order : List ℂ → List ℂ) (ho : SortsByModulus order) (q : SortedQZ (toC (-setupG0 B C tol)) (toC (setupG1 A C tol)))
    {t : List (ℝ × ℝ × ℝ)} {msg : BKMsg} {nU nF : ℕ} {r : Bool} (h : checkBKCondition order q r .dataframe = .ok (.table t) msg nU nF) :
    t.length = n + nF ∧ t.Pairwise (fun a b => a.1 ≤ b.1) ∧ (∀ row ∈ t, row.1 = Real.sqrt (row.2.1 ^ 2 + row.2.2 ^ 2)) ∧
    (t.map fun row => (⟨row.2.1, row.2.2⟩ : ℂ)).Perm (q.pairs.map fun p => p.2 / (p.1 + (tol : ℂ))) ∧ nF = bkForward C tol ∧
    nU ≤ t.length ∧ (∀ row ∈ t.take (t.length - nU), row.1 ≤ 1) ∧ ∀ row ∈ t.drop (t.length - nU), 1 < row.1 := by
  classical
  obtain ⟨hp, hs⟩ := ho (bkEigenvalues q)
  unfold checkBKCondition checkBK computeBK at h
  simp only [reduceCtorEq, if_false] at h
  split at h
  · cases h
  · simp only [BKOutcome.ok.injEq, BKReturn.table.injEq] at h
    obtain ⟨rfl, -, rfl, rfl⟩ := h
    have hlen : (order (bkEigenvalues q)).length = n + bkForward C tol := by
      rw [hp.length_eq, bkEigenvalues, List.length_map, BKP.pairs_length]
    obtain ⟨s1, s2⟩ := BKP.sorted_split _ hs
    refine ⟨by rw [List.length_map, hlen], ?_, ?_, ?_, rfl, ?_, ?_, ?_⟩
    · rw [List.pairwise_map]
      exact hs.imp fun {a b} h => by simpa only [BKP.nrm] using h
    · intro row hr
      obtain ⟨z, -, rfl⟩ := List.mem_map.1 hr
      rfl
    · rw [List.map_map]
      have : ((fun row : ℝ × ℝ × ℝ => (⟨row.2.1, row.2.2⟩ : ℂ)) ∘ fun z : ℂ => (Real.sqrt (z.re ^ 2 + z.im ^ 2), z.re, z.im)) = id := by
        funext z; rfl
      rw [this, List.map_id]
      exact hp
    · rw [List.length_map]
      unfold bkUnstable
      exact List.countP_le_length
    · intro row hr
      rw [List.length_map, ← List.map_take] at hr
      obtain ⟨z, hz, rfl⟩ := List.mem_map.1 hr
      simpa only [BKP.nrm] using s1 z hz
    · intro row hr
      rw [List.length_map, ← List.map_drop] at hr
      obtain ⟨z, hz, rfl⟩ := List.mem_map.1 hr
      simpa only [BKP.nrm] using s2 z hz

/-- **C139** apart from the order of table rows of the same modulus, nothing depends on the sorting -/
theorem C139_sorting (order order' : List ℂ → List ℂ) (ho : SortsByModulus order) (ho' : SortsByModulus order')
    (q : SortedQZ (toC (-setupG0 B C tol)) (toC (setupG1 A C tol))) (r : Bool) (what : BKWhat) (hw : what ≠ .dataframe) :
    checkBKCondition order q r what = checkBKCondition order' q r what := by
  have hu : bkUnstable (order (bkEigenvalues q)) = bkUnstable (order' (bkEigenvalues q)) :=
    BKP.unstable_perm ((ho _).1.trans (ho' _).1.symm)
  unfold checkBKCondition computeBK checkBK
  cases what with
  | dataframe => exact absurd rfl hw
  | bool => simp only [hu]
  | none => simp only [hu]
  | other => simp

namespace BKP

theorem charPoly_reorder {m n : ℕ} (A B C : Mat n n) (ρ σ : Fin m ≃ Fin n) :
    ∃ s : ℂ, (s = 1 ∨ s = -1) ∧ charPoly (A.submatrix ρ σ) (B.submatrix ρ σ) (C.submatrix ρ σ) = Polynomial.C s * charPoly A B C := by
  let M : Matrix (Fin n) (Fin n) ℂ[X] :=
    Matrix.of fun i j => Polynomial.C (A i j : ℂ) + Polynomial.X * Polynomial.C (B i j : ℂ) + Polynomial.X ^ 2 * Polynomial.C (C i j : ℂ)
  have h1 : charPoly (A.submatrix ρ σ) (B.submatrix ρ σ) (C.submatrix ρ σ) = (M.submatrix ρ σ).det := rfl
  have h2 : M.submatrix ρ σ = (M.submatrix (σ.symm.trans ρ) id).submatrix σ σ := by
    ext i j
    simp
  have h3 : (M.submatrix (σ.symm.trans ρ) id).det = Equiv.Perm.sign (σ.symm.trans ρ) * M.det := Matrix.det_permute _ M
  rw [h1, h2, Matrix.det_submatrix_equiv_self, h3]
  rcases Int.units_eq_one_or (Equiv.Perm.sign (σ.symm.trans ρ)) with h | h
  · exact ⟨1, .inl rfl, by rw [h]; simp [M, charPoly]⟩
  · exact ⟨-1, .inr rfl, by rw [h]; simp [M, charPoly]⟩

theorem forward_reorder {m n : ℕ} (C : Mat n n) (tol : ℝ) (ρ σ : Fin m ≃ Fin n) : bkForward (C.submatrix ρ σ) tol = bkForward C tol := by
  classical
  unfold bkForward
  refine Finset.card_bij (fun j _ => σ j) ?_ (fun a _ b _ h => σ.injective h) ?_
  · intro j hj
    rw [Finset.mem_filter] at hj ⊢
    refine ⟨Finset.mem_univ _, ?_⟩
    have h1 : tol < ∑ i, |C (ρ i) (σ j)| := hj.2
    rwa [Equiv.sum_comp ρ (fun i => |C i (σ j)|)] at h1
  · intro j hj
    rw [Finset.mem_filter] at hj
    refine ⟨σ.symm j, ?_, by simp⟩
    rw [Finset.mem_filter]
    refine ⟨Finset.mem_univ _, ?_⟩
    show tol < ∑ i, |C (ρ i) (σ (σ.symm j))|
    rw [Equiv.apply_symm_apply, Equiv.sum_comp ρ (fun i => |C i j|)]
    exact hj.2

theorem clean_reorder {m n : ℕ} {C : Mat n n} {tol : ℝ} (h : CleanLeads C tol) (ρ σ : Fin m ≃ Fin n) : CleanLeads (C.submatrix ρ σ) tol := by
  intro j hj i
  refine h (σ j) ?_ (ρ i)
  simp only [submatrix_apply] at hj
  rwa [Equiv.sum_comp ρ (fun i => |C i (σ j)|)] at hj

theorem roots_reorder {m n : ℕ} (A B C : Mat n n) (ρ σ : Fin m ≃ Fin n) (k : ℕ) :
    explosiveRoots (A.submatrix ρ σ) (B.submatrix ρ σ) (C.submatrix ρ σ) k = explosiveRoots A B C k := by
  classical
  obtain ⟨s, hs, he⟩ := charPoly_reorder A B C ρ σ
  have hs0 : s ≠ 0 := by rcases hs with rfl | rfl <;> norm_num
  have hmn : m = n := by simpa using Fintype.card_congr ρ
  unfold explosiveRoots
  rw [he, Polynomial.roots_C_mul _ hs0, Polynomial.natDegree_C_mul hs0, hmn]

end BKP

/-- **C139** the verdict and the counts do not depend on the order of the equations and variables: when the rows of `A`, `B` and `C` are put in
another order and the columns in another, the check of the one system and that of the other agree -/
theorem C139_reordered (h0 : 0 < tol) (hC : CleanLeads C tol) (hp : charPoly A B C ≠ 0) {m : ℕ} (ρ σ : Fin m ≃ Fin n)
    (q : SortedQZ (toC (-setupG0 B C tol)) (toC (setupG1 A C tol))) (hs : ∀ p ∈ q.pairs, Separated tol p)
    (q' : SortedQZ (toC (-setupG0 (B.submatrix ρ σ) (C.submatrix ρ σ) tol)) (toC (setupG1 (A.submatrix ρ σ) (C.submatrix ρ σ) tol)))
    (hs' : ∀ p ∈ q'.pairs, Separated tol p) (order order' : List ℂ → List ℂ) (ho : SortsByModulus order) (ho' : SortsByModulus order')
    (r : Bool) (what : BKWhat) (hw : what ≠ .dataframe) : checkBKCondition order q r what = checkBKCondition order' q' r what := by
  obtain ⟨s, hs1, he⟩ := BKP.charPoly_reorder A B C ρ σ
  have hs0 : s ≠ 0 := by rcases hs1 with rfl | rfl <;> norm_num
  have hp' : charPoly (A.submatrix ρ σ) (B.submatrix ρ σ) (C.submatrix ρ σ) ≠ 0 := by
    rw [he]
    exact mul_ne_zero (by simpa using hs0) hp
  have hu : bkUnstable (order (bkEigenvalues q)) = bkUnstable (order' (bkEigenvalues q')) := by
    rw [BKP.unstable_perm (ho _).1, BKP.unstable_perm (ho' _).1, C137_count h0 hC hp q hs,
      C137_count h0 (BKP.clean_reorder hC ρ σ) hp' q' hs', BKP.forward_reorder, BKP.roots_reorder]
  unfold checkBKCondition computeBK checkBK
  cases what with
  | dataframe => exact absurd rfl hw
  | bool => simp only [hu, BKP.forward_reorder]
  | none => simp only [hu, BKP.forward_reorder]
  | other => simp

namespace BKP

/-- a reordered list, as a bijection of positions -/
theorem list_equiv {α : Type} {l l' : List α} (h : l'.Perm l) : ∃ ρ : Fin l'.length ≃ Fin l.length, ∀ i, l[ρ i] = l'[i] := by
  have hf : List.Forall₂ (fun a i => l[i]? = some a) l (List.range l.length) := by
    rw [List.forall₂_iff_get]
    refine ⟨by simp, fun i h1 h2 => ?_⟩
    simp [List.getElem?_eq_getElem (show i < l.length from h1)]
  obtain ⟨p, hp1, hp2⟩ := List.perm_comp_forall₂ h hf
  obtain ⟨σ, hσ⟩ := SSW.perm_equiv hp2
  refine ⟨(finCongr h.length_eq).trans σ, fun i => ?_⟩
  rw [List.forall₂_iff_get] at hp1
  obtain ⟨hl, hg⟩ := hp1
  have h1 := hg i i.2 (by omega)
  have h2 := hσ (finCongr h.length_eq i)
  have h3 : p[(i : ℕ)]? = some (p.get ⟨i, by omega⟩) := by simp
  rw [show ((finCongr h.length_eq i : Fin l.length) : ℕ) = (i : ℕ) from rfl, h3] at h2
  have h4 := Option.some.inj h2
  rw [h4] at h1
  simpa using h1

end BKP

/-- **C139** the same for a model's lists of variables and equations: reordering them changes neither the verdict nor the counts -/
theorem C139_writing_order (vars vars' : List TSym) (eqs eqs' : List SExpr) (shocks loglin : List TSym) (par : Str → ℝ) (ss : List (Str × ℝ))
    (hv : vars'.Perm vars) (he : eqs'.Perm eqs) (hnd : (vars.map TSym.base).Nodup) (hsq : eqs.length = vars.length)
    (hss : ∀ v ∈ vars, (dget (normalizeConditions ss) v.base).isSome) (h0 : 0 < tol) :
    ∃ m m', linearMats vars eqs shocks loglin par ss = some m ∧ linearMats vars' eqs' shocks loglin par ss = some m' ∧
      (CleanLeads m.C tol → charPoly m.A m.B m.C ≠ 0 →
        ∀ (q : SortedQZ (toC (-setupG0 m.B m.C tol)) (toC (setupG1 m.A m.C tol))) (q' : SortedQZ (toC (-setupG0 m'.B m'.C tol)) (toC (setupG1 m'.A m'.C tol)))
          (order order' : List ℂ → List ℂ) (r : Bool) (what : BKWhat), (∀ p ∈ q.pairs, Separated tol p) → (∀ p ∈ q'.pairs, Separated tol p) →
          SortsByModulus order → SortsByModulus order' → what ≠ .dataframe → checkBKCondition order q r what = checkBKCondition order' q' r what) := by
  have hnd' : (vars'.map TSym.base).Nodup := (hv.map _).nodup_iff.2 hnd
  have hss' : ∀ v ∈ vars', (dget (normalizeConditions ss) v.base).isSome := fun v h => hss v (hv.mem_iff.1 h)
  obtain ⟨σ, hσ⟩ := BKP.list_equiv hv
  obtain ⟨ρ0, hρ⟩ := BKP.list_equiv he
  have hsq' : eqs'.length = vars'.length := by rw [he.length_eq, hsq, hv.length_eq]
  let ρ : Fin vars'.length ≃ Fin vars.length := ((finCongr hsq'.symm).trans ρ0).trans (finCongr hsq)
  unfold linearMats
  rw [Ptb.linearizeModel_eq vars eqs shocks loglin ss _ hnd hss, Ptb.linearizeModel_eq vars' eqs' shocks loglin ss _ hnd' hss']
  refine ⟨_, _, rfl, rfl, ?_⟩
  have key : ∀ f : SExpr → TSym → ℝ,
      (Matrix.of fun (i j : Fin vars'.length) => (entryAt (eqs'.map fun e => vars'.map fun v => f e v) i j).getD 0) =
      (Matrix.of fun (i j : Fin vars.length) => (entryAt (eqs.map fun e => vars.map fun v => f e v) i j).getD 0).submatrix ρ σ := by
    intro f
    ext i j
    have hi : (i : ℕ) < eqs'.length := by rw [hsq']; exact i.2
    have e1 : eqs'[(i : ℕ)]? = some (eqs'[(i : ℕ)]'hi) := List.getElem?_eq_getElem hi
    have e2 : eqs[((ρ i : Fin vars.length) : ℕ)]? = some (eqs'[(i : ℕ)]'hi) := by
      have := hρ ⟨i, hi⟩
      have hlt : ((ρ i : Fin vars.length) : ℕ) < eqs.length := by rw [hsq]; exact (ρ i).2
      rw [List.getElem?_eq_getElem hlt]
      exact congrArg some this
    have e3 : vars'[(j : ℕ)]? = some vars'[j] := by simp
    have e4 : vars[((σ j : Fin vars.length) : ℕ)]? = some vars'[j] := by
      rw [← hσ j]; simp
    simp only [Matrix.of_apply, submatrix_apply, entryAt, List.getElem?_map, e1, e2, e3, e4, Option.map_some, Option.bind_some, Option.getD_some]
  intro hC hp q q' order order' r what hs hs' ho ho' hw
  have gen : ∀ A' B' C' : Mat vars'.length vars'.length, ∀ A B C : Mat vars.length vars.length, A' = A.submatrix ρ σ → B' = B.submatrix ρ σ →
      C' = C.submatrix ρ σ → CleanLeads C tol → charPoly A B C ≠ 0 → ∀ (q : SortedQZ (toC (-setupG0 B C tol)) (toC (setupG1 A C tol)))
      (q' : SortedQZ (toC (-setupG0 B' C' tol)) (toC (setupG1 A' C' tol))), (∀ p ∈ q.pairs, Separated tol p) → (∀ p ∈ q'.pairs, Separated tol p) →
      checkBKCondition order q r what = checkBKCondition order' q' r what := by
    rintro _ _ _ A B C rfl rfl rfl hC hp q q' hs hs'
    exact C139_reordered h0 hC hp ρ σ q hs q' hs' order order' ho ho' r what hw
  exact gen _ _ _ _ _ _ (key fun e v => evalAt par (ssOf ss) (jacEntry shocks e (v.atT (-1))) * promisedScale loglin v (ssOf ss v))
    (key fun e v => evalAt par (ssOf ss) (jacEntry shocks e (v.atT 0)) * promisedScale loglin v (ssOf ss v))
    (key fun e v => evalAt par (ssOf ss) (jacEntry shocks e (v.atT 1)) * promisedScale loglin v (ssOf ss v)) hC hp q q' hs hs'

/-- **C139** the message states the counts: two messages are the same only if the counts are -/
theorem C139_message (a b c d : ℕ) (h : bkMessage a b = bkMessage c d) : a = c ∧ b = d := by
  have split : ∀ (x y : ℕ) (u v : Str), natStr x ++ ' ' :: u = natStr y ++ ' ' :: v → x = y ∧ u = v := by
    intro x y u v hxy
    have hx : ∀ z : ℕ, ∀ w : Str, (natStr z ++ ' ' :: w).takeWhile (· ≠ ' ') = natStr z := by
      intro z w
      rw [List.takeWhile_append_of_pos (fun c hc => by
        have := natStr_digit hc
        simp only [decide_eq_true_eq, ne_eq]
        rintro rfl
        exact absurd this (by decide))]
      simp
    have h1 := congrArg (List.takeWhile (· ≠ ' ')) hxy
    rw [hx, hx] at h1
    have h2 := natStr_inj h1
    subst h2
    exact ⟨rfl, by simpa using hxy⟩
  unfold bkMessage at h
  simp only [List.append_assoc] at h
  have h1 := List.append_cancel_left h
  obtain ⟨r1, r2⟩ := split a c _ _ h1
  subst r1
  have h3 : ∀ u v : Str, "eigenvalues greater than one in modulus and ".toList ++ u = "eigenvalues greater than one in modulus and ".toList ++ v → u = v :=
    fun u v h => List.append_cancel_left h
  have h4 := h3 _ _ r2
  obtain ⟨r3, -⟩ := split b d _ _ h4
  exact ⟨rfl, r3⟩

/-- **C139** and the verdict: satisfied exactly when the counts agree, otherwise which of the two is the larger and what that means -/
theorem C139_verdict (nUnstable nForward : ℕ) :
    (nForward = nUnstable → "Blanchard-Kahn condition is satisfied.".toList <:+ bkMessage nUnstable nForward) ∧
    (nForward < nUnstable → "Blanchard-Kahn condition is NOT satisfied. No stable solution (more unstable eigenvalues than forward-looking variables).".toList <:+
      bkMessage nUnstable nForward) ∧
    (nUnstable < nForward → "Blanchard-Kahn condition is NOT satisfied. No unique solution (more forward-looking variables than unstable eigenvalues).".toList <:+
      bkMessage nUnstable nForward) := by
  have split : " forward-looking variables.\nBlanchard-Kahn condition is".toList = " forward-looking variables.\n".toList ++ "Blanchard-Kahn condition is".toList := by
    decide
  unfold bkMessage
  rw [split]
  refine ⟨fun h => ?_, fun h => ?_, fun h => ?_⟩
  · rw [if_pos h, if_pos h]
    refine ⟨"Model solution has ".toList ++ natStr nUnstable ++ " eigenvalues greater than one in modulus and ".toList ++ natStr nForward ++
      " forward-looking variables.\n".toList, ?_⟩
    rw [show "Blanchard-Kahn condition is satisfied.".toList = "Blanchard-Kahn condition is".toList ++ [] ++ " satisfied.".toList ++ [] by decide]
    simp only [List.append_assoc]
  · rw [if_neg (by omega), if_neg (by omega), if_pos h]
    refine ⟨"Model solution has ".toList ++ natStr nUnstable ++ " eigenvalues greater than one in modulus and ".toList ++ natStr nForward ++
      " forward-looking variables.\n".toList, ?_⟩
    rw [show "Blanchard-Kahn condition is NOT satisfied. No stable solution (more unstable eigenvalues than forward-looking variables).".toList =
      "Blanchard-Kahn condition is".toList ++ " NOT".toList ++ " satisfied.".toList ++
        " No stable solution (more unstable eigenvalues than forward-looking variables).".toList by decide +kernel]
    simp only [List.append_assoc]
  · rw [if_neg (by omega), if_neg (by omega), if_neg (by omega)]
    refine ⟨"Model solution has ".toList ++ natStr nUnstable ++ " eigenvalues greater than one in modulus and ".toList ++ natStr nForward ++
      " forward-looking variables.\n".toList, ?_⟩
    rw [show "Blanchard-Kahn condition is NOT satisfied. No unique solution (more forward-looking variables than unstable eigenvalues).".toList =
      "Blanchard-Kahn condition is".toList ++ " NOT".toList ++ " satisfied.".toList ++
        " No unique solution (more forward-looking variables than unstable eigenvalues).".toList by decide +kernel]
    simp only [List.append_assoc]

/-- **C139** the summary: the dataset exists exactly when there is a solution and the shapes are those of the model, and each number is found
under its names: `A`, `B`, `C`, `D` under the number of the equation and the name of the variable or shock, `T` and `R` under the position
(in `model.variables`) of the variable they determine -/
theorem C139_summary (vars shocks : List TSym) (A B C D : NArr) (T R : Option NArr) :
    (summarize vars shocks A B C D T R = .error .solutionNotFound ↔ T = none ∨ R = none) ∧
    (∀ T' R', T = some T' → R = some R' →
      ((∃ s, summarize vars shocks A B C D T R = .ok s) ↔
        (∀ X ∈ [A, B, C, T'], X.rows = A.rows ∧ X.cols = vars.length) ∧ ∀ X ∈ [D, R'], X.rows = A.rows ∧ X.cols = shocks.length)) ∧
    ∀ s, summarize vars shocks A B C D T R = .ok s → (vars.map TSym.base).Nodup → (shocks.map TSym.base).Nodup →
      s.A = A ∧ s.B = B ∧ s.C = C ∧ s.D = D ∧ some s.T = T ∧ some s.R = R ∧
      (∀ X ∈ [s.A, s.B, s.C, s.T], ∀ (i : Fin X.rows) (j : Fin X.cols) v, vars[(j : ℕ)]? = some v →
        X.sel s.equation s.variableNames i v.base = some (X.at_ i j)) ∧
      (∀ X ∈ [s.D, s.R], ∀ (i : Fin X.rows) (j : Fin X.cols) v, shocks[(j : ℕ)]? = some v →
        X.sel s.equation s.shockNames i v.base = some (X.at_ i j)) := by
  have shape : ∀ T' R', (∃ s, summarize vars shocks A B C D (some T') (some R') = .ok s) ↔
        (∀ X ∈ [A, B, C, T'], X.rows = A.rows ∧ X.cols = vars.length) ∧ ∀ X ∈ [D, R'], X.rows = A.rows ∧ X.cols = shocks.length := by
    intro T' R'
    unfold summarize
    simp only [List.mem_cons, List.not_mem_nil, or_false, forall_eq_or_imp, forall_eq]
    split
    · rename_i h
      simp only [Bool.and_eq_true, beq_iff_eq] at h
      exact ⟨fun _ => by tauto, fun _ => ⟨_, rfl⟩⟩
    · rename_i h
      simp only [Bool.and_eq_true, beq_iff_eq] at h
      exact ⟨fun ⟨s, hs⟩ => by simp at hs, fun h' => absurd (by tauto) h⟩
  refine ⟨?_, ?_, ?_⟩
  · rcases T with _ | T' <;> rcases R with _ | R'
    · simp [summarize]
    · simp [summarize]
    · simp [summarize]
    · simp only [summarize, reduceCtorEq, or_self, iff_false]
      split <;> simp
  · rintro T' R' rfl rfl
    exact shape T' R'
  · intro s h hv hs
    rcases T with _ | T' <;> rcases R with _ | R'
    · simp [summarize] at h
    · simp [summarize] at h
    · simp [summarize] at h
    have hsh := (shape T' R').1 ⟨s, h⟩
    unfold summarize at h
    simp only at h
    split at h
    swap
    · cases h
    cases h
    refine ⟨rfl, rfl, rfl, rfl, rfl, rfl, ?_, ?_⟩
    · intro X hX i j v hj
      obtain ⟨hr, hc⟩ := hsh.1 X hX
      have h1 : ((i : ℕ) : ℕ) ∈ List.range A.rows := List.mem_range.2 (hr ▸ i.2)
      have hmem : v ∈ vars := List.mem_of_getElem? hj
      have hidx : (vars.map TSym.base).idxOf v.base = j := by
        have hlt : (j : ℕ) < (vars.map TSym.base).length := by rw [List.length_map, ← hc]; exact j.2
        have : (vars.map TSym.base)[(j : ℕ)]'hlt = v.base := by
          have h2 : (vars.map TSym.base)[(j : ℕ)]? = some v.base := by rw [List.getElem?_map, hj]; rfl
          rw [List.getElem?_eq_getElem hlt] at h2
          exact Option.some.inj h2
        rw [← this]
        exact List.Nodup.idxOf_getElem hv _ _
      have hi : (List.range A.rows).idxOf (i : ℕ) = i := by
        have hlt : (i : ℕ) < (List.range A.rows).length := by simpa using hr ▸ i.2
        have := List.Nodup.idxOf_getElem (List.nodup_range (n := A.rows)) (i : ℕ) hlt
        simpa using this
      unfold NArr.sel
      rw [if_pos ⟨h1, List.mem_map_of_mem hmem⟩, dif_pos ⟨by rw [hi]; exact i.2, by rw [hidx]; exact j.2⟩]
      congr 1
      congr 1
      · exact Fin.ext hi
      · exact Fin.ext hidx
    · intro X hX i j v hj
      obtain ⟨hr, hc⟩ := hsh.2 X hX
      have h1 : ((i : ℕ) : ℕ) ∈ List.range A.rows := List.mem_range.2 (hr ▸ i.2)
      have hmem : v ∈ shocks := List.mem_of_getElem? hj
      have hidx : (shocks.map TSym.base).idxOf v.base = j := by
        have hlt : (j : ℕ) < (shocks.map TSym.base).length := by rw [List.length_map, ← hc]; exact j.2
        have : (shocks.map TSym.base)[(j : ℕ)]'hlt = v.base := by
          have h2 : (shocks.map TSym.base)[(j : ℕ)]? = some v.base := by rw [List.getElem?_map, hj]; rfl
          rw [List.getElem?_eq_getElem hlt] at h2
          exact Option.some.inj h2
        rw [← this]
        exact List.Nodup.idxOf_getElem hs _ _
      have hi : (List.range A.rows).idxOf (i : ℕ) = i := by
        have hlt : (i : ℕ) < (List.range A.rows).length := by simpa using hr ▸ i.2
        have := List.Nodup.idxOf_getElem (List.nodup_range (n := A.rows)) (i : ℕ) hlt
        simpa using this
      unfold NArr.sel
      rw [if_pos ⟨h1, List.mem_map_of_mem hmem⟩, dif_pos ⟨by rw [hi]; exact i.2, by rw [hidx]; exact j.2⟩]
      congr 1
      congr 1
      · exact Fin.ext hi
      · exact Fin.ext hidx

/-! ## the hypotheses are met -/

namespace BKP

/-- sorting by modulus is possible -/
theorem sorts : ∃ order, SortsByModulus order := by
  classical
  refine ⟨fun l => l.insertionSort fun a b => ‖a‖ ≤ ‖b‖, fun l => ⟨List.perm_insertionSort _ l, ?_⟩⟩
  haveI : Std.Total fun a b : ℂ => ‖a‖ ≤ ‖b‖ := ⟨fun a b => le_total _ _⟩
  haveI : IsTrans ℂ fun a b : ℂ => ‖a‖ ≤ ‖b‖ := ⟨fun a b c => le_trans⟩
  exact List.pairwise_insertionSort _ l

variable {ι ι' : Type} [Fintype ι] [DecidableEq ι] [Fintype ι'] [DecidableEq ι']

/-- a decomposition of the reordered system -/
def reorderQZ {g0 g1 : Matrix ι ι ℂ} (q : SortedQZ g0 g1) (eR eC : ι' ≃ ι) {g0' g1' : Matrix ι' ι' ℂ} (h0 : g0' = g0.submatrix eR eC)
    (h1 : g1' = g1.submatrix eR eC) : SortedQZ g0' g1' where
  ns := q.ns
  nu := q.nu
  Q := q.Q.submatrix id eR
  Z := q.Z.submatrix eC id
  A := q.A
  B := q.B
  Q_right := by
    rw [conjTranspose_submatrix, submatrix_mul_equiv, q.Q_right]; simp
  Q_left := by
    rw [conjTranspose_submatrix, ← submatrix_mul _ _ _ _ _ Function.bijective_id, q.Q_left]; simp
  Z_right := by
    rw [conjTranspose_submatrix, ← submatrix_mul _ _ _ _ _ Function.bijective_id, q.Z_right]; simp
  Z_left := by
    rw [conjTranspose_submatrix, submatrix_mul_equiv, q.Z_left]; simp
  A_eq := by
    rw [h0, submatrix_mul_equiv, submatrix_mul_equiv, q.A_eq]; simp
  B_eq := by
    rw [h1, submatrix_mul_equiv, submatrix_mul_equiv, q.B_eq]; simp
  A_low := q.A_low
  A_tri₁ := q.A_tri₁
  A_tri₂ := q.A_tri₂
  B_low := q.B_low
  B_tri₁ := q.B_tri₁
  B_tri₂ := q.B_tri₂
  sorted₁ := q.sorted₁
  sorted₂ := q.sorted₂

/-- the same lead variables -/
def leads {m n : ℕ} (C : Mat n n) (tol : ℝ) (ρ σ : Fin m ≃ Fin n) : Lead (C.submatrix ρ σ) tol ≃ Lead C tol :=
  σ.subtypeEquiv fun j => by
    show (tol < ∑ i, |C (ρ i) (σ j)|) ↔ _
    rw [Equiv.sum_comp ρ (fun i => |C i (σ j)|)]

theorem g0_reorder {m n : ℕ} (B C : Mat n n) (tol : ℝ) (ρ σ : Fin m ≃ Fin n) :
    toC (-setupG0 (B.submatrix ρ σ) (C.submatrix ρ σ) tol) =
      (toC (-setupG0 B C tol)).submatrix (Equiv.sumCongr ρ (leads C tol ρ σ)) (Equiv.sumCongr σ (leads C tol ρ σ)) := by
  ext (i | i) (j | j)
  · rfl
  · rfl
  · have e : (1 : Mat m m) i.1 j = (1 : Mat n n) (σ i.1) (σ j) := by simp [one_apply]
    change ((- -(-(1 : Mat m m)) i.1 j : ℝ) : ℂ) = ((- -(-(1 : Mat n n)) (σ i.1) (σ j) : ℝ) : ℂ)
    rw [Matrix.neg_apply, Matrix.neg_apply, e]
  · rfl

theorem g1_reorder {m n : ℕ} (A C : Mat n n) (tol : ℝ) (ρ σ : Fin m ≃ Fin n) :
    toC (setupG1 (A.submatrix ρ σ) (C.submatrix ρ σ) tol) =
      (toC (setupG1 A C tol)).submatrix (Equiv.sumCongr ρ (leads C tol ρ σ)) (Equiv.sumCongr σ (leads C tol ρ σ)) := by
  ext (i | i) (j | j)
  · rfl
  · rfl
  · rfl
  · have e : (1 : Mat m m) i.1 j.1 = (1 : Mat n n) (σ i.1) (σ j.1) := by simp [one_apply]
    change (((1 : Mat m m) i.1 j.1 : ℝ) : ℂ) = (((1 : Mat n n) (σ i.1) (σ j.1) : ℝ) : ℂ)
    rw [e]

end BKP

open GenEx in
/-- two variables, of which one has a lead: written in the other order (variables and equations), the check says the same -/
example : ∃ (order : List ℂ → List ℂ) (q' : SortedQZ (toC (-setupG0 (bB.submatrix (Equiv.swap 0 1) (Equiv.swap 0 1)) (bC.submatrix (Equiv.swap 0 1) (Equiv.swap 0 1)) eTol))
      (toC (setupG1 (bA.submatrix (Equiv.swap 0 1) (Equiv.swap 0 1)) (bC.submatrix (Equiv.swap 0 1) (Equiv.swap 0 1)) eTol))),
    SortsByModulus order ∧ (∀ p ∈ q'.pairs, Separated eTol p) ∧ charPoly bA bB bC ≠ 0 ∧
    checkBKCondition order bQZ false .bool = checkBKCondition order q' false .bool := by
  obtain ⟨order, ho⟩ := BKP.sorts
  have hp : charPoly bA bB bC ≠ 0 := by
    intro h
    have := congrArg (Polynomial.eval 1) h
    rw [charPoly, det_fin_two] at this
    simp [bA, bB, bC] at this
    norm_num at this
  have hC : CleanLeads bC eTol := by
    intro j hj i
    fin_cases j
    · fin_cases i <;> simp [bC]
    · exfalso
      simp [bC, eTol] at hj
      norm_num at hj
  let q' := BKP.reorderQZ bQZ _ _ (BKP.g0_reorder bB bC eTol (Equiv.swap 0 1) (Equiv.swap 0 1)) (BKP.g1_reorder bA bC eTol (Equiv.swap 0 1) (Equiv.swap 0 1))
  exact ⟨order, q', ho, bSep, hp, C139_reordered (by norm_num [eTol]) hC hp _ _ bQZ bSep q' bSep order order ho ho false .bool (by decide)⟩

end GE
