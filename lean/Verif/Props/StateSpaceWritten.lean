import Verif.Model.StateSpaceSolve
import Verif.Props.StateSpace
import Verif.Props.StateSpace3
import Verif.Props.Responses
import Mathlib.Algebra.Order.BigOperators.Ring.Finset
/-!
# C136: the estimated state space follows the equations of the file

The chain: text of a GCN file, equations (`Model/Pipeline.lean`), symbolic linearised system (`Model/StateSpaceBuild.lean`), matrices at a draw of
the parameters and policy matrices (`Model/StateSpaceSolve.lean`), transition and selection of the Kalman filter (`Model/StateSpace.lean`).
-/

open Matrix

namespace GE

/-! ## specification -/

/-- the variables `statespace_from_gcn` is asked to log-linearise -/
def askedLogs (vars : List TSym) (linear logLin : Bool) (exclude : Option (List Str)) : List TSym :=
  if logLin = true ∧ linear = false then vars.filter fun v => decide (v.base ∉ exclude.getD []) else []

/-- what the filter expects for the original variable `i` one date after the state `x` -/
noncomputable def SSCfg.forecast (c : SSCfg) (T : NMat) (x : ℕ → ℝ) (i : ℕ) : ℝ := ∑ j ∈ Finset.range c.kAug, c.transition T i j * x j

/-- `dev` shows, around date `u + 1`, what the filter knows at that date: the states of dates `u` and `u + 1` and its expectation for `u + 2` -/
structure SSCfg.Shows (c : SSCfg) {n : ℕ} (T : NMat) (x : ℕ → ℕ → ℝ) (u : ℕ) (dev : Int → Fin n → ℝ) : Prop where
  before : ∀ j : Fin n, dev u j = x u j
  now : ∀ j : Fin n, dev (u + 1) j = x (u + 1) j
  next : ∀ j : Fin n, dev (u + 2) j = c.forecast T (x (u + 1)) j

namespace SSW

/-- a list that is a permutation of the positions, as a permutation -/
theorem perm_equiv {n : ℕ} {l : List ℕ} (h : l.Perm (List.range n)) : ∃ σ : Equiv.Perm (Fin n), ∀ c : Fin n, l[(c : ℕ)]? = some (σ c : ℕ) := by
  have hl : l.length = n := by simpa using h.length_eq
  have hlt : ∀ i ∈ l, i < n := fun i hi => List.mem_range.1 (h.mem_iff.1 hi)
  have hnd : l.Nodup := h.nodup_iff.2 List.nodup_range
  let f : Fin n → Fin n := fun c => ⟨l[(c : ℕ)]'(by omega), hlt _ (List.getElem_mem _)⟩
  have hinj : Function.Injective f := by
    intro a b hab
    have : l[(a : ℕ)]'(by omega) = l[(b : ℕ)]'(by omega) := congrArg Fin.val hab
    exact Fin.ext ((List.Nodup.getElem_inj_iff hnd).1 this)
  refine ⟨Equiv.ofBijective f (Finite.injective_iff_bijective.1 hinj), fun c => ?_⟩
  rw [List.getElem?_eq_getElem (by omega)]
  rfl

theorem inv_at {n : ℕ} {l : List ℕ} (h : l.Perm (List.range n)) (σ : Equiv.Perm (Fin n)) (hσ : ∀ c : Fin n, l[(c : ℕ)]? = some (σ c : ℕ)) (j : Fin n) :
    invOrder l j = (σ.symm j : ℕ) := by
  have hl : l.length = n := by simpa using h.length_eq
  have hnd : l.Nodup := h.nodup_iff.2 List.nodup_range
  have h1 := hσ (σ.symm j)
  rw [Equiv.apply_symm_apply] at h1
  obtain ⟨hb, h2⟩ := List.getElem?_eq_some_iff.1 h1
  unfold invOrder
  rw [← h2]
  exact List.Nodup.idxOf_getElem hnd _ hb

theorem asked_eq (vars : List TSym) (linear logLin : Bool) (exclude : Option (List Str)) :
    (if logLin && !linear then vars.filter fun v => !(exclude.getD []).contains v.base else []) = askedLogs vars linear logLin exclude := by
  unfold askedLogs
  have : (fun v : TSym => !(exclude.getD []).contains v.base) = fun v => decide (v.base ∉ exclude.getD []) := by
    funext v; simp [List.contains_eq_mem]
  rw [this]
  cases logLin <;> cases linear <;> rfl

/-- the matrices at a draw are those of `linearize_model`, with rows and columns reordered -/
theorem mats {vars : List TSym} {eqs : List SExpr} {shocks : List TSym} {free : List Str} {determ calib : List (Str × SExpr)}
    {ssSol : List (Sym × SExpr)} {linear logLin : Bool} {exclude : Option (List Str)} {out : SSGOut}
    (hm : ClosedModel vars eqs shocks free determ ssSol)
    (h : statespaceFromGcn vars eqs shocks free determ calib ssSol linear logLin exclude = .ok out) (hsq : eqs.length = vars.length)
    (par : Str → ℝ) (ss : List (Str × ℝ)) (hs : AtSteady vars determ ssSol par (ssOf ss))
    (hss : ∀ v ∈ vars, (dget (normalizeConditions ss) v.base).isSome) :
    ∃ (M : LinMats vars.length shocks.length) (ρ σ : Equiv.Perm (Fin vars.length)),
      linearMats vars eqs shocks (askedLogs vars linear logLin exclude) par ss = some M ∧ out.varOrder.Perm (List.range vars.length) ∧
      (∀ c : Fin vars.length, out.varOrder[(c : ℕ)]? = some (σ c : ℕ)) ∧
      (∀ r c, (out.matsAt par vars.length shocks.length).A r c = M.A (ρ r) (σ c) ∧ (out.matsAt par vars.length shocks.length).B r c = M.B (ρ r) (σ c) ∧
        (out.matsAt par vars.length shocks.length).C r c = M.C (ρ r) (σ c)) ∧
      ∀ r s, (out.matsAt par vars.length shocks.length).D r s = M.D (ρ r) s := by
  obtain ⟨ssMap, sys, hk, hv, hsys, hpar, hss', hA, hB, hC, hD, hvo, _⟩ := SSB.accepted hm.distinct h
  rw [hpar, hss'] at hA hB hC hD
  rw [asked_eq] at hsys
  generalize hlog : askedLogs vars linear logLin exclude = loglin at hsys
  have heo := Ptb.eo_perm vars eqs
  have hvop := Ptb.vo_perm vars eqs
  rw [Ptb.linearize_none, Ptb.linearize_eq vars eqs shocks (some loglin) _ _ hm.distinct
    (fun i hi => List.mem_range.mp (heo.mem_iff.mp hi)) (fun j hj => List.mem_range.mp (hvop.mem_iff.mp hj)), Option.some.injEq] at hsys
  subst hsys
  dsimp only at hA hB hC hD hvo
  generalize hdd : dupdate (paramMapping free determ) (ssMap.map fun p => (p.1, p.2.graphReplace (paramMapping free determ))) = d at hA hB hC hD
  have hrows : ∀ k : Int, replaceRows d ((DROrder.fromModel vars eqs).varOrder.map fun j => columnScale vars (some loglin) (vars.getD j ⟨[], .ss, []⟩) j)
      ((DROrder.fromModel vars eqs).eqOrder.map fun i => (DROrder.fromModel vars eqs).varOrder.map fun j => Ptb.cell vars eqs shocks k i j) =
      (DROrder.fromModel vars eqs).eqOrder.map fun i => (DROrder.fromModel vars eqs).varOrder.map fun j =>
        ((Ptb.cell vars eqs shocks k i j).graphReplace d, (columnScale vars (some loglin) (vars.getD j ⟨[], .ss, []⟩) j).graphReplace d) := by
    intro k
    simp only [replaceRows, List.map_map]
    apply List.map_congr_left
    intro i _
    simp only [Function.comp_apply, List.zipWith_map, List.zipWith_self]
  rw [hrows] at hA hB hC
  have hgood : ∀ s, ((∃ n, s = .par n ∧ (n ∈ free ∨ n ∈ dkeys determ)) ∨ ∃ v ∈ vars, s = .tv (toSS v)) →
      SSB.Good free (drawOf par) (SSB.atSS par (ssOf ss)) d s := by
    intro s hsym
    rw [← hdd]
    exact SSB.ssMap_good hm hs (fun _ _ => rfl) hk hv s hsym
  rw [hsq] at heo
  obtain ⟨ρ, hρ⟩ := perm_equiv heo
  obtain ⟨σ, hσ⟩ := perm_equiv hvop
  have hval : ∀ e ∈ eqs, ∀ x : TSym, ((jacEntry shocks e x).graphReplace d).val (drawOf par) 0 = evalAt par (ssOf ss) (jacEntry shocks e x) := fun e he x =>
    (SSB.good_replace (Q := SSB.atSS par (ssOf ss)) _ fun s hs' => hgood s (SSB.jac_syms hm e he x s hs')).2
  have hscale : ∀ j : Fin vars.length, ((columnScale vars (some loglin) vars[j] j).graphReplace d).val (drawOf par) =
      promisedScale loglin vars[j] (ssOf ss vars[j]) := by
    intro j
    have hvmem : vars[j] ∈ vars := List.getElem_mem _
    have hsc := Ptb.scale_eval vars loglin vars[j] j (by simp) (ssOf ss)
    rw [hs.byName (toSS vars[j]) vars[j] rfl] at hsc
    rw [← hsc]
    have hv1 : ((SExpr.sym (.tv (toSS vars[j]))).graphReplace d).val (drawOf par) 0 = ssOf ss (toSS vars[j]) :=
      (SSB.good_replace (Q := SSB.atSS par (ssOf ss)) _ fun s hs' => hgood s (.inr ⟨vars[j], hvmem, by simpa [SExpr.syms] using hs'⟩)).2
    unfold columnScale
    split
    · rfl
    · split
      · exact hv1
      · show (if 0 < ((SExpr.sym (.tv (toSS vars[j]))).graphReplace d).val (drawOf par) 0 then ((SExpr.sym (.tv (toSS vars[j]))).graphReplace d).val (drawOf par) 0 else 1) = _
        rw [hv1]
        rfl
  have heq : ∀ r : Fin vars.length, ∃ e ∈ eqs, eqs[((ρ r : Fin vars.length) : ℕ)]? = some e := fun r => by
    have hlt : ((ρ r : Fin vars.length) : ℕ) < eqs.length := by rw [hsq]; exact (ρ r).2
    exact ⟨_, List.getElem_mem hlt, List.getElem?_eq_getElem hlt⟩
  have hvar : ∀ c : Fin vars.length, vars[((σ c : Fin vars.length) : ℕ)]? = some vars[σ c] := fun c => by simp
  have hentry : ∀ (k : Int) (r c : Fin vars.length), ((entryAt ((DROrder.fromModel vars eqs).eqOrder.map fun i => (DROrder.fromModel vars eqs).varOrder.map fun j =>
        ((Ptb.cell vars eqs shocks k i j).graphReplace d, (columnScale vars (some loglin) (vars.getD j ⟨[], .ss, []⟩) j).graphReplace d)) r c).map
        fun x => x.1.val (drawOf par) 0 * x.2.val (drawOf par)).getD 0 =
      (entryAt (eqs.map fun e => vars.map fun v => evalAt par (ssOf ss) (jacEntry shocks e (v.atT k)) * promisedScale loglin v (ssOf ss v)) (ρ r) (σ c)).getD 0 := by
    intro k r c
    obtain ⟨e, he, hei⟩ := heq r
    have hd1 : eqs.getD ((ρ r : Fin vars.length) : ℕ) (.num 0) = e := by simp [List.getD_eq_getElem?_getD, hei]
    have hd2 : vars.getD ((σ c : Fin vars.length) : ℕ) ⟨[], .ss, []⟩ = vars[σ c] := by simp
    simp only [entryAt, List.getElem?_map, hρ, hσ, hei, hvar, Option.map_some, Option.bind_some, Ptb.cell, hd1, hd2, Option.getD_some, hval e he, hscale]
  refine ⟨_, ρ, σ, by rw [linearMats, Ptb.linearizeModel_eq vars eqs shocks loglin ss (evalAt par) hm.distinct hss]; rfl, hvo ▸ hvop, hvo ▸ hσ, ?_, ?_⟩
  · intro r c
    refine ⟨?_, ?_, ?_⟩
    · simp only [SSGOut.matsAt, matsOf, Matrix.of_apply]; rw [hA]; exact hentry _ r c
    · simp only [SSGOut.matsAt, matsOf, Matrix.of_apply]; rw [hB]; exact hentry _ r c
    · simp only [SSGOut.matsAt, matsOf, Matrix.of_apply]; rw [hC]; exact hentry _ r c
  · intro r s
    obtain ⟨e, he, hei⟩ := heq r
    have hd1 : eqs.getD ((ρ r : Fin vars.length) : ℕ) (.num 0) = e := by simp [List.getD_eq_getElem?_getD, hei]
    have hsh : shocks[(s : ℕ)]? = some shocks[s] := by simp
    simp only [SSGOut.matsAt, matsOf, Matrix.of_apply]
    rw [hD]
    simp only [entryAt, List.getElem?_map, hρ, hei, hsh, Option.map_some, Option.bind_some, hd1, Option.getD_some, hval e he]

theorem ofMat_apply {n m : ℕ} (M : Mat n m) (i : Fin n) (j : Fin m) : NMat.ofMat M i j = M i j := by
  unfold NMat.ofMat
  rw [dif_pos ⟨i.2, j.2⟩]

theorem sum_range_fin {n : ℕ} (f : ℕ → ℝ) : ∑ j ∈ Finset.range n, f j = ∑ j : Fin n, f j := (Fin.sum_univ_eq_sum_range f n).symm

/-- every solver's `R` is exact -/
theorem pair_shocks {n k : ℕ} {solver : Str} {kernel : Mat n n → Mat n n → Mat n n → Mat n k → Option (Mat n n)} {N : LinMats n k} {T : Mat n n} {R : Mat n k}
    (h : solverPair solver kernel N = some (T, R)) (hback : solver = "backward_direct".toList → N.C = 0) : (N.C * T + N.B) * R + N.D = 0 := by
  unfold solverPair at h
  split at h
  · rename_i hs
    have hC := hback hs
    rw [hC] at h
    have := (C36_backward_is_general N.A N.B N.D T R h).2
    rw [hC]
    exact ((Lin.selection_iff N.B 0 N.D T R).1 this).2
  · obtain ⟨T', -, h2⟩ := Option.bind_eq_some_iff.1 h
    obtain ⟨R', h3, h4⟩ := Option.map_eq_some_iff.1 h2
    cases h4
    exact ((Lin.selection_iff N.B N.C N.D T R).1 h3).2

/-- the reordered system seen in the order of the user -/
theorem core {n k : ℕ} {M N : LinMats n k} {ρ σ : Equiv.Perm (Fin n)}
    (hABC : ∀ r c, N.A r c = M.A (ρ r) (σ c) ∧ N.B r c = M.B (ρ r) (σ c) ∧ N.C r c = M.C (ρ r) (σ c)) (hD : ∀ r s, N.D r s = M.D (ρ r) s)
    {T : Mat n n} {R : Mat n k} (hR : (N.C * T + N.B) * R + N.D = 0) {x0 x1 x2 : Fin n → ℝ} {e : Fin k → ℝ}
    (h1 : ∀ i, x1 i = ∑ j, T (σ.symm i) (σ.symm j) * x0 j + ∑ s, R (σ.symm i) s * e s)
    (h2 : ∀ i, x2 i = ∑ j, T (σ.symm i) (σ.symm j) * x1 j) (r : Fin n) :
    (M.A *ᵥ x0 + M.B *ᵥ x1 + M.C *ᵥ x2 + M.D *ᵥ e) (ρ r) = ((N.A + N.B * T + N.C * T * T) *ᵥ (x0 ∘ σ)) r := by
  have re : ∀ (X Y : Mat n n) (x : Fin n → ℝ), (∀ c, Y r c = X (ρ r) (σ c)) → (X *ᵥ x) (ρ r) = (Y *ᵥ (x ∘ σ)) r := by
    intro X Y x hXY
    simp only [mulVec, dotProduct, Function.comp]
    rw [← Equiv.sum_comp σ fun j => X (ρ r) j * x j]
    exact Finset.sum_congr rfl fun c _ => by rw [hXY]
  have hT : ∀ (x : Fin n → ℝ) (i : Fin n), ∑ j, T i (σ.symm j) * x j = (T *ᵥ (x ∘ σ)) i := by
    intro x i
    simp only [mulVec, dotProduct, Function.comp]
    rw [← Equiv.sum_comp σ fun j => T i (σ.symm j) * x j]
    exact Finset.sum_congr rfl fun c _ => by rw [Equiv.symm_apply_apply]
  have y1 : x1 ∘ σ = T *ᵥ (x0 ∘ σ) + R *ᵥ e := by
    funext i
    simp only [Function.comp, h1, Equiv.symm_apply_apply, Pi.add_apply]
    rw [hT]
    rfl
  have y2 : x2 ∘ σ = T *ᵥ (x1 ∘ σ) := by
    funext i
    simp only [Function.comp, h2, Equiv.symm_apply_apply]
    rw [hT]
  have hDr : (M.D *ᵥ e) (ρ r) = (N.D *ᵥ e) r := by
    simp only [mulVec, dotProduct]
    exact Finset.sum_congr rfl fun s _ => by rw [hD]
  have e1 : (M.A *ᵥ x0 + M.B *ᵥ x1 + M.C *ᵥ x2 + M.D *ᵥ e) (ρ r) =
      (N.A *ᵥ (x0 ∘ σ) + N.B *ᵥ (x1 ∘ σ) + N.C *ᵥ (x2 ∘ σ) + N.D *ᵥ e) r := by
    simp only [Pi.add_apply, re M.A N.A x0 fun c => (hABC r c).1, re M.B N.B x1 fun c => (hABC r c).2.1, re M.C N.C x2 fun c => (hABC r c).2.2, hDr]
  rw [e1, y2, y1]
  have e2 : N.A *ᵥ (x0 ∘ σ) + N.B *ᵥ (T *ᵥ (x0 ∘ σ) + R *ᵥ e) + N.C *ᵥ (T *ᵥ (T *ᵥ (x0 ∘ σ) + R *ᵥ e)) + N.D *ᵥ e =
      (N.A + N.B * T + N.C * T * T) *ᵥ (x0 ∘ σ) + ((N.C * T + N.B) * R + N.D) *ᵥ e := by
    simp only [Matrix.mulVec_add, Matrix.add_mulVec, Matrix.mulVec_mulVec, Matrix.add_mul, Matrix.mul_assoc]
    abel
  rw [e2, hR, Matrix.zero_mulVec, add_zero]

theorem row_bound {n : ℕ} (W : Mat n n) (x : Fin n → ℝ) (σ : Equiv.Perm (Fin n)) (r : Fin n) :
    ((W *ᵥ (x ∘ σ)) r) ^ 2 ≤ (∑ i, ∑ j, W i j ^ 2) * ∑ j, x j ^ 2 := by
  have h1 : ((W *ᵥ (x ∘ σ)) r) ^ 2 ≤ (∑ j, W r j ^ 2) * ∑ j, (x ∘ σ) j ^ 2 := by
    simp only [mulVec, dotProduct]
    exact Finset.sum_mul_sq_le_sq_mul_sq _ _ _
  have h2 : ∑ j, (x ∘ σ) j ^ 2 = ∑ j, x j ^ 2 := Equiv.sum_comp σ fun j => x j ^ 2
  rw [h2] at h1
  refine h1.trans (mul_le_mul_of_nonneg_right ?_ (Finset.sum_nonneg fun _ _ => sq_nonneg _))
  exact Finset.single_le_sum (f := fun i => ∑ j, W i j ^ 2) (fun i _ => Finset.sum_nonneg fun _ _ => sq_nonneg _) (Finset.mem_univ r)

theorem admitted (addBK bk : Bool) (resid solverTol : ℝ) (h : potentials addBK true bk resid solverTol = some 0) (rate size : ℝ) (hs : 0 ≤ size)
    (hr : rate ^ 2 ≤ resid * size ^ 2) : |rate| ≤ Real.sqrt solverTol * size := by
  have hlt : resid < solverTol := by
    unfold potentials at h
    split at h
    · cases h
    · rename_i hn
      simp only [Bool.true_and, Bool.or_eq_true, Bool.not_eq_true', decide_eq_false_iff_not, not_or, not_not] at hn
      exact hn.2
  rcases hs.eq_or_lt with rfl | hs
  · have : rate = 0 := by
      have : rate ^ 2 ≤ 0 := by simpa using hr
      exact pow_eq_zero_iff (two_ne_zero) |>.1 (le_antisymm this (sq_nonneg _))
    simp [this]
  have hpos : 0 ≤ solverTol := by
    have h1 : 0 ≤ resid * size ^ 2 := le_trans (sq_nonneg _) hr
    have h2 : 0 ≤ resid := nonneg_of_mul_nonneg_left h1 (by positivity)
    linarith
  apply abs_le_of_sq_le_sq _ (by positivity)
  rw [mul_pow, Real.sq_sqrt hpos]
  nlinarith [sq_nonneg size]

end SSW
open SSW

/-- **C136**: along every trajectory of the estimated state space, at every date, with every variable at its state (in levels or logs as asked)
and next period's variables at the filter's expectation, each equation of the model changes, to first order, by at most the square root of the
residual `build_statespace_graph` checks, times the size of yesterday's state -/
theorem C136_rate (vars : List TSym) (eqs : List SExpr) (shocks : List TSym) (free : List Str) (determ calib : List (Str × SExpr))
    (ssSol : List (Sym × SExpr)) (linear logLin : Bool) (exclude : Option (List Str)) (out : SSGOut)
    (hm : ClosedModel vars eqs shocks free determ ssSol)
    (h : statespaceFromGcn vars eqs shocks free determ calib ssSol linear logLin exclude = .ok out) (hsq : eqs.length = vars.length)
    (hn : Named vars shocks) (hsh : Shallow vars shocks eqs)
    (par : Str → ℝ) (ss : List (Str × ℝ)) (hs : AtSteady vars determ ssSol par (ssOf ss))
    (hss : ∀ v ∈ vars, (dget (normalizeConditions ss) v.base).isSome) (hsm : ∀ e ∈ eqs, e.Smooth (steadyPath par (ssOf ss) shocks) 0)
    (solver : Str) (kernel : Mat vars.length vars.length → Mat vars.length vars.length → Mat vars.length vars.length → Mat vars.length shocks.length →
      Option (Mat vars.length vars.length))
    (hback : solver = "backward_direct".toList → (out.matsAt par vars.length shocks.length).C = 0)
    (T R : NMat) (resid : ℝ) (hp : out.policy par vars.length shocks.length solver kernel = some (T, R, resid))
    (c : SSCfg) (hc : c.vars = vars.map TSym.base) (x eps : ℕ → ℕ → ℝ) (hf : c.Follows shocks.length T R x eps)
    (u : ℕ) (dev : Int → Fin vars.length → ℝ) (hdev : c.Shows T x u dev)
    (hits : Int → Fin shocks.length → ℝ) (hhits : ∀ s : Fin shocks.length, hits (u + 1) s = eps (u + 1) s)
    (F : ℝ → RealPath) (hF : ∀ h, Deviates vars shocks (askedLogs vars linear logLin exclude) par ss dev hits (u + 2) h (F h))
    (q : SExpr) (hq : q ∈ eqs) :
    ∃ rate, HasDerivAt (fun h => q.val (F h) (u + 1)) rate 0 ∧ rate ^ 2 ≤ resid * ∑ j : Fin vars.length, x u j ^ 2 := by
  obtain ⟨M, ρ, σ, hM, hperm, hσ, hABC, hD⟩ := mats hm h hsq par ss hs hss
  obtain ⟨M', hM', hder⟩ := C130_first_order vars eqs shocks _ par ss hn hsh hss hsm dev hits _ F hF
  obtain rfl : M = M' := by simpa [hM] using hM'
  obtain ⟨i, hi, hqi⟩ := List.getElem_of_mem hq
  have hiv : i < vars.length := by omega
  have hd := hder ⟨i, hiv⟩ q (by simpa [List.getElem?_eq_getElem hi] using hqi) (u + 1) (by omega)
  -- the solver's pair
  unfold SSGOut.policy at hp
  dsimp only at hp
  obtain ⟨⟨T0, R0⟩, hpair, hpol⟩ := Option.map_eq_some_iff.1 hp
  have hR0 := pair_shocks hpair hback
  generalize hN : out.matsAt par vars.length shocks.length = N at hABC hD hR0 hpol
  obtain ⟨rfl, rfl, rfl⟩ : T = ((NMat.ofMat T0).rows (invOrder out.varOrder)).cols (invOrder out.varOrder) ∧
      R = (NMat.ofMat R0).rows (invOrder out.varOrder) ∧
      resid = (policyMatrices vars.length (NMat.ofMat N.A) (NMat.ofMat N.B) (NMat.ofMat N.C) (NMat.ofMat T0) (NMat.ofMat R0) (invOrder out.varOrder)).2.2 := by
    rw [policyMatrices] at hpol
    simp only [Prod.mk.injEq] at hpol
    refine ⟨hpol.1.symm, hpol.2.1.symm, ?_⟩
    rw [policyMatrices]
    exact hpol.2.2.symm
  have hlen : c.vars.length = vars.length := by rw [hc, List.length_map]
  have hTe : ∀ a b : Fin vars.length, (((NMat.ofMat T0).rows (invOrder out.varOrder)).cols (invOrder out.varOrder)) a b = T0 (σ.symm a) (σ.symm b) := fun a b => by
    simp only [NMat.cols, NMat.rows, inv_at hperm σ hσ, ofMat_apply]
  have hRe : ∀ (a : Fin vars.length) (s : Fin shocks.length), ((NMat.ofMat R0).rows (invOrder out.varOrder)) a s = R0 (σ.symm a) s := fun a s => by
    simp only [NMat.rows, inv_at hperm σ hσ, ofMat_apply]
  have h1 : ∀ a : Fin vars.length, dev (u + 1) a = ∑ j, T0 (σ.symm a) (σ.symm j) * dev u j + ∑ s, R0 (σ.symm a) s * hits (u + 1) s := by
    intro a
    rw [hdev.now, C92_dynamics c _ _ _ x eps hf u a (by rw [hlen]; exact a.2), hlen, sum_range_fin, sum_range_fin]
    simp only [hTe, hRe, hdev.before, hhits]
  have h2 : ∀ a : Fin vars.length, dev (u + 2) a = ∑ j, T0 (σ.symm a) (σ.symm j) * dev (u + 1) j := by
    intro a
    rw [hdev.next]
    unfold SSCfg.forecast
    have hk : c.kAug = c.vars.length + (c.nCum + c.nObsLag) := by unfold SSCfg.kAug; omega
    rw [hk, Finset.sum_range_add]
    rw [Finset.sum_eq_zero (s := Finset.range (c.nCum + c.nObsLag)) fun j hj => ?_, add_zero, hlen, sum_range_fin]
    · refine Finset.sum_congr rfl fun j _ => ?_
      rw [SSp.trans_orig c _ a _ (by rw [hlen]; exact a.2) (by rw [hk, hlen]; have := j.2; omega), if_pos (by rw [hlen]; exact j.2), hTe, hdev.now]
    · rw [Finset.mem_range] at hj
      rw [SSp.trans_orig c _ a _ (by rw [hlen]; exact a.2) (by omega), if_neg (by omega), zero_mul]
  have hcore := core hABC hD hR0 h1 h2 (ρ.symm ⟨i, hiv⟩)
  rw [Equiv.apply_symm_apply] at hcore
  have hu : ((u : Int) + 1 - 1) = u := by omega
  have hu2 : ((u : Int) + 1 + 1) = u + 2 := by omega
  rw [hu, hu2, hcore] at hd
  refine ⟨_, hd, (row_bound _ (dev u) σ _).trans (le_of_eq ?_)⟩
  have hx : ∑ j, dev u j ^ 2 = ∑ j : Fin vars.length, x u j ^ 2 := Finset.sum_congr rfl fun j _ => by rw [hdev.before]
  rw [hx]
  congr 1
  rw [policyMatrices]
  dsimp only
  rw [sum_range_fin]
  refine Finset.sum_congr rfl fun a _ => ?_
  rw [sum_range_fin]
  refine Finset.sum_congr rfl fun b _ => ?_
  simp only [NMat.dot, sum_range_fin, ofMat_apply, Matrix.add_apply, Matrix.mul_apply]

/-- **C136, the whole way**: a GCN file is read, `statespace_from_gcn` builds the symbolic system, at a draw of the parameters a solver gives the
policy matrices, and the state vector of the Kalman filter moves by the resulting transition. Put the economy, around any date, on `h` times what
the filter shows (definitions of the blocks holding, auxiliary variables for deep lags and leads being those). Then every equation of the file, as
written, moves at a rate whose square is at most the checked residual times the squared length of yesterday's state; with
`add_solver_success_check` a draw of finite log-density therefore misses them by at most `sqrt (solver_tol)` times that length; if the residual is
zero and the steady state solves the model, the equation holds up to something smaller than any multiple of `h` -/
theorem C136_written (text : List Char) (ts : List Tok) (f : Gcn.GFile) (P : Primitives) (ht : SpellsToks text ts) (hfile : Gcn.IsFile ts f)
    (hl : Gcn.LoadGcn text P) (hd : f.DistinctNames) (free : List Str) (determ calib : List (Str × SExpr))
    (ssSol : List (Sym × SExpr)) (linear logLin : Bool) (exclude : Option (List Str)) (out : SSGOut)
    (hm : ClosedModel P.variables P.equations P.shocks free determ ssSol)
    (h : statespaceFromGcn P.variables P.equations P.shocks free determ calib ssSol linear logLin exclude = .ok out)
    (hsq : P.equations.length = P.variables.length) (hn : Named P.variables P.shocks) (hsh : Shallow P.variables P.shocks P.equations)
    (par : Str → ℝ) (ss : List (Str × ℝ)) (hs : AtSteady P.variables determ ssSol par (ssOf ss))
    (hss : ∀ v ∈ P.variables, (dget (normalizeConditions ss) v.base).isSome)
    (hsm : ∀ e ∈ P.equations, e.Smooth (steadyPath par (ssOf ss) P.shocks) 0)
    (solver : Str) (kernel : Mat P.variables.length P.variables.length → Mat P.variables.length P.variables.length → Mat P.variables.length P.variables.length →
      Mat P.variables.length P.shocks.length → Option (Mat P.variables.length P.variables.length))
    (hback : solver = "backward_direct".toList → (out.matsAt par P.variables.length P.shocks.length).C = 0)
    (T R : NMat) (resid : ℝ) (hp : out.policy par P.variables.length P.shocks.length solver kernel = some (T, R, resid))
    (c : SSCfg) (hc : c.vars = P.variables.map TSym.base) (x eps : ℕ → ℕ → ℝ) (hf : c.Follows P.shocks.length T R x eps)
    (u : ℕ) (dev : Int → Fin P.variables.length → ℝ) (hdev : c.Shows T x u dev)
    (hits : Int → Fin P.shocks.length → ℝ) (hhits : ∀ s : Fin P.shocks.length, hits (u + 1) s = eps (u + 1) s)
    (F : ℝ → RealPath) (hF : ∀ h, Deviates P.variables P.shocks (askedLogs P.variables linear logLin exclude) par ss dev hits (u + 2) h (F h))
    (hdef : ∀ h, f.DefinitionsHold (F h)) (hshift : ∀ h, f.ShiftsHold (F h))
    (b : Gcn.GBlock) (hb : f.IsModelBlock b) (e : Eqn) (he : e ∈ b.stated) :
    (∃ rate, HasDerivAt (fun h => Gcn.writtenGap f e (F h) (u + 1)) rate 0 ∧ rate ^ 2 ≤ resid * ∑ j : Fin P.variables.length, x u j ^ 2 ∧
      ∀ addBK bk solverTol, potentials addBK true bk resid solverTol = some 0 →
        |rate| ≤ Real.sqrt solverTol * Real.sqrt (∑ j : Fin P.variables.length, x u j ^ 2)) ∧
    (resid = 0 → (∀ q ∈ P.equations, q.val (steadyPath par (ssOf ss) P.shocks) 0 = 0) →
      (fun h => Gcn.writtenGap f e (F h) (u + 1)) =o[nhds 0] fun h : ℝ => h) := by
  obtain ⟨q, hqP, hval⟩ := Rsp.written_gaps ht hfile hl hd b hb e he
  obtain ⟨rate, h1, h2⟩ := C136_rate P.variables P.equations P.shocks free determ calib ssSol linear logLin exclude out hm h hsq hn hsh par ss hs hss hsm solver
    kernel hback T R resid hp c hc x eps hf u dev hdev hits hhits F hF q hqP
  have hfun : (fun h => Gcn.writtenGap f e (F h) (u + 1)) = fun h => - q.val (F h) (u + 1) := by
    funext h
    rw [hval (F h) (hshift h) (hdef h), neg_neg]
  rw [hfun]
  refine ⟨⟨-rate, h1.neg, by rw [neg_sq]; exact h2, fun addBK bk tol hpt => ?_⟩, fun h0 hz => ?_⟩
  · refine admitted addBK bk resid tol hpt (-rate) _ (Real.sqrt_nonneg _) ?_
    rw [Real.sq_sqrt (Finset.sum_nonneg fun _ _ => sq_nonneg _), neg_sq]
    exact h2
  have hr : rate = 0 := by
    rw [h0, zero_mul] at h2
    exact pow_eq_zero_iff (two_ne_zero) |>.1 (le_antisymm h2 (sq_nonneg _))
  rw [hr] at h1
  have hv0 : q.val (F 0) (u + 1) = 0 := by
    rw [← Rsp.eval_symAt]
    refine Eq.trans ?_ (hz q hqP)
    rw [← Rsp.eval_symAt]
    exact OEq.eval_congr _ _ _ fun y hy => Rsp.at_zero hsh hn (hF 0) hqP hy (by omega) 0
  have := hasDerivAt_iff_isLittleO.1 h1
  simp only [hv0, sub_zero, smul_eq_mul, mul_zero] at this
  exact this.neg_left

/-- **C136, violated** for `backward_direct` on a model with leads: `x1[] = x2[-1]`, `x2[] = 0.5*x1[1] + e[]`. `configure` does not look at the leads, the
solver drops `C`, the residual of `T` is zero, so the draw is admitted (whatever the Blanchard-Kahn flag says when it is not asked for); but with
`R` as computed the second equation misses half of every shock -/
theorem C136_backward_violated : ∃ (N : LinMats 2 1) (T : Mat 2 2) (R : Mat 2 1),
    N.A = !![0, 1; 0, 0] ∧ N.B = !![-1, 0; 0, -1] ∧ N.C = !![0, 0; 1/2, 0] ∧ N.D = !![0; 1] ∧
    (∀ kernel, solverPair "backward_direct".toList kernel N = some (T, R)) ∧
    (policyMatrices 2 (NMat.ofMat N.A) (NMat.ofMat N.B) (NMat.ofMat N.C) (NMat.ofMat T) (NMat.ofMat R) id).2.2 = 0 ∧
    potentials false true false 0 (1 / 100000000) = some 0 ∧
    N.B * R + N.C * T * R + N.D = !![0; 1/2] := by
  refine ⟨⟨!![0, 1; 0, 0], !![-1, 0; 0, -1], !![0, 0; 1/2, 0], !![0; 1]⟩, !![0, 1; 0, 0], !![0; 1], rfl, rfl, rfl, rfl, fun kernel => ?_, ?_, ?_, ?_⟩
  · unfold solverPair
    rw [if_pos rfl]
    refine ((C36_backward _ _ _ _).2 _ _).2 ⟨by rw [Matrix.det_fin_two]; simp, ?_, ?_⟩
    · ext i j; fin_cases i <;> fin_cases j <;> simp [Matrix.mul_apply, Fin.sum_univ_two]
    · ext i j; fin_cases i <;> fin_cases j <;> simp [Matrix.mul_apply, Fin.sum_univ_two]
  · rw [policyMatrices]
    dsimp only
    rw [sum_range_fin]
    refine Finset.sum_eq_zero fun a _ => ?_
    rw [sum_range_fin]
    refine Finset.sum_eq_zero fun b _ => ?_
    simp only [NMat.dot, sum_range_fin, ofMat_apply]
    fin_cases a <;> fin_cases b <;> simp [Fin.sum_univ_two]
  · unfold potentials
    rw [if_neg]
    simp
  · ext i j; fin_cases i <;> fin_cases j <;> norm_num [Matrix.mul_apply, Fin.sum_univ_two]

namespace SSW
open Rsp

/-- the steady state of the file `rsText` in closed form -/
def rsSol : List (Sym × SExpr) := [(.tv (toSS rsX), .num 4)]

theorem rs_closed : ClosedModel [rsX] [rsQ] [rsE] [] [] rsSol where
  distinct := by decide
  known := by decide
  pars := by
    intro e he n hnn
    simp only [List.mem_singleton] at he
    subst he
    simp [rsQ, SExpr.syms] at hnn
  resolved := by simp
  analytic := by
    intro v hv w hw
    simp only [List.mem_singleton] at hv
    subst hv
    simp only [rsSol, dget] at hw
    rw [if_pos trivial] at hw
    cases hw
    simp [SExpr.syms]

theorem rs_steady : AtSteady [rsX] [] rsSol (fun _ => 0) (ssOf rsSS) where
  determ := by simp
  steady := by
    intro v hv w hw
    simp only [List.mem_singleton] at hv
    subst hv
    simp only [rsSol, dget] at hw
    rw [if_pos trivial] at hw
    cases hw
    rw [evalAt, ← eval_symAt]
    simp [ssOf, rs_ss, SExpr.eval]
  byName := by
    intro v w h
    simp [ssOf, h]

end SSW
open SSW Rsp

/-- the hypotheses are met: the file `x[] = 2 + 0.5*x[-1] + e[]*x[-1]`, `backward_direct`, any sequence of shocks; the state starts at 1 -/
example (eps : ℕ → ℕ → ℝ) : ∃ (P : Primitives) (out : SSGOut) (T R : NMat) (x : ℕ → ℕ → ℝ) (c : SSCfg), Gcn.LoadGcn rsText P ∧
    statespaceFromGcn P.variables P.equations P.shocks [] [] [] rsSol false false none = .ok out ∧
    out.policy (fun _ => 0) P.variables.length P.shocks.length "backward_direct".toList (fun _ _ _ _ => none) = some (T, R, 0) ∧
    c.Follows P.shocks.length T R x eps ∧ x 0 0 = 1 ∧
    ∀ u : ℕ, ∃ F : ℝ → RealPath, (fun h => Gcn.writtenGap rsFile rsEq (F h) (u + 1)) =o[nhds 0] fun h : ℝ => h := by
  obtain ⟨P, hl, h1, h2, h3⟩ := rs_load
  obtain ⟨eqs, vars, shs, p4, p5, p6, p7, p8, p9⟩ := P
  simp only at h1 h2 h3
  subst h1 h2 h3
  obtain ⟨out, hout⟩ : ∃ out, statespaceFromGcn [rsX] [rsQ] [rsE] [] [] [] rsSol false false none = .ok out := ⟨_, rfl⟩
  obtain ⟨M, ρ, σ, hM, -, -, hABC, hD⟩ := mats rs_closed hout rfl (fun _ => 0) rsSS rs_steady (by simp [rs_ss])
  obtain ⟨m, hm, hB, hC⟩ := rs_mats
  obtain rfl : m = M := by
    have : askedLogs [rsX] false false none = [] := rfl
    rw [this] at hM
    simpa [hm] using hM
  have hN : (out.matsAt (fun _ => 0) [rsX].length [rsE].length).C = 0 := by
    ext r c
    rw [(hABC r c).2.2, hC]; rfl
  have hNB : ∀ r c, (out.matsAt (fun _ => 0) [rsX].length [rsE].length).B r c = -1 := fun r c => by rw [(hABC r c).2.1]; exact hB _ _
  have hdet : IsUnit (out.matsAt (fun _ => 0) [rsX].length [rsE].length).B.det := by
    have : (out.matsAt (fun _ => 0) [rsX].length [rsE].length).B.det = -1 := by
      have : (out.matsAt (fun _ => 0) [rsX].length [rsE].length).B = (Matrix.of fun _ _ => -1 : Matrix (Fin 1) (Fin 1) ℝ) := by ext i j; exact hNB i j
      rw [this]
      exact Matrix.det_fin_one _
    rw [this]
    exact isUnit_one.neg
  generalize hNN : out.matsAt (fun _ => 0) [rsX].length [rsE].length = N at hN hdet
  obtain ⟨⟨T0, R0⟩, hTR⟩ := Option.isSome_iff_exists.1 ((C36_backward N.A N.B N.C N.D).1.2 hdet)
  have hA0 := (((C36_backward N.A N.B N.C N.D).2 T0 R0).1 hTR).2.1
  have hpol : ∃ T R, out.policy (fun _ => 0) [rsX].length [rsE].length "backward_direct".toList (fun _ _ _ _ => none) = some (T, R, 0) := by
    unfold SSGOut.policy
    dsimp only
    rw [hNN]
    unfold solverPair
    rw [if_pos rfl, hTR]
    refine ⟨_, _, congrArg some (Prod.ext rfl (Prod.ext rfl ?_))⟩
    show (policyMatrices _ _ _ _ _ _ _).2.2 = 0
    rw [policyMatrices]
    dsimp only
    rw [sum_range_fin]
    refine Finset.sum_eq_zero fun a _ => ?_
    rw [sum_range_fin]
    refine Finset.sum_eq_zero fun b _ => ?_
    have hab := congrFun (congrFun hA0 a) b
    simp only [NMat.dot, sum_range_fin, ofMat_apply, hN]
    simp only [Matrix.add_apply, Matrix.mul_apply, Matrix.zero_apply] at hab
    rw [hab]
    simp
  obtain ⟨T, R, hpol⟩ := hpol
  let c : SSCfg := { vars := [rsX].map TSym.base, observed := [], agg := [], period := 4, obsEqs := [] }
  let x : ℕ → ℕ → ℝ := fun t => Nat.rec (fun _ => 1) (fun t y i => ∑ j ∈ Finset.range c.kAug, c.transition T i j * y j +
    ∑ s ∈ Finset.range [rsE].length, c.selection R i s * eps (t + 1) s) t
  have hx : c.Follows [rsE].length T R x eps := fun t i _ => rfl
  refine ⟨_, out, T, R, x, c, hl, hout, hpol, hx, rfl, fun u => ?_⟩
  obtain ⟨F, hF⟩ := C130_paths_exist [rsX] [rsE] [] rs_named (fun _ => 0) rsSS
    (fun v j => if v = u then x u j else if v = u + 1 then x (u + 1) j else c.forecast T (x (u + 1)) j) (fun v s => eps v.toNat s) (u + 2)
  refine ⟨F, (C136_written rsText rsToks rsFile _ rs_spells rs_file hl (by simp [Gcn.GFile.DistinctNames, rsFile]) [] [] [] rsSol false false none out rs_closed hout rfl
    rs_named rs_shallow (fun _ => 0) rsSS rs_steady ?_ ?_ "backward_direct".toList _ (fun _ => hNN ▸ hN) T R 0 hpol c rfl x eps hx u _ ⟨?_, ?_, ?_⟩ _ (fun s => ?_) F hF ?_
    (fun h => rs_shifts _) rsBlock rs_model rsEq (by simp [Gcn.GBlock.stated, rsBlock])).2 rfl ?_⟩
  · intro v hv
    simp only [List.mem_singleton] at hv
    subst hv
    rw [rs_ss]; rfl
  · intro e he
    simp only [List.mem_singleton] at he
    subst he
    simp [rsQ, SExpr.Smooth]
  · intro j; rw [if_pos rfl]
  · intro j; rw [if_neg (by omega), if_pos rfl]
  · intro j; rw [if_neg (by omega), if_neg (by omega)]
  · have : ((u : Int) + 1).toNat = u + 1 := by omega
    rw [this]
  · intro h b hb e he
    cases rs_block b hb
    cases he
  · intro e he
    simp only [List.mem_singleton] at he
    subst he
    rw [← eval_symAt]
    have hx : (steadyPath (fun _ => 0) (ssOf rsSS) [rsE]).val.symAt 0 (.tv rsX) = 4 := rs_x 0
    simp only [rsQ, SExpr.eval, rs_x, rs_e, hx]
    norm_num

end GE
