import Verif.Model.ForwardVars
import Verif.Props.Perturbation
/-! # C119: which variables look forward -/

namespace GE

namespace Fwd

theorem mem_shifted (eqs : List SExpr) (k : Int) (v : TSym) (hv : v.idx = .t 0) : v ∈ shiftedAtoms eqs k ↔ ∃ e ∈ eqs, v.atT k ∈ e.tsyms := by
  simp only [shiftedAtoms, List.mem_map, List.mem_flatMap, List.mem_filter, decide_eq_true_eq]
  constructor
  · rintro ⟨a, ⟨e, he, ha, hk⟩, rfl⟩
    refine ⟨e, he, ?_⟩
    have : (a.atT 0).atT k = a := by
      cases a
      simp only [TSym.atT] at *
      rw [hk]
    rw [this]
    exact ha
  · rintro ⟨e, he, h⟩
    refine ⟨v.atT k, ⟨e, he, h, rfl⟩, ?_⟩
    cases v
    simp only [TSym.atT] at *
    rw [hv]

end Fwd

/-- **C119** the syntactic lists: a variable is backward (symbolically forward) exactly when some equation mentions it one period back (ahead);
the lists keep the order of the variables. -/
theorem C119_syntactic (vars : List TSym) (eqs : List SExpr) (ht : ∀ v ∈ vars, v.idx = .t 0) :
    (backwardVariables vars eqs).Sublist vars ∧ (symbolicForwardVariables vars eqs).Sublist vars ∧
    ∀ v ∈ vars, (v ∈ backwardVariables vars eqs ↔ VarUsed eqs (-1) v) ∧ (v ∈ symbolicForwardVariables vars eqs ↔ VarUsed eqs 1 v) := by
  refine ⟨List.filter_sublist, List.filter_sublist, fun v hv => ⟨?_, ?_⟩⟩
  · rw [backwardVariables, List.mem_filter, decide_eq_true_eq, Fwd.mem_shifted eqs (-1) v (ht v hv)]
    exact ⟨fun h => h.2, fun h => ⟨hv, h⟩⟩
  · rw [symbolicForwardVariables, List.mem_filter, decide_eq_true_eq, Fwd.mem_shifted eqs 1 v (ht v hv)]
    exact ⟨fun h => h.2, fun h => ⟨hv, h⟩⟩

namespace Fwd

theorem zip_map_right {α β : Type} (l : List α) (f : α → β) : l.zip (l.map f) = l.map fun x => (x, f x) := by
  induction l with
  | nil => rfl
  | cons x l ih => simp [ih]

theorem sums_eq (vars : List TSym) (eqs : List SExpr) (f : SExpr → TSym → ℝ) :
    absColSums vars.length (eqs.map fun e => vars.map fun v => f e v) = vars.map fun v => (eqs.map fun e => |f e v|).sum := by
  apply List.ext_getElem
  · simp [absColSums]
  · intro i h1 h2
    simp only [List.length_map] at h2
    simp only [absColSums, List.getElem_map, List.getElem_range, List.map_map]
    congr 1
    apply List.map_congr_left
    intro e _
    simp [List.getD_eq_getElem?_getD, h2]

theorem forward_eq (tol : ℝ) (vars : List TSym) (eqs : List SExpr) (M : ABCD ℝ) (f : SExpr → TSym → ℝ) (hC : M.C = eqs.map fun e => vars.map fun v => f e v) :
    forwardVariables tol vars eqs (some M) = vars.filter fun v => decide (tol < (eqs.map fun e => |f e v|).sum) := by
  simp only [forwardVariables, hC, sums_eq, zip_map_right, List.filter_map, List.map_map]
  conv_rhs => rw [← List.map_id (vars.filter _)]
  rfl

end Fwd

/-- **C119** when the model can be linearised, a variable looks forward exactly when the absolute values of its column of the lead matrix the user
receives add up to more than the tolerance; the order is that of the model. -/
theorem C119_forward (tol : ℝ) (vars : List TSym) (eqs : List SExpr) (shocks loglin : List TSym) (ss : List (Str × ℝ)) (par : Str → ℝ)
    (hnd : (vars.map TSym.base).Nodup) (hss : ∀ v ∈ vars, (dget (normalizeConditions ss) v.base).isSome) :
    ∃ M, linearizeModel vars eqs shocks loglin ss (evalAt par) = some M ∧
      (forwardVariables tol vars eqs (some M)).Sublist vars ∧
      ∀ (j : Nat) (v : TSym), vars[j]? = some v → (v ∈ forwardVariables tol vars eqs (some M) ↔
        tol < (M.C.map fun row => |row.getD j 0|).sum) := by
  refine ⟨_, Ptb.linearizeModel_eq vars eqs shocks loglin ss (evalAt par) hnd hss, ?_, ?_⟩
  · rw [Fwd.forward_eq tol vars eqs _ _ rfl]
    exact List.filter_sublist
  · intro j v hj
    rw [Fwd.forward_eq tol vars eqs _ _ rfl, List.mem_filter, decide_eq_true_eq]
    simp only [List.map_map]
    have : (eqs.map ((fun row : List ℝ => |row.getD j 0|) ∘ fun e => vars.map fun v => evalAt par (ssOf ss) (jacEntry shocks e (v.atT 1)) * promisedScale loglin v (ssOf ss v))) =
        eqs.map fun e => |evalAt par (ssOf ss) (jacEntry shocks e (v.atT 1)) * promisedScale loglin v (ssOf ss v)| := by
      apply List.map_congr_left
      intro e _
      simp [List.getD_eq_getElem?_getD, hj]
    rw [this]
    exact ⟨fun h => h.2, fun h => ⟨List.mem_of_getElem? hj, h⟩⟩

/-- **C119** a forward-looking variable is mentioned one period ahead by some equation, and without a linearisation the syntactic list is used. -/
theorem C119_subset (tol : ℝ) (h0 : 0 ≤ tol) (vars : List TSym) (eqs : List SExpr) (shocks loglin : List TSym) (ss : List (Str × ℝ)) (par : Str → ℝ)
    (hnd : (vars.map TSym.base).Nodup) (hss : ∀ v ∈ vars, (dget (normalizeConditions ss) v.base).isSome) (ht : ∀ v ∈ vars, v.idx = .t 0) (M : ABCD ℝ)
    (hM : linearizeModel vars eqs shocks loglin ss (evalAt par) = some M) :
    (∀ v ∈ forwardVariables tol vars eqs (some M), v ∈ symbolicForwardVariables vars eqs) ∧
    forwardVariables tol vars eqs none = symbolicForwardVariables vars eqs := by
  refine ⟨fun v hv => ?_, rfl⟩
  rw [Ptb.linearizeModel_eq vars eqs shocks loglin ss (evalAt par) hnd hss, Option.some.injEq] at hM
  subst hM
  rw [Fwd.forward_eq tol vars eqs _ _ rfl, List.mem_filter, decide_eq_true_eq] at hv
  rw [((C119_syntactic vars eqs ht).2.2 v hv.1).2]
  by_contra hc
  have hz : (eqs.map fun e => |evalAt par (ssOf ss) (jacEntry shocks e (v.atT 1)) * promisedScale loglin v (ssOf ss v)|) = eqs.map fun _ => (0 : ℝ) := by
    apply List.map_congr_left
    intro e he
    have : evalAt par (ssOf ss) (jacEntry shocks e (v.atT 1)) = 0 := Ptb.jacEntry_zero shocks e (v.atT 1) (fun h => hc ⟨e, he, h⟩) _ _
    rw [this, zero_mul, abs_zero]
  rw [hz] at hv
  have : (eqs.map fun _ => (0 : ℝ)).sum = 0 := by simp
  linarith [hv.2]

/-- **C119** `lead_var_idx`: the positions of the forward-looking variables, increasing. -/
theorem C119_lead_idx (vars fwd : List TSym) :
    (leadVarIdx vars fwd).Pairwise (· < ·) ∧ ∀ i, i ∈ leadVarIdx vars fwd ↔ ∃ v ∈ fwd, vars[i]? = some v := by
  constructor
  · unfold leadVarIdx
    refine List.Pairwise.sublist (List.filter_sublist.map _) ?_
    rw [List.zipIdx_eq_zip_range', List.map_snd_zip (by simp)]
    exact List.pairwise_lt_range'
  · intro i
    simp only [leadVarIdx, List.mem_map, List.mem_filter, decide_eq_true_eq, Prod.exists, exists_eq_right]
    constructor
    · rintro ⟨v, hv, hf⟩
      exact ⟨v, hf, List.mem_zipIdx_iff_getElem?.mp hv⟩
    · rintro ⟨v, hf, hv⟩
      exact ⟨v, List.mem_zipIdx_iff_getElem?.mpr hv, hf⟩

/-- **C119** the number of forward-looking variables is the number the Blanchard-Kahn check counts in the same lead matrix. -/
theorem C119_bk_count (tol : ℝ) (vars : List TSym) (eqs : List SExpr) (M : ABCD ℝ) (f : Fin vars.length → Fin vars.length → ℝ)
    (hC : M.C = List.ofFn fun i => List.ofFn fun j => f i j) :
    (forwardVariables tol vars eqs (some M)).length = bkForward (Matrix.of f) tol := by
  classical
  have hs : absColSums vars.length M.C = List.ofFn fun j => ∑ i, |f i j| := by
    apply List.ext_getElem
    · simp [absColSums]
    · intro j h1 h2
      simp only [List.length_ofFn] at h2
      simp only [absColSums, List.getElem_map, List.getElem_range, List.getElem_ofFn, hC, List.map_ofFn]
      rw [List.sum_ofFn]
      apply Finset.sum_congr rfl
      intro i _
      simp [List.getD_eq_getElem?_getD, h2]
  have hz : vars.zip (absColSums vars.length M.C) = List.ofFn fun j => (vars.get j, ∑ i, |f i j|) := by
    rw [hs]
    apply List.ext_getElem
    · simp
    · intro j h1 h2
      simp
  simp only [forwardVariables, hz, List.length_map, ← List.countP_eq_length_filter]
  unfold bkForward
  rw [List.ofFn_eq_map, List.countP_map, List.countP_eq_length_filter, ← List.toFinset_card_of_nodup ((List.nodup_finRange _).filter _)]
  congr 1
  ext j
  simp only [List.mem_toFinset, List.mem_filter, List.mem_finRange, true_and, Function.comp_apply, decide_eq_true_eq, Finset.mem_filter, Finset.mem_univ]
  rfl

/-! ### non-vacuity -/

/-- in the model `y - y[+1] * x`, `x - 0.9 x[-1] - e` (hypotheses of C39's example) `y` looks forward and `x` backward; with a zero lead matrix
nothing looks forward -/
example : symbolicForwardVariables [Ptb.yk 0, Ptb.xk 0] [Ptb.eq1, Ptb.eq2] = [Ptb.yk 0] ∧
    backwardVariables [Ptb.yk 0, Ptb.xk 0] [Ptb.eq1, Ptb.eq2] = [Ptb.xk 0] ∧
    forwardVariables (1 / 100000000 : ℚ) [Ptb.yk 0, Ptb.xk 0] [Ptb.eq1, Ptb.eq2] (some ⟨[], [], [[-2, 0], [0, 0]], []⟩) = [Ptb.yk 0] ∧
    forwardVariables (1 / 100000000 : ℚ) [Ptb.yk 0, Ptb.xk 0] [Ptb.eq1, Ptb.eq2] (some ⟨[], [], [[0, 0], [0, 0]], []⟩) = [] ∧
    leadVarIdx [Ptb.xk 0, Ptb.yk 0] [Ptb.yk 0] = [1] := by decide +kernel

end GE
