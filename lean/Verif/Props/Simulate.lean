import Verif.Model.Simulate
import Mathlib.Tactic.Linarith
import Mathlib.Tactic.FinCases
import Mathlib.Algebra.BigOperators.Fin
import Mathlib.Algebra.BigOperators.Intervals
/-! # C37, C38: impulse responses -/

open Matrix Finset

namespace GE

/-! ## Specification -/

/-- the size of the `i`-th shock described by a `shock_size` argument: the number itself, the `i`-th array entry, the dictionary's entry for the
shock's name and zero for a shock the dictionary does not name -/
noncomputable def specSize {k : ℕ} (names : Fin k → Str) (s : ShockSize) (i : Fin k) : ℝ :=
  match s with
  | .scalar r => r
  | .arr l => l.getD i 0
  | .dict d => (dget d (names i)).getD 0

/-- the shock specification names every shock of the model (always so, except for a dictionary) -/
def NamesAll {k : ℕ} (names : Fin k → Str) (a : IrfArgs) : Prop :=
  ∀ d, a.size = some (.dict d) → ∀ i, names i ∈ dkeys d

/-- the specification names the `i`-th shock -/
def NamesShock {k : ℕ} (names : Fin k → Str) (a : IrfArgs) (i : Fin k) : Prop :=
  ∀ d, a.size = some (.dict d) → names i ∈ dkeys d

/-- the arguments with every shock multiplied by `c` -/
noncomputable def scaleSize (c : ℝ) : ShockSize → ShockSize
  | .scalar r => .scalar (c * r)
  | .arr l => .arr (l.map fun x => c * x)
  | .dict d => .dict (d.map fun p => (p.1, c * p.2))

noncomputable def scaleArgs (c : ℝ) (a : IrfArgs) : IrfArgs where
  size := a.size.map (scaleSize c)
  cov := a.cov
  traj := a.traj.map fun tr => ⟨tr.cols, tr.rows.map fun r j => c * r j⟩

/-- a response with every number multiplied by `c` -/
noncomputable def scaleResult {n : ℕ} (c : ℝ) : IrfResult n → IrfResult n
  | .individual names data => .individual names (data.map fun d => d.map fun x => c • x)
  | .joint data => .joint (data.map fun x => c • x)

/-- the value of a joint or an individual path in period `t` -/
def atTime {n : ℕ} (d : List (Fin n → ℝ)) (t : ℕ) : Fin n → ℝ := d.getD t 0

namespace Sim

theorem simGo_length {n k : ℕ} (T : Mat n n) (R : Mat n k) (es : List (Fin k → ℝ)) (x : Fin n → ℝ) : (simGo T R x es).length = es.length := by
  induction es generalizing x with
  | nil => rfl
  | cons e es ih => simp [simGo, ih]

theorem simGo_get {n k : ℕ} (T : Mat n n) (R : Mat n k) (es : List (Fin k → ℝ)) (x : Fin n → ℝ) (t : ℕ) (ht : t < es.length) :
    (simGo T R x es).getD t 0 = (T ^ (t + 1)) *ᵥ x + ∑ s ∈ range (t + 1), (T ^ (t - s) * R) *ᵥ es.getD s 0 := by
  induction es generalizing x t with
  | nil => simp at ht
  | cons e es ih =>
    cases t with
    | zero => simp [simGo]
    | succ t =>
      have ht' : t < es.length := by simpa using ht
      simp only [simGo, List.getD_cons_succ]
      rw [ih _ _ ht', Finset.sum_range_succ' _ (t + 1)]
      simp only [List.getD_cons_succ, List.getD_cons_zero, Nat.add_sub_add_right, Nat.sub_zero]
      rw [Matrix.mulVec_add, Matrix.mulVec_mulVec, Matrix.mulVec_mulVec, ← pow_succ]
      abel

theorem simulateLinear_cons {n k : ℕ} (T : Mat n n) (R : Mat n k) (tr : List (Fin k → ℝ)) (h : tr ≠ []) :
    ∃ out, simulateLinear T R tr = .ok out ∧ out.length = tr.length ∧
      ∀ t, t < tr.length → out.getD t 0 = ∑ s ∈ range (t + 1), (T ^ (t - s) * R) *ᵥ tr.getD s 0 := by
  cases tr with
  | nil => exact absurd rfl h
  | cons e es =>
    refine ⟨_, rfl, by simp [simGo_length], ?_⟩
    intro t ht
    cases t with
    | zero => simp
    | succ t =>
      have ht' : t < es.length := by simpa using ht
      rw [List.getD_cons_succ, simGo_get _ _ _ _ _ ht', Finset.sum_range_succ' _ (t + 1)]
      simp only [List.getD_cons_succ, List.getD_cons_zero, Nat.add_sub_add_right, Nat.sub_zero]
      rw [Matrix.mulVec_mulVec]
      abel

theorem simulateLinear_ok {n k : ℕ} {T : Mat n n} {R : Mat n k} {tr : List (Fin k → ℝ)} {out : List (Fin n → ℝ)}
    (h : simulateLinear T R tr = .ok out) : tr ≠ [] ∧ out.length = tr.length ∧
      ∀ t, t < tr.length → out.getD t 0 = ∑ s ∈ range (t + 1), (T ^ (t - s) * R) *ᵥ tr.getD s 0 := by
  have hne : tr ≠ [] := by rintro rfl; cases h
  obtain ⟨o, ho, h1, h2⟩ := simulateLinear_cons T R tr hne
  rw [h] at ho
  cases ho
  exact ⟨hne, h1, h2⟩

theorem mapExcept_ok {α β ε : Type} {f : α → Except ε β} : ∀ {l : List α} {o : List β}, mapExcept f l = .ok o →
    List.Forall₂ (fun a b => f a = .ok b) l o
  | [], o, h => by cases h; exact .nil
  | a :: l, o, h => by
    simp only [mapExcept] at h
    cases e : f a with
    | error x => rw [e] at h; cases h
    | ok b =>
      rw [e] at h
      cases e2 : mapExcept f l with
      | error x => rw [e2] at h; cases h
      | ok bs =>
        rw [e2] at h
        cases h
        exact .cons e (mapExcept_ok e2)

theorem mapExcept_all {α β ε : Type} {f : α → Except ε β} {g : α → β} : ∀ {l : List α}, (∀ a ∈ l, f a = .ok (g a)) →
    mapExcept f l = .ok (l.map g)
  | [], _ => rfl
  | a :: l, h => by
    simp only [mapExcept, h a List.mem_cons_self, mapExcept_all (fun b hb => h b (List.mem_cons_of_mem _ hb)), List.map_cons]

theorem keepShock_length {k : ℕ} (i : Fin k) (tr : List (Fin k → ℝ)) : (keepShock i tr).length = tr.length := by simp [keepShock]

theorem keepShock_get {k : ℕ} (i : Fin k) (tr : List (Fin k → ℝ)) (s : ℕ) : (keepShock i tr).getD s 0 = Pi.single i (tr.getD s 0 i) := by
  unfold keepShock
  rw [List.getD_eq_getElem?_getD, List.getD_eq_getElem?_getD, List.getElem?_map]
  cases tr[s]? <;> simp

theorem single_sum {k : ℕ} (v : Fin k → ℝ) : ∑ i, (Pi.single i (v i) : Fin k → ℝ) = v := Finset.univ_sum_single v

theorem impulse_length {k : ℕ} {len : ℕ} {v : Fin k → ℝ} {full} (h : impulse len v = .ok full) : full.length = len := by
  cases len with
  | zero => cases h
  | succ l => cases h; simp

theorem build_length {k : ℕ} {chol : Mat k k → Option (Mat k k)} {orth z md len nm} {full : List (Fin k → ℝ)}
    (h : buildTrajectory chol orth z md (irfLength md len) nm = .ok full) : full.length = irfLength md len := by
  cases md with
  | trajectory tr =>
    simp only [buildTrajectory] at h
    split at h
    · cases h
    · cases h; simp [irfLength]
  | cov m Q =>
    simp only [buildTrajectory] at h
    split at h
    · split at h
      · cases h
      · exact impulse_length h
    · cases h
  | size s =>
    simp only [buildTrajectory] at h
    split at h
    · cases h
    · split at h
      · cases h
      · split at h
        · cases h
        · exact impulse_length h

/-- the response fits the array it is stored in -/
theorem assign_fits {n k : ℕ} {chol : Mat k k → Option (Mat k k)} {orth z md len nm} {full : List (Fin k → ℝ)} (T : Mat n n) (R : Mat n k)
    (h : buildTrajectory chol orth z md (irfLength md len) nm = .ok full) :
    (fun i => (simulateLinear T R (keepShock i full)).bind (assignPeriods (irfLength md len))) = fun i => simulateLinear T R (keepShock i full) := by
  funext i
  cases hs : simulateLinear T R (keepShock i full) with
  | error e => rfl
  | ok d =>
    have hl := (simulateLinear_ok hs).2.1
    rw [keepShock_length, build_length h] at hl
    simp only [Except.bind, assignPeriods]
    rw [if_pos hl]

/-- `impulse_response_function` without the array -/
noncomputable def irfPlain {n k : ℕ} (chol : Mat k k → Option (Mat k k)) (z : Fin k → ℝ) (names : Fin k → Str) (T : Mat n n) (R : Mat n k)
    (len : ℕ) (a : IrfArgs) (requested : Option Bool) (orthogonalize : Bool) : Except IrfErr (IrfResult n) :=
  match validateIrfArgs a with
  | .error e => .error e
  | .ok () =>
    let md := shockMode a
    let all := List.ofFn names
    match selectedShocks md all with
    | .error e => .error e
    | .ok sel =>
      let idxs := (List.finRange k).filter fun i => names i ∈ sel
      let len := irfLength md len
      if inferIndividual requested md sel.length then
        match buildTrajectory chol orthogonalize z md len all with
        | .error e => .error e
        | .ok full =>
          match mapExcept (fun i => simulateLinear T R (keepShock i full)) idxs with
          | .error e => .error e
          | .ok data => .ok (.individual sel data)
      else
        match buildTrajectory chol orthogonalize z md len sel with
        | .error e => .error e
        | .ok traj =>
          match simulateLinear T R traj with
          | .error e => .error e
          | .ok data => .ok (.joint data)

theorem irf_plain {n k : ℕ} (chol : Mat k k → Option (Mat k k)) (z : Fin k → ℝ) (names : Fin k → Str) (T : Mat n n) (R : Mat n k)
    (len : ℕ) (a : IrfArgs) (rq : Option Bool) (orth : Bool) :
    impulseResponse chol z names T R len a rq orth = irfPlain chol z names T R len a rq orth := by
  unfold impulseResponse irfPlain
  cases validateIrfArgs a with
  | error e => rfl
  | ok u =>
    simp only
    cases selectedShocks (shockMode a) (List.ofFn names) with
    | error e => rfl
    | ok sel =>
      simp only
      split
      · cases hb : buildTrajectory chol orth z (shockMode a) (irfLength (shockMode a) len) (List.ofFn names) with
        | error e => rfl
        | ok full =>
          simp only
          rw [assign_fits T R hb]
          rfl
      · rfl

/-- the part of `impulse_response_function` that depends on the mode -/
theorem irf_individual {n k : ℕ} {chol : Mat k k → Option (Mat k k)} {z : Fin k → ℝ} {names : Fin k → Str} {T : Mat n n} {R : Mat n k}
    {len : ℕ} {a : IrfArgs} {rq : Option Bool} {orth : Bool} {sel : List Str} {data : List (List (Fin n → ℝ))}
    (h : impulseResponse chol z names T R len a rq orth = .ok (.individual sel data)) :
    validateIrfArgs a = .ok () ∧ selectedShocks (shockMode a) (List.ofFn names) = .ok sel ∧
      inferIndividual rq (shockMode a) sel.length = true ∧
      ∃ full, buildTrajectory chol orth z (shockMode a) (irfLength (shockMode a) len) (List.ofFn names) = .ok full ∧
        List.Forall₂ (fun i d => simulateLinear T R (keepShock i full) = .ok d) ((List.finRange k).filter fun i => names i ∈ sel) data := by
  rw [irf_plain] at h
  unfold irfPlain at h
  cases hv : validateIrfArgs a with
  | error e => rw [hv] at h; cases h
  | ok u =>
    rw [hv] at h
    simp only at h
    cases hs : selectedShocks (shockMode a) (List.ofFn names) with
    | error e => rw [hs] at h; cases h
    | ok sel' =>
      rw [hs] at h
      simp only at h
      by_cases hi : inferIndividual rq (shockMode a) sel'.length = true
      · rw [if_pos hi] at h
        cases hb : buildTrajectory chol orth z (shockMode a) (irfLength (shockMode a) len) (List.ofFn names) with
        | error e => rw [hb] at h; cases h
        | ok full =>
          rw [hb] at h
          simp only at h
          cases hm : mapExcept (fun i => simulateLinear T R (keepShock i full)) ((List.finRange k).filter fun i => names i ∈ sel') with
          | error e => rw [hm] at h; cases h
          | ok d =>
            rw [hm] at h
            cases h
            exact ⟨rfl, rfl, hi, full, rfl, mapExcept_ok hm⟩
      · rw [if_neg hi] at h
        cases hb : buildTrajectory chol orth z (shockMode a) (irfLength (shockMode a) len) sel' with
        | error e => rw [hb] at h; cases h
        | ok full =>
          rw [hb] at h
          simp only at h
          cases hm : simulateLinear T R full with
          | error e => rw [hm] at h; cases h
          | ok d => rw [hm] at h; cases h

theorem irf_joint {n k : ℕ} {chol : Mat k k → Option (Mat k k)} {z : Fin k → ℝ} {names : Fin k → Str} {T : Mat n n} {R : Mat n k}
    {len : ℕ} {a : IrfArgs} {rq : Option Bool} {orth : Bool} {data : List (Fin n → ℝ)}
    (h : impulseResponse chol z names T R len a rq orth = .ok (.joint data)) :
    validateIrfArgs a = .ok () ∧ ∃ sel, selectedShocks (shockMode a) (List.ofFn names) = .ok sel ∧
      inferIndividual rq (shockMode a) sel.length = false ∧
      ∃ full, buildTrajectory chol orth z (shockMode a) (irfLength (shockMode a) len) sel = .ok full ∧
        simulateLinear T R full = .ok data := by
  rw [irf_plain] at h
  unfold irfPlain at h
  cases hv : validateIrfArgs a with
  | error e => rw [hv] at h; cases h
  | ok u =>
    rw [hv] at h
    simp only at h
    cases hs : selectedShocks (shockMode a) (List.ofFn names) with
    | error e => rw [hs] at h; cases h
    | ok sel' =>
      rw [hs] at h
      simp only at h
      by_cases hi : inferIndividual rq (shockMode a) sel'.length = true
      · rw [if_pos hi] at h
        cases hb : buildTrajectory chol orth z (shockMode a) (irfLength (shockMode a) len) (List.ofFn names) with
        | error e => rw [hb] at h; cases h
        | ok full =>
          rw [hb] at h
          simp only at h
          cases hm : mapExcept (fun i => simulateLinear T R (keepShock i full)) ((List.finRange k).filter fun i => names i ∈ sel') with
          | error e => rw [hm] at h; cases h
          | ok d => rw [hm] at h; cases h
      · rw [if_neg hi] at h
        cases hb : buildTrajectory chol orth z (shockMode a) (irfLength (shockMode a) len) sel' with
        | error e => rw [hb] at h; cases h
        | ok full =>
          rw [hb] at h
          simp only at h
          cases hm : simulateLinear T R full with
          | error e => rw [hm] at h; cases h
          | ok d =>
            rw [hm] at h
            cases h
            exact ⟨rfl, sel', rfl, by simpa using hi, full, hb, hm⟩

/-- the mode in terms of the arguments, for arguments that pass the check -/
theorem validate_iff (a : IrfArgs) : validateIrfArgs a = .ok () ↔
    (a.size.isSome = true ∧ a.cov = none ∧ a.traj = none) ∨ (a.size = none ∧ a.cov.isSome = true ∧ a.traj = none) ∨
    (a.size = none ∧ a.cov = none ∧ a.traj.isSome = true) := by
  obtain ⟨s, c, t⟩ := a
  rcases s with _ | s <;> rcases c with _ | c <;> rcases t with _ | t <;>
    simp [validateIrfArgs, validateIrfShockArguments]

theorem selected_all {k : ℕ} {names : Fin k → Str} {a : IrfArgs} {sel : List Str} (hv : validateIrfArgs a = .ok ())
    (h : selectedShocks (shockMode a) (List.ofFn names) = .ok sel) :
    (∀ i, names i ∈ sel ↔ NamesShock names a i) ∧ sel = (List.ofFn names).filter fun x => x ∈ sel := by
  have key : (∃ d, a.size = some (.dict d) ∧ shockMode a = .size (some (.dict d))) ∨ ((∀ d, a.size ≠ some (.dict d)) ∧ selectedShocks (shockMode a) (List.ofFn names) = .ok (List.ofFn names)) := by
    obtain ⟨s, c, t⟩ := a
    rcases (validate_iff _).mp hv with ⟨h1, h2, h3⟩ | ⟨h1, h2, h3⟩ | ⟨h1, h2, h3⟩ <;> simp only at h1 h2 h3
    · subst h2; subst h3
      rcases s with _ | (r | l | d)
      · simp at h1
      · right; exact ⟨by simp, rfl⟩
      · right; exact ⟨by simp, rfl⟩
      · left; exact ⟨d, rfl, rfl⟩
    · subst h1; subst h3
      rcases c with _ | ⟨m, Q⟩
      · simp at h2
      · right; exact ⟨by simp, rfl⟩
    · subst h1; subst h2
      rcases t with _ | tr
      · simp at h3
      · right; exact ⟨by simp, rfl⟩
  rcases key with ⟨d, hd, hm⟩ | ⟨hd, hm⟩
  · rw [hm] at h
    simp only [selectedShocks] at h
    split at h
    · cases h
    · split at h
      · cases h
      · cases h
        refine ⟨?_, ?_⟩
        · intro i
          simp only [List.mem_filter, List.mem_ofFn, decide_eq_true_eq, NamesShock, hd, Option.some.injEq, ShockSize.dict.injEq]
          constructor
          · rintro ⟨_, h⟩ d' rfl; exact h
          · intro h; exact ⟨⟨i, rfl⟩, h d rfl⟩
        · apply List.filter_congr
          intro x hx
          simp only [decide_eq_decide, List.mem_filter, decide_eq_true_eq]
          exact ⟨fun h => ⟨hx, h⟩, fun h => h.2⟩
  · rw [hm] at h
    cases h
    refine ⟨?_, ?_⟩
    · intro i
      simp only [List.mem_ofFn, exists_apply_eq_apply, NamesShock, true_iff]
      intro d hd'
      exact absurd hd' (hd d)
    · rw [List.filter_eq_self.mpr]
      intro x hx
      simpa using hx

end Sim

open Sim

/-! ## C37 -/

/-- C37: whatever the horizon, the simulated path is the closed form `x_t = Σ_{s ≤ t} T^(t-s) R e_s` -/
theorem C37_closed_form {n k : ℕ} (T : Mat n n) (R : Mat n k) (tr : List (Fin k → ℝ)) :
    (tr = [] → simulateLinear T R tr = .error .noPeriods) ∧
    (tr ≠ [] → ∃ out, simulateLinear T R tr = .ok out ∧ out.length = tr.length ∧
      ∀ t, t < tr.length → atTime out t = ∑ s ∈ range (t + 1), (T ^ (t - s) * R) *ᵥ tr.getD s 0) := by
  refine ⟨fun h => by subst h; rfl, fun h => ?_⟩
  exact simulateLinear_cons T R tr h

/-- C37: `simulate` iterates the same recursion on the drawn shocks -/
theorem C37_simulate {n k : ℕ} (T : Mat n n) (R : Mat n k) (eps : List (Fin k → ℝ)) : simulateOne T R eps = simulateLinear T R eps := by
  cases eps with
  | nil => rfl
  | cons e es =>
    simp only [simulateOne, simulateLinear]
    congr 1
    generalize R *ᵥ e = x
    induction es generalizing x with
    | nil => rfl
    | cons e' es ih => rw [List.scanl_cons, simGo, ih]

/-- C37: the individual responses are one per named shock, in the model's order, labelled with its name, and the response to the shock `i` of the
given size is `size_i` times column `i` of `T^t R`, at every horizon -/
theorem C37_individual {n k : ℕ} (chol : Mat k k → Option (Mat k k)) (z : Fin k → ℝ) (names : Fin k → Str) (T : Mat n n) (R : Mat n k)
    (len : ℕ) (s : ShockSize) (rq : Option Bool) (orth : Bool) (sel : List Str) (data : List (List (Fin n → ℝ)))
    (h : impulseResponse chol z names T R len ⟨some s, none, none⟩ rq orth = .ok (.individual sel data)) :
    ∃ idx : List (Fin k), idx = (List.finRange k).filter (fun i => names i ∈ sel) ∧ sel = idx.map names ∧
      (∀ i, i ∈ idx ↔ NamesShock names ⟨some s, none, none⟩ i) ∧
      List.Forall₂ (fun i d => d.length = len ∧ ∀ t, t < len → atTime d t = specSize names s i • (T ^ t * R).col i) idx data := by
  obtain ⟨hv, hsel, _, full, hb, hf⟩ := irf_individual h
  obtain ⟨hall, hsub⟩ := selected_all hv hsel
  refine ⟨_, rfl, ?_, ?_, ?_⟩
  · conv_lhs => rw [hsub]
    rw [List.ofFn_eq_map, List.filter_map]
    rfl
  · intro i
    rw [List.mem_filter]
    simp only [List.mem_finRange, true_and, decide_eq_true_eq]
    exact hall i
  · have hfull : full.length = len ∧ full ≠ [] ∧ ∀ t i, full.getD t 0 i = if t = 0 then specSize names s i else 0 := by
      simp only [shockMode, buildTrajectory, irfLength] at hb
      cases hsv : shockVector (some s) (List.ofFn names) with
      | error e => rw [hsv] at hb; cases hb
      | ok v =>
        rw [hsv] at hb
        simp only at hb
        have hlen : v.length = k ∧ ∀ i : Fin k, v.getD i 0 = specSize names s i := by
          cases s with
          | scalar r => simp only [shockVector] at hsv; cases hsv; simp [specSize]
          | dict d => simp only [shockVector] at hsv; cases hsv; simp [specSize]
          | arr l =>
            simp only [shockVector] at hsv
            split at hsv
            · cases hsv
              rename_i hl
              exact ⟨by simpa using hl, fun i => rfl⟩
            · cases hsv
        cases len with
        | zero => cases hb
        | succ l =>
          simp only [assignRow, hlen.1, if_true, impulse] at hb
          cases hb
          refine ⟨by simp, by simp, ?_⟩
          intro t i
          cases t with
          | zero => rw [List.getD_cons_zero]; exact hlen.2 i
          | succ t =>
            rw [List.getD_cons_succ, if_neg (by simp), List.getD_eq_getElem?_getD, List.getElem?_replicate]
            split <;> rfl
    refine List.Forall₂.imp ?_ hf
    intro i d hd
    obtain ⟨_, hl, hcf⟩ := simulateLinear_ok hd
    rw [keepShock_length, hfull.1] at hl
    refine ⟨hl, ?_⟩
    intro t ht
    unfold atTime
    rw [hcf t (by rw [keepShock_length, hfull.1]; exact ht), Finset.sum_eq_single 0]
    · rw [keepShock_get, hfull.2.2, if_pos rfl, Nat.sub_zero, Matrix.mulVec_single]
      ext j
      simp [mul_comm]
    · intro b _ hb0
      rw [keepShock_get, hfull.2.2, if_neg hb0, Pi.single_zero, Matrix.mulVec_zero]
    · intro h0
      simp at h0

/-- C37: individual responses to a given shock trajectory use that shock's column only, at every horizon -/
theorem C37_individual_trajectory {n k : ℕ} (chol : Mat k k → Option (Mat k k)) (z : Fin k → ℝ) (names : Fin k → Str) (T : Mat n n) (R : Mat n k)
    (len : ℕ) (tr : Arr2) (rq : Option Bool) (orth : Bool) (sel : List Str) (data : List (List (Fin n → ℝ)))
    (h : impulseResponse chol z names T R len ⟨none, none, some tr⟩ rq orth = .ok (.individual sel data)) :
    tr.cols = k ∧ rq = some true ∧ sel = List.ofFn names ∧
      List.Forall₂ (fun (i : Fin k) d => d.length = tr.rows.length ∧ ∀ t, t < tr.rows.length →
        atTime d t = ∑ s ∈ range (t + 1), (tr.rows.getD s 0 i) • (T ^ (t - s) * R).col i) (List.finRange k) data := by
  obtain ⟨hv, hsel, hinf, full, hb, hf⟩ := irf_individual h
  have hs : sel = List.ofFn names := by simp only [shockMode, selectedShocks] at hsel; cases hsel; rfl
  subst hs
  simp only [shockMode, buildTrajectory] at hb
  by_cases hc : tr.cols = k
  · simp only [hc, ne_eq, not_true_eq_false, if_false, Except.ok.injEq] at hb
    subst hb
    refine ⟨hc, ?_, rfl, ?_⟩
    · simp only [shockMode, inferIndividual] at hinf
      rcases rq with _ | b
      · simp at hinf
      · simp only at hinf; rw [hinf]
    · rw [List.filter_eq_self.mpr (by simp)] at hf
      refine List.Forall₂.imp ?_ hf
      intro i d hd
      obtain ⟨_, hl, hcf⟩ := simulateLinear_ok hd
      rw [keepShock_length, List.length_map] at hl
      refine ⟨hl, ?_⟩
      intro t ht
      unfold atTime
      rw [hcf t (by rw [keepShock_length, List.length_map]; exact ht)]
      refine Finset.sum_congr rfl ?_
      intro s _
      have : (tr.rows.map fun r (j : Fin k) => r j).getD s 0 i = tr.rows.getD s 0 i := by
        rw [List.getD_eq_getElem?_getD, List.getD_eq_getElem?_getD, List.getElem?_map]
        cases tr.rows[s]? <;> simp
      rw [keepShock_get, this, Matrix.mulVec_single]
      ext j
      simp [mul_comm]
  · simp only [hc, ne_eq, not_false_eq_true, if_true, reduceCtorEq] at hb

/-- C37 (the part that holds): for a specification that names every shock — a number, an array, a covariance matrix, a trajectory, or a dictionary
with an entry for every shock — the joint response is, at every horizon, the sum of the individual responses. A dictionary that leaves shocks out
is the missing part, see `C37_dict_joint_violated`. -/
theorem C37_superpose_partial {n k : ℕ} (chol : Mat k k → Option (Mat k k)) (z : Fin k → ℝ) (names : Fin k → Str) (T : Mat n n) (R : Mat n k)
    (len : ℕ) (a : IrfArgs) (orth orth' : Bool) (rq rq' : Option Bool) (sel : List Str) (data : List (List (Fin n → ℝ))) (J : List (Fin n → ℝ))
    (hnames : NamesAll names a)
    (hi : impulseResponse chol z names T R len a rq orth = .ok (.individual sel data))
    (hj : impulseResponse chol z names T R len a rq' orth' = .ok (.joint J)) :
    data.length = k ∧ (∀ d ∈ data, d.length = J.length) ∧ ∀ t, t < J.length → atTime J t = (data.map fun d => atTime d t).sum := by
  obtain ⟨hv, hsel, _, full, hb, hf⟩ := irf_individual hi
  obtain ⟨_, sel', hsel', _, full', hb', hf'⟩ := irf_joint hj
  rw [hsel] at hsel'
  cases hsel'
  obtain ⟨hall, hsub⟩ := selected_all hv hsel
  have hmem : ∀ i, names i ∈ sel := fun i => (hall i).mpr fun d hd => hnames d hd i
  have hse : sel = List.ofFn names := by
    rw [hsub, List.filter_eq_self]
    intro x hx
    obtain ⟨i, rfl⟩ := List.mem_ofFn.mp hx
    simpa using hmem i
  have hfe : full' = full := by
    have : buildTrajectory chol orth z (shockMode a) (irfLength (shockMode a) len) sel = .ok full' := by
      rw [← hb']
      cases shockMode a <;> simp [buildTrajectory]
    rw [hse, hb] at this
    cases this
    rfl
  subst hfe
  rw [List.filter_eq_self.mpr (by simpa using hmem)] at hf
  obtain ⟨_, hl, hcf⟩ := simulateLinear_ok hf'
  refine ⟨by rw [← hf.length_eq, List.length_finRange], ?_, ?_⟩
  · intro d hd
    obtain ⟨p, hp, rfl⟩ := List.getElem_of_mem hd
    have := hf.get (i := p) (by rw [hf.length_eq]; exact hp) hp
    have h2 := (simulateLinear_ok this).2.1
    rw [keepShock_length, ← hl] at h2
    exact h2
  · intro t ht
    rw [hl] at ht
    have hsum : (data.map fun d => atTime d t) = (List.finRange k).map fun i => ∑ s ∈ range (t + 1), (T ^ (t - s) * R) *ᵥ Pi.single i (full'.getD s 0 i) := by
      clear hb hb' hi hj hsub hmem hse hsel hall
      generalize List.finRange k = L at hf ⊢
      induction hf with
      | nil => rfl
      | cons h1 _ ih =>
        simp only [List.map_cons]
        congr 1
        unfold atTime
        rw [(simulateLinear_ok h1).2.2 t (by rw [keepShock_length]; exact ht)]
        exact Finset.sum_congr rfl fun s _ => by rw [keepShock_get]
    rw [hsum]
    have hfin : ∀ f : Fin k → (Fin n → ℝ), ((List.finRange k).map f).sum = ∑ i, f i := fun f => by
      rw [← List.ofFn_eq_map, List.sum_ofFn]
    rw [hfin, Finset.sum_comm]
    unfold atTime
    rw [hcf t ht]
    refine Finset.sum_congr rfl fun s _ => ?_
    rw [← Matrix.mulVec_sum, single_sum]

namespace Sim

theorem simGo_smul {n k : ℕ} (c : ℝ) (T : Mat n n) (R : Mat n k) (es : List (Fin k → ℝ)) (x : Fin n → ℝ) :
    simGo T R (c • x) (es.map fun e => c • e) = (simGo T R x es).map fun y => c • y := by
  induction es generalizing x with
  | nil => rfl
  | cons e es ih =>
    simp only [List.map_cons, simGo, Matrix.mulVec_smul, ← smul_add]
    rw [ih]

theorem simulateLinear_smul {n k : ℕ} (c : ℝ) (T : Mat n n) (R : Mat n k) (tr : List (Fin k → ℝ)) :
    simulateLinear T R (tr.map fun e => c • e) = (simulateLinear T R tr).map fun d => d.map fun y => c • y := by
  cases tr with
  | nil => rfl
  | cons e es =>
    simp only [List.map_cons, simulateLinear, Matrix.mulVec_smul, simGo_smul, Except.map]

theorem keepShock_smul {k : ℕ} (c : ℝ) (i : Fin k) (tr : List (Fin k → ℝ)) :
    keepShock i (tr.map fun e => c • e) = (keepShock i tr).map fun e => c • e := by
  simp only [keepShock, List.map_map]
  apply List.map_congr_left
  intro e _
  simp only [Function.comp, Pi.smul_apply, ← Pi.single_smul]

theorem mapExcept_map {α β ε : Type} (f : α → Except ε β) (g : β → β) : ∀ l : List α,
    mapExcept (fun a => (f a).map g) l = (mapExcept f l).map fun d => d.map g
  | [] => rfl
  | a :: l => by
    simp only [mapExcept]
    rw [mapExcept_map f g l]
    cases f a with
    | error e => rfl
    | ok b => cases mapExcept f l <;> rfl

theorem dget_scale (c : ℝ) (x : Str) : ∀ d : List (Str × ℝ), dget (d.map fun p => (p.1, c * p.2)) x = (dget d x).map fun y => c * y
  | [] => rfl
  | p :: d => by
    rw [List.map_cons]
    simp only [dget]
    split
    · rfl
    · exact dget_scale c x d

theorem dkeys_scale (c : ℝ) (d : List (Str × ℝ)) : dkeys (d.map fun p => (p.1, c * p.2)) = dkeys d := by
  simp [dkeys, List.map_map, Function.comp_def]

theorem shockVector_scale (c : ℝ) (s : ShockSize) (names : List Str) :
    shockVector (some (scaleSize c s)) names = (shockVector (some s) names).map fun v => v.map fun x => c * x := by
  cases s with
  | scalar r => simp [shockVector, scaleSize, Except.map]
  | arr l => simp only [shockVector, scaleSize, List.length_map]; split <;> rfl
  | dict d =>
    simp only [shockVector, scaleSize, Except.map, List.map_map, Except.ok.injEq]
    apply List.map_congr_left
    intro x _
    simp only [dget_scale, Function.comp]
    cases dget d x <;> simp

theorem assignRow_scale (c : ℝ) (k : ℕ) (v : List ℝ) : assignRow k (v.map fun x => c * x) = (assignRow k v).map fun r => c • r := by
  have hg : ∀ i, (v.map fun x => c * x).getD i 0 = c * v.getD i 0 := by
    intro i
    rw [List.getD_eq_getElem?_getD, List.getD_eq_getElem?_getD, List.getElem?_map]
    cases v[i]? <;> simp
  simp only [assignRow, List.length_map, hg]
  split
  · rfl
  · split <;> rfl

theorem impulse_scale {k : ℕ} (c : ℝ) (len : ℕ) (v : Fin k → ℝ) : impulse len (c • v) = (impulse len v).map fun tr => tr.map fun r => c • r := by
  cases len with
  | zero => rfl
  | succ l => simp [impulse, Except.map]

/-- the mode of the scaled arguments -/
noncomputable def scaleMode (c : ℝ) : ShockMode → ShockMode
  | .trajectory tr => .trajectory ⟨tr.cols, tr.rows.map fun r j => c * r j⟩
  | .cov m Q => .cov m Q
  | .size s => .size (s.map (scaleSize c))

theorem shockMode_scale (c : ℝ) (a : IrfArgs) : shockMode (scaleArgs c a) = scaleMode c (shockMode a) := by
  obtain ⟨s, q, t⟩ := a
  rcases t with _ | t
  · rcases q with _ | ⟨m, Q⟩ <;> rfl
  · rfl

theorem selected_scale (c : ℝ) (md : ShockMode) (names : List Str) : selectedShocks (scaleMode c md) names = selectedShocks md names := by
  rcases md with tr | ⟨m, Q⟩ | (_ | (r | l | d))
  · rfl
  · rfl
  · rfl
  · rfl
  · rfl
  · simp only [scaleMode, Option.map_some, scaleSize, selectedShocks, List.map_eq_nil_iff, dkeys_scale]

theorem infer_scale (c : ℝ) (rq : Option Bool) (md : ShockMode) (m : ℕ) : inferIndividual rq (scaleMode c md) m = inferIndividual rq md m := by
  rcases rq with _ | b
  · rcases md with tr | ⟨m, Q⟩ | (_ | (r | l | d)) <;> simp [scaleMode, inferIndividual, scaleSize]
  · rfl

theorem length_scale (c : ℝ) (md : ShockMode) (len : ℕ) : irfLength (scaleMode c md) len = irfLength md len := by
  rcases md with tr | ⟨m, Q⟩ | s <;> simp [scaleMode, irfLength]

theorem build_scale {k : ℕ} (chol : Mat k k → Option (Mat k k)) (orth : Bool) (z : Fin k → ℝ) (c : ℝ) (md : ShockMode) (len : ℕ) (names : List Str)
    (h1 : ∀ m Q, md ≠ .cov m Q) (h2 : md ≠ .size none) :
    buildTrajectory chol orth z (scaleMode c md) len names = (buildTrajectory chol orth z md len names).map fun tr => tr.map fun r => c • r := by
  rcases md with tr | ⟨m, Q⟩ | s
  · simp only [scaleMode, buildTrajectory]
    split
    · rfl
    · simp only [Except.map, List.map_map, Except.ok.injEq]
      apply List.map_congr_left
      intro r _
      rfl
  · exact absurd rfl (h1 m Q)
  · rcases s with _ | s
    · exact absurd rfl h2
    · simp only [scaleMode, Option.map_some, buildTrajectory, shockVector_scale]
      cases shockVector (some s) names with
      | error e => rfl
      | ok v =>
        simp only [Except.map]
        cases len with
        | zero => rfl
        | succ l =>
          simp only [assignRow_scale]
          cases assignRow k v with
          | error e => rfl
          | ok r => simp only [Except.map]; exact impulse_scale c (l + 1) r

end Sim

/-- C37: multiplying the shock sizes (or the shock trajectory) by any number multiplies every response by it: same labels, same periods, same
errors -/
theorem C37_scaling {n k : ℕ} (chol : Mat k k → Option (Mat k k)) (z : Fin k → ℝ) (names : Fin k → Str) (T : Mat n n) (R : Mat n k)
    (len : ℕ) (a : IrfArgs) (rq : Option Bool) (orth : Bool) (c : ℝ) (hcov : a.cov = none) :
    impulseResponse chol z names T R len (scaleArgs c a) rq orth = (impulseResponse chol z names T R len a rq orth).map (scaleResult c) := by
  simp only [irf_plain]
  unfold irfPlain
  have hval : validateIrfArgs (scaleArgs c a) = validateIrfArgs a := by
    obtain ⟨s, q, t⟩ := a
    simp [validateIrfArgs, scaleArgs]
  rw [hval, shockMode_scale]
  cases hv : validateIrfArgs a with
  | error e => rfl
  | ok u =>
    simp only [selected_scale, length_scale, infer_scale]
    have h1 : ∀ m Q, shockMode a ≠ .cov m Q := by
      obtain ⟨s, q, t⟩ := a
      subst hcov
      rcases t with _ | t <;> simp [shockMode]
    have h2 : shockMode a ≠ .size none := by
      obtain ⟨s, q, t⟩ := a
      subst hcov
      rcases t with _ | t
      · rcases s with _ | s
        · simp [validateIrfArgs, validateIrfShockArguments] at hv
        · simp [shockMode]
      · simp [shockMode]
    simp only [build_scale chol orth z c _ _ _ h1 h2]
    cases selectedShocks (shockMode a) (List.ofFn names) with
    | error e => rfl
    | ok sel =>
      simp only
      split
      · cases buildTrajectory chol orth z (shockMode a) (irfLength (shockMode a) len) (List.ofFn names) with
        | error e => rfl
        | ok full =>
          simp only [Except.map, keepShock_smul, simulateLinear_smul]
          have := mapExcept_map (fun i => simulateLinear T R (keepShock i full)) (fun d => d.map fun y => c • y) ((List.finRange k).filter fun i => decide (names i ∈ sel))
          simp only [Except.map] at this
          rw [this]
          cases mapExcept (fun i => simulateLinear T R (keepShock i full)) ((List.finRange k).filter fun i => decide (names i ∈ sel)) <;> rfl
      · cases buildTrajectory chol orth z (shockMode a) (irfLength (shockMode a) len) sel with
        | error e => rfl
        | ok full =>
          simp only [Except.map, simulateLinear_smul]
          cases simulateLinear T R full <;> rfl

/-- every number of the response is zero -/
def AllZero {n : ℕ} : IrfResult n → Prop
  | .individual _ data => ∀ d ∈ data, ∀ x ∈ d, x = 0
  | .joint data => ∀ x ∈ data, x = 0

/-- C37: a zero shock — a zero size in any form, or a zero trajectory — has a zero response -/
theorem C37_zero {n k : ℕ} (chol : Mat k k → Option (Mat k k)) (z : Fin k → ℝ) (names : Fin k → Str) (T : Mat n n) (R : Mat n k)
    (len : ℕ) (a : IrfArgs) (rq : Option Bool) (orth : Bool) (r : IrfResult n) (hcov : a.cov = none)
    (h : impulseResponse chol z names T R len (scaleArgs 0 a) rq orth = .ok r) : AllZero r := by
  rw [C37_scaling _ _ _ _ _ _ _ _ _ _ hcov] at h
  cases h2 : impulseResponse chol z names T R len a rq orth with
  | error e => rw [h2] at h; cases h
  | ok r' =>
    rw [h2] at h
    cases h
    cases r' with
    | individual sel data =>
      intro d hd x hx
      obtain ⟨d', _, rfl⟩ := List.mem_map.mp hd
      obtain ⟨y, _, rfl⟩ := List.mem_map.mp hx
      exact zero_smul _ _
    | joint data =>
      intro x hx
      obtain ⟨y, _, rfl⟩ := List.mem_map.mp hx
      exact zero_smul _ _

/-- C37, finding: `orthogonalize_shocks` has no effect on any response -/
theorem C37_orthogonalize_ignored {n k : ℕ} (chol : Mat k k → Option (Mat k k)) (z : Fin k → ℝ) (names : Fin k → Str) (T : Mat n n) (R : Mat n k)
    (len : ℕ) (a : IrfArgs) (rq : Option Bool) : impulseResponse chol z names T R len a rq true = impulseResponse chol z names T R len a rq false := by
  have hb : ∀ md l nm, buildTrajectory chol true z md l nm = buildTrajectory chol false z md l nm := by
    intro md l nm
    cases md <;> simp [buildTrajectory]
  simp only [irf_plain]
  unfold irfPlain
  simp only [hb]

namespace Sim

theorem joint_dict {n k : ℕ} (chol : Mat k k → Option (Mat k k)) (z : Fin k → ℝ) (names : Fin k → Str) (T : Mat n n) (R : Mat n k)
    (len : ℕ) (orth : Bool) (d : List (Str × ℝ)) (sel : List Str) (hd : d ≠ []) (hk : ∀ x ∈ dkeys d, x ∈ List.ofFn names)
    (hsel : sel = (List.ofFn names).filter fun x => x ∈ dkeys d) :
    impulseResponse chol z names T R len ⟨some (.dict d), none, none⟩ (some false) orth =
      match buildTrajectory chol orth z (.size (some (.dict d))) len sel with
      | .error e => .error e
      | .ok traj =>
        match simulateLinear T R traj with
        | .error e => .error e
        | .ok data => .ok (.joint data) := by
  subst hsel
  have hv : validateIrfArgs ⟨some (.dict d), none, none⟩ = .ok () := by simp [validateIrfArgs, validateIrfShockArguments]
  have hany : ((dkeys d).any fun x => decide (x ∉ List.ofFn names)) = false := by
    rw [List.any_eq_false]
    intro x hx
    simpa using hk x hx
  simp only [irf_plain]
  unfold irfPlain
  rw [hv]
  simp only [shockMode, selectedShocks, hd, if_false, hany, Bool.false_eq_true, inferIndividual, irfLength]

end Sim

/-- C37, violated: a dictionary that names one of several shocks, asked for a joint response, applies that shock's size to *every* shock of the
model: the response at every horizon is `r Σ_j (T^t R)_j`, not the response `r (T^t R)_i` of the named shock -/
theorem C37_dict_joint_violated {n k : ℕ} (chol : Mat k k → Option (Mat k k)) (z : Fin k → ℝ) (names : Fin k → Str)
    (hinj : Function.Injective names) (T : Mat n n) (R : Mat n k) (len : ℕ) (orth : Bool) (i : Fin k) (r : ℝ) :
    ∃ J, impulseResponse chol z names T R (len + 1) ⟨some (.dict [(names i, r)]), none, none⟩ (some false) orth = .ok (.joint J) ∧
      J.length = len + 1 ∧ ∀ t, t < len + 1 → atTime J t = ∑ j, r • (T ^ t * R).col j := by
  have hsel : (List.ofFn names).filter (fun x => decide (x ∈ dkeys [(names i, r)])) = [names i] := by
    rw [List.ofFn_eq_map, List.filter_map]
    have : (List.finRange k).filter ((fun x => decide (x ∈ dkeys [(names i, r)])) ∘ names) = [i] := by
      have h1 : (List.finRange k).filter ((fun x => decide (x ∈ dkeys [(names i, r)])) ∘ names) = (List.finRange k).filter (fun j => decide (j = i)) := by
        apply List.filter_congr
        intro j _
        simp [dkeys, hinj.eq_iff]
      rw [h1]
      have h2 : (List.finRange k).filter (fun j => j == i) = List.replicate ((List.finRange k).count i) i := List.filter_beq _
      have h3 : (fun j : Fin k => decide (j = i)) = fun j => j == i := by funext j; by_cases h : j = i <;> simp [h]
      rw [h3, h2, List.count_eq_one_of_mem (List.nodup_finRange k) (List.mem_finRange i)]
      rfl
    rw [this]
    rfl
  rw [joint_dict _ _ _ _ _ _ _ _ _ (by simp) (by simp [dkeys]) hsel.symm]
  have hrow : ∃ v : Fin k → ℝ, assignRow k [r] = .ok v ∧ v = fun _ => r := by
    by_cases hk : k = 1
    · subst hk; exact ⟨_, rfl, funext fun j => by fin_cases j; rfl⟩
    · exact ⟨fun _ => r, by simp [assignRow, Ne.symm hk], rfl⟩
  obtain ⟨v, hv, rfl⟩ := hrow
  have hvec : shockVector (some (.dict [(names i, r)])) [names i] = .ok [r] := by simp [shockVector, dget]
  simp only [buildTrajectory, hvec, hv, impulse]
  obtain ⟨out, ho, hl, hcf⟩ := simulateLinear_cons T R ((fun _ : Fin k => r) :: List.replicate len 0) (by simp)
  rw [ho]
  refine ⟨out, rfl, by simpa using hl, ?_⟩
  intro t ht
  unfold atTime
  rw [hcf t (by simpa using ht), Finset.sum_eq_single 0]
  · rw [Nat.sub_zero, List.getD_cons_zero]
    ext p
    simp [Matrix.mulVec, dotProduct, Finset.sum_apply, mul_comm]
  · intro b _ hb0
    obtain ⟨b', rfl⟩ := Nat.exists_eq_succ_of_ne_zero hb0
    rw [Nat.succ_eq_add_one, List.getD_cons_succ, List.getD_eq_getElem?_getD, List.getElem?_replicate]
    split <;> simp
  · intro h0
    simp at h0

/-- C37, violated: a dictionary that names at least two but not all shocks cannot be used for a joint response at all -/
theorem C37_dict_joint_raises {n k : ℕ} (chol : Mat k k → Option (Mat k k)) (z : Fin k → ℝ) (names : Fin k → Str)
    (T : Mat n n) (R : Mat n k) (len : ℕ) (orth : Bool) (d : List (Str × ℝ)) (hk : ∀ x ∈ dkeys d, x ∈ List.ofFn names)
    (h2 : 2 ≤ ((List.ofFn names).filter fun x => decide (x ∈ dkeys d)).length) (hlt : ∃ i, names i ∉ dkeys d) :
    impulseResponse chol z names T R (len + 1) ⟨some (.dict d), none, none⟩ (some false) orth = .error .broadcast := by
  have hd : d ≠ [] := by
    rintro rfl
    simp [dkeys] at h2
  rw [joint_dict _ _ _ _ _ _ _ _ _ hd hk rfl]
  have hlen : ((List.ofFn names).filter fun x => decide (x ∈ dkeys d)).length < k := by
    have hle := List.length_filter_le (fun x => decide (x ∈ dkeys d)) (List.ofFn names)
    rw [List.length_ofFn] at hle
    rcases Nat.lt_or_eq_of_le hle with h | h
    · exact h
    · exfalso
      obtain ⟨i, hi⟩ := hlt
      have : ((List.ofFn names).filter fun x => decide (x ∈ dkeys d)).length = (List.ofFn names).length := by rw [h, List.length_ofFn]
      rw [List.length_filter_eq_length_iff] at this
      have := this (names i) (List.mem_ofFn.mpr ⟨i, rfl⟩)
      exact hi (by simpa using this)
  simp only [buildTrajectory, shockVector, assignRow, List.length_map]
  rw [if_neg (by omega), if_neg (by omega)]

/-! ## C38 -/

/-- how many of the three shock specifications are given -/
def givenCount (a : IrfArgs) : ℕ := a.size.isSome.toNat + a.cov.isSome.toNat + a.traj.isSome.toNat

/-- C38 (the part that holds): the argument check accepts a call exactly when one specification is given, and a call with more than one never
returns a response. Missing: the explanatory message and the documented call without a specification, see `C38_violated`. -/
theorem C38_exactly_one_partial {n k : ℕ} (chol : Mat k k → Option (Mat k k)) (z : Fin k → ℝ) (names : Fin k → Str) (T : Mat n n) (R : Mat n k)
    (len : ℕ) (a : IrfArgs) (rq : Option Bool) (orth : Bool) :
    (validateIrfArgs a = .ok () ↔ givenCount a = 1) ∧
    ((∃ r, impulseResponse chol z names T R len a rq orth = .ok r) → givenCount a = 1) := by
  have h1 : validateIrfArgs a = .ok () ↔ givenCount a = 1 := by
    obtain ⟨s, c, t⟩ := a
    rcases s with _ | s <;> rcases c with _ | c <;> rcases t with _ | t <;>
      simp [validateIrfArgs, validateIrfShockArguments, givenCount]
  refine ⟨h1, ?_⟩
  rintro ⟨r, hr⟩
  apply h1.mp
  rw [irf_plain] at hr
  unfold irfPlain at hr
  cases hv : validateIrfArgs a with
  | error e => rw [hv] at hr; cases hr
  | ok u => rfl

/-- C38: with one specification given, a scalar or an array with one entry per shock or a dictionary of known names is accepted for every horizon
of at least one period -/
theorem C38_accepts {n k : ℕ} (chol : Mat k k → Option (Mat k k)) (z : Fin k → ℝ) (names : Fin k → Str) (T : Mat n n) (R : Mat n k)
    (len : ℕ) (s : ShockSize) (orth : Bool)
    (hs : match s with
      | .scalar _ => True
      | .arr l => l.length = k
      | .dict d => d ≠ [] ∧ ∀ x ∈ dkeys d, ∃ i, names i = x) :
    ∃ sel data, impulseResponse chol z names T R (len + 1) ⟨some s, none, none⟩ none orth = .ok (.individual sel data) := by
  have hv : validateIrfArgs ⟨some s, none, none⟩ = .ok () := by simp [validateIrfArgs, validateIrfShockArguments]
  have hsel : ∃ sel, selectedShocks (.size (some s)) (List.ofFn names) = .ok sel ∧ inferIndividual none (.size (some s)) sel.length = true := by
    cases s with
    | scalar r => exact ⟨_, rfl, rfl⟩
    | arr l => exact ⟨_, rfl, by simpa [inferIndividual] using hs⟩
    | dict d =>
      have hany : ((dkeys d).any fun x => decide (x ∉ List.ofFn names)) = false := by
        rw [List.any_eq_false]
        intro x hx
        simpa using hs.2 x hx
      refine ⟨(List.ofFn names).filter fun x => x ∈ dkeys d, ?_, rfl⟩
      simp only [selectedShocks, hs.1, if_false, hany, Bool.false_eq_true]
  obtain ⟨sel, hsel, hinf⟩ := hsel
  have hvec : ∃ v, shockVector (some s) (List.ofFn names) = .ok v ∧ v.length = k := by
    cases s with
    | scalar r => exact ⟨_, rfl, by simp⟩
    | arr l =>
      have hs' : l.length = k := hs
      exact ⟨l, by simp [shockVector, hs'], hs'⟩
    | dict d => exact ⟨_, rfl, by simp⟩
  obtain ⟨v, hvec, hvl⟩ := hvec
  simp only [irf_plain]
  unfold irfPlain
  rw [hv]
  simp only [shockMode, hsel, hinf, if_true, irfLength, buildTrajectory, hvec, assignRow, hvl, impulse]
  have := mapExcept_all (f := fun i => simulateLinear T R (keepShock i ((fun i : Fin k => v.getD i 0) :: List.replicate len 0)))
    (g := fun i => (R *ᵥ Pi.single i (v.getD i 0)) :: simGo T R (R *ᵥ Pi.single i (v.getD i 0)) (keepShock i (List.replicate len 0)))
    (l := (List.finRange k).filter fun i => decide (names i ∈ sel)) (fun i _ => rfl)
  rw [this]
  exact ⟨_, _, rfl⟩

/-- C38: an empty dictionary and a dictionary with an unknown shock name are rejected by name, whatever the other options -/
theorem C38_dict_names {n k : ℕ} (chol : Mat k k → Option (Mat k k)) (z : Fin k → ℝ) (names : Fin k → Str) (T : Mat n n) (R : Mat n k)
    (len : ℕ) (d : List (Str × ℝ)) (rq : Option Bool) (orth : Bool) :
    (d = [] → impulseResponse chol z names T R len ⟨some (.dict d), none, none⟩ rq orth = .error .emptyDict) ∧
    ((∃ x ∈ dkeys d, ∀ i, names i ≠ x) → impulseResponse chol z names T R len ⟨some (.dict d), none, none⟩ rq orth = .error .unknownShocks) := by
  have hv : validateIrfArgs ⟨some (.dict d), none, none⟩ = .ok () := by simp [validateIrfArgs, validateIrfShockArguments]
  refine ⟨?_, ?_⟩
  · rintro rfl
    simp only [irf_plain]
    unfold irfPlain
    rw [hv]
    rfl
  · rintro ⟨x, hx, hn⟩
    have hd : d ≠ [] := by rintro rfl; simp [dkeys] at hx
    have hany : ((dkeys d).any fun x => decide (x ∉ List.ofFn names)) = true := by
      rw [List.any_eq_true]
      refine ⟨x, hx, ?_⟩
      simpa using hn
    simp only [irf_plain]
    unfold irfPlain
    rw [hv]
    simp only [shockMode, selectedShocks, hd, if_false, hany, if_true]

/-- C38, violated: a call that relies on the documented defaults (no shock specification) raises `not enough values to unpack`, and a call with
two or three specifications raises `too many values to unpack`, never the explanatory message -/
theorem C38_violated {n k : ℕ} (chol : Mat k k → Option (Mat k k)) (z : Fin k → ℝ) (names : Fin k → Str) (T : Mat n n) (R : Mat n k)
    (len : ℕ) (a : IrfArgs) (rq : Option Bool) (orth : Bool) :
    (givenCount a = 0 → impulseResponse chol z names T R len a rq orth = .error .notEnoughValues) ∧
    (2 ≤ givenCount a → impulseResponse chol z names T R len a rq orth = .error .tooManyValues) := by
  have h : (givenCount a = 0 → validateIrfArgs a = .error .notEnoughValues) ∧ (2 ≤ givenCount a → validateIrfArgs a = .error .tooManyValues) := by
    obtain ⟨s, c, t⟩ := a
    rcases s with _ | s <;> rcases c with _ | c <;> rcases t with _ | t <;>
      simp [validateIrfArgs, validateIrfShockArguments, givenCount]
  simp only [irf_plain]
  unfold irfPlain
  exact ⟨fun h0 => by rw [h.1 h0], fun h0 => by rw [h.2 h0]⟩

/-- C37: the response to a draw with a given covariance matrix is the response to the impulse `L z`, where `z` is the standard draw and
`L Lᵀ` is that matrix; the joint response in period `t` is `T^t R L z`. -/
theorem C37_covariance {n k : ℕ} (chol : Mat k k → Option (Mat k k)) (hchol : ∀ M L, chol M = some L → L * Lᵀ = M) (z : Fin k → ℝ)
    (names : Fin k → Str) (T : Mat n n) (R : Mat n k) (len : ℕ) (Q : Mat k k) (rq : Option Bool) (orth : Bool) (J : List (Fin n → ℝ))
    (h : impulseResponse chol z names T R len ⟨none, some ⟨k, Q⟩, none⟩ rq orth = .ok (.joint J)) :
    ∃ L, L * Lᵀ = Q ∧ J.length = len ∧ ∀ t, t < len → atTime J t = (T ^ t * R) *ᵥ (L *ᵥ z) := by
  obtain ⟨_, sel, hsel, _, full, hb, hf⟩ := irf_joint h
  simp only [shockMode, buildTrajectory] at hb
  rw [dif_pos trivial] at hb
  have hb' : (match chol Q with | none => (.error .notPosDef : Except IrfErr (List (Fin k → ℝ))) | some L => impulse len (L *ᵥ z)) = .ok full := by
    cases orth <;> exact hb
  cases hc : chol Q with
  | none => rw [hc] at hb'; cases hb'
  | some L =>
    rw [hc] at hb'
    simp only at hb'
    obtain ⟨_, h1, h2⟩ := simulateLinear_ok hf
    have hl := impulse_length hb'
    refine ⟨L, hchol _ _ hc, by rw [h1, hl], fun t ht => ?_⟩
    rw [atTime, h2 t (by rw [hl]; exact ht)]
    cases len with
    | zero => simp at ht
    | succ l =>
      simp only [impulse, Except.ok.injEq] at hb'
      subst hb'
      rw [Finset.sum_eq_single 0]
      · simp
      · intro s _ hs
        obtain ⟨s, rfl⟩ := Nat.exists_eq_succ_of_ne_zero hs
        simp [List.getD_eq_getElem?_getD, List.getElem?_replicate]
        split <;> simp
      · simp

/-- C37: the joint response to a given trajectory of shocks is the convolution of all of them, over as many periods as the trajectory has,
whatever simulation length is asked for -/
theorem C37_joint_trajectory {n k : ℕ} (chol : Mat k k → Option (Mat k k)) (z : Fin k → ℝ) (names : Fin k → Str) (T : Mat n n) (R : Mat n k)
    (len : ℕ) (tr : Arr2) (hc : tr.cols = k) (hne : tr.rows ≠ []) (rq : Option Bool) (hrq : rq ≠ some true) (orth : Bool) :
    ∃ J, impulseResponse chol z names T R len ⟨none, none, some tr⟩ rq orth = .ok (.joint J) ∧ J.length = tr.rows.length ∧
      ∀ t, t < tr.rows.length → atTime J t = ∑ s ∈ range (t + 1), (T ^ (t - s) * R) *ᵥ fun i : Fin k => tr.rows.getD s 0 i := by
  have hv : validateIrfArgs ⟨none, none, some tr⟩ = .ok () := by simp [validateIrfArgs, validateIrfShockArguments]
  have hi : inferIndividual rq (.trajectory tr) k = false := by
    rcases rq with _ | b
    · rfl
    · cases b
      · rfl
      · exact absurd rfl hrq
  simp only [irf_plain]
  unfold irfPlain
  rw [hv]
  simp only [shockMode, selectedShocks, List.length_ofFn, hi, buildTrajectory, hc, ne_eq, not_true_eq_false, if_false, Bool.false_eq_true]
  obtain ⟨out, h1, h2, h3⟩ := simulateLinear_cons T R (tr.rows.map fun r (j : Fin k) => r j) (by simpa using hne)
  rw [h1]
  rw [List.length_map] at h2 h3
  refine ⟨out, rfl, h2, fun t ht => ?_⟩
  rw [atTime, h3 t ht]
  refine Finset.sum_congr rfl fun s hs => ?_
  congr 1
  have hs' : s < tr.rows.length := by
    have := Finset.mem_range.mp hs
    omega
  simp [List.getD_eq_getElem?_getD, hs']

/-- specification: individual responses are returned when asked for; otherwise, unless joint ones are asked for, for sizes (an array needs
one entry per shock) and for covariance matrices that are diagonal up to 1e-8 -/
def WantsIndividual (k : ℕ) (a : IrfArgs) (rq : Option Bool) : Prop :=
  rq = some true ∨ rq = none ∧ a.traj = none ∧
    (∀ q, a.cov = some q → ∀ i j, i ≠ j → |q.2 i j| ≤ 1 / 100000000) ∧ ∀ l, a.size = some (.arr l) → l.length = k

/-- C38: which kind of result is returned -/
theorem C38_kind {n k : ℕ} (chol : Mat k k → Option (Mat k k)) (z : Fin k → ℝ) (names : Fin k → Str) (T : Mat n n) (R : Mat n k)
    (len : ℕ) (a : IrfArgs) (rq : Option Bool) (orth : Bool) (r : IrfResult n) (h : impulseResponse chol z names T R len a rq orth = .ok r) :
    (∃ sel data, r = .individual sel data) ↔ WantsIndividual k a rq := by
  have key : ∀ sel, validateIrfArgs a = .ok () → selectedShocks (shockMode a) (List.ofFn names) = .ok sel →
      (inferIndividual rq (shockMode a) sel.length = true ↔ WantsIndividual k a rq) := by
    intro sel hv hsel
    unfold WantsIndividual
    rcases rq with _ | b
    · obtain ⟨s, c, t⟩ := a
      rcases (validate_iff _).mp hv with ⟨h1, h2, h3⟩ | ⟨h1, h2, h3⟩ | ⟨h1, h2, h3⟩ <;> simp only at h1 h2 h3
      · subst h2; subst h3
        rcases s with _ | (x | l | d)
        · simp at h1
        · simp [shockMode, inferIndividual]
        · simp only [shockMode, selectedShocks, Except.ok.injEq] at hsel
          subst hsel
          simp [shockMode, inferIndividual]
        · simp [shockMode, inferIndividual]
      · subst h1; subst h3
        rcases c with _ | ⟨m, Q⟩
        · simp at h2
        · simp [shockMode, inferIndividual, isDiagonal]
      · subst h1; subst h2
        rcases t with _ | tr
        · simp at h3
        · simp [shockMode, inferIndividual]
    · cases b <;> simp [inferIndividual]
  cases r with
  | individual sel data =>
    obtain ⟨hv, hsel, hi, _⟩ := irf_individual h
    exact ⟨fun _ => (key sel hv hsel).mp hi, fun _ => ⟨_, _, rfl⟩⟩
  | joint J =>
    obtain ⟨hv, sel, hsel, hi, _⟩ := irf_joint h
    constructor
    · rintro ⟨_, _, h⟩; cases h
    · intro hw
      rw [(key sel hv hsel).mpr hw] at hi
      cases hi

/-! ## The hypotheses are met -/

/-- a two-shock model: a joint response and individual responses to the same specification both exist -/
example (chol : Mat 2 2 → Option (Mat 2 2)) (z : Fin 2 → ℝ) (T : Mat 3 3) (R : Mat 3 2) :
    (∃ sel data, impulseResponse chol z ![['a'], ['b']] T R 40 ⟨some (.scalar 2), none, none⟩ none false = .ok (.individual sel data)) ∧
    (∃ J, impulseResponse chol z ![['a'], ['b']] T R 40 ⟨some (.scalar 2), none, none⟩ (some false) false = .ok (.joint J)) := by
  refine ⟨C38_accepts chol z _ T R 39 (.scalar 2) false trivial, ?_⟩
  have hv : validateIrfArgs ⟨some (.scalar 2), none, none⟩ = .ok () := by simp [validateIrfArgs, validateIrfShockArguments]
  simp only [irf_plain]
  unfold irfPlain
  rw [hv]
  exact ⟨_, rfl⟩

/-- the violation is a real difference: two shocks with unit impact, a dictionary naming the first, joint response 2 instead of 1 -/
example : ∃ J, impulseResponse (n := 1) (k := 2) (fun Q => some Q) 0 ![['a'], ['b']] !![0] !![1, 1] 1 ⟨some (.dict [(['a'], 1)]), none, none⟩ (some false) false
    = .ok (.joint J) ∧ atTime J 0 = ![2] := by
  obtain ⟨J, h1, _, h3⟩ := C37_dict_joint_violated (n := 1) (k := 2) (fun Q => some Q) 0 ![['a'], ['b']]
    (by intro i j; fin_cases i <;> fin_cases j <;> simp) !![0] !![1, 1] 0 false 0 1
  refine ⟨J, h1, ?_⟩
  rw [h3 0 (by omega)]
  ext p
  fin_cases p
  rw [Fin.sum_univ_two]
  simp [Matrix.col]
  norm_num

/-- three shocks, a dictionary naming two of them -/
example : impulseResponse (n := 1) (k := 3) (fun Q => some Q) 0 ![['a'], ['b'], ['c']] !![0] !![1, 1, 1] 5 ⟨some (.dict [(['a'], 1), (['b'], 1)]), none, none⟩
    (some false) false = .error .broadcast :=
  C37_dict_joint_raises _ _ _ _ _ 4 _ _ (by decide) (by decide) ⟨2, by decide⟩

end GE
