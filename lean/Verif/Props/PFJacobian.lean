import Verif.Props.PFSolve
/-! # C132: the Jacobian of a perfect-foresight run -/

namespace GE
open PFS

namespace PFJ

open Classical in
theorem period_jac {yInit yTerm : Nat → ℝ} {x params : Nat → Nat → ℝ} (g : PeriodArgs ℝ → (Nat → ℝ) × (Nat → Nat → ℝ)) (y : Nat → ℝ) (n T t s r k : Nat)
    (ht : t < T) (hs : s < T) (hr : r < n) (hk : k < n) :
    cooAt (stackedSystem g y yInit yTerm x params n n T).2 (t * n + r) (s * n + k) =
      if blockTri (fun _ => (g (periodArgs y yInit yTerm x params n T 0)).2) n t r s k = 0 then 0
      else blockTri (fun t => (g (periodArgs y yInit yTerm x params n T t)).2) n t r s k := by
  have hT : 0 < T := by omega
  have hJ : ∀ t' < T, ∀ r c, (match (evaluatePeriods g y yInit yTerm x params n T)[t']? with | some p => p.2.2 r c | none => (0 : ℝ)) =
      (g (periodArgs y yInit yTerm x params n T t')).2 r c := by
    intro t' ht' r c
    simp [evaluatePeriods, List.getElem?_range ht']
  let J : Nat → Nat → Nat → ℝ := fun t r c => match (evaluatePeriods g y yInit yTerm x params n T)[t]? with | some p => p.2.2 r c | none => 0
  have h : (stackedSystem g y yInit yTerm x params n n T).2 = assembleEntries J n n T := by
    unfold stackedSystem
    simp only [J]
    congr 1
    funext t r c
    cases (evaluatePeriods g y yInit yTerm x params n T)[t]? <;> rfl
  have hJ' : ∀ t' < T, J t' = (g (periodArgs y yInit yTerm x params n T t')).2 := fun t' ht' => by funext r c; exact hJ t' ht' r c
  rw [h, C29_entries_exact J n n T t r s k ht hs hr hk, hJ' 0 hT]
  have e1 : blockTri J n t r s k = blockTri (fun t => (g (periodArgs y yInit yTerm x params n T t)).2) n t r s k := by
    unfold blockTri
    simp only [hJ' t ht]
  rw [e1]

end PFJ
open PFJ

/-- the run's path with another value for one variable at one date -/
def RunOut.withValue (o : RunOut) (s k : Nat) (v : ℝ) : RunOut :=
  { o with trajectory := fun s' k' => if s' = s ∧ k' = k then v else o.trajectory s' k' }

/-- **C132**: the matrix reported with a run. Its entry in the row of equation `r` in period `t` and the column of variable `k` in period `s` is
the derivative of the equation at that date with respect to the variable at that date, on the path of the table; or it is 0 though the
derivative is something else, which does not happen in the first period (`C29_violated`: the sparsity pattern is that of the first period) -/
theorem C132_jacobian (ord so) (hord : ∀ l, (ord l).Perm l) (hso : ∀ l, (so l).Perm l) (m : PFModel) (hpl : m.PlainValues) (hsh : m.ShocksNow)
    (hasm : SameAssumptions m.atoms)
    (hnd : (m.params ++ m.determ).Nodup) (pm : ParamModel ℝ) (steady : List (Str × ℝ) → Option (List (Str × ℝ))) (solver : SolverOf)
    (hsolver : ∀ N g, HonestStep (solver N g).1) (a : RunArgs) (o : RunOut) (h : solvePF ord so m pm steady solver a = .ok o)
    (hi : (a.initial.map fun p => removeSuffixSS p.1).Nodup) (ht : (a.terminal.map fun p => removeSuffixSS p.1).Nodup)
    (hsk : (dkeys (a.shocks.getD [])).Nodup) (hpk : (dkeys (a.paths.getD [])).Nodup)
    (defaults ssInit ssTerm : List (Str × ℝ)) (hr : RefersTo pm steady a o.columns defaults ssInit ssTerm)
    (t s r k : Nat) (htT : t < a.T) (hsT : s < a.T) (hk : k < o.columns.length) (e : SExpr) (he : m.eqs[r]? = some e)
    (σ : ℝ → Sym → ℝ) (hσ : ∀ v, InPeriod m defaults a ssInit ssTerm (o.withValue s k v) t (σ v))
    (hsm : ∀ e ∈ m.eqs, e.SmoothAt (σ (o.trajectory s k))) (hsv : ∀ p ∈ m.ssDict, p.2.SmoothAt (σ (o.trajectory s k))) :
    ∃ d, HasDerivAt (fun v => e.eval (σ v)) d (o.trajectory s k) ∧
      (flat (fun i => flat (o.result.final.jac i) (s * m.eqs.length + k)) (t * m.eqs.length + r) = d ∨
       (0 < t ∧ flat (fun i => flat (o.result.final.jac i) (s * m.eqs.length + k)) (t * m.eqs.length + r) = 0)) := by
  classical
  obtain ⟨c, f, si, st, x0, X, P, df, tr⟩ := trace h
  have href := refers tr
  have hcol : o.columns = c.varNames := by rw [tr.out]; rfl
  have htraj : ∀ t k, o.trajectory t k = flat o.result.final.x (t * c.varNames.length + k) := fun t k => by rw [tr.out]; rfl
  rw [hcol] at hk
  have hrr : r < c.varNames.length := by rw [← tr.square]; exact (List.getElem?_eq_some_iff.1 he).1
  set n := c.varNames.length with hn
  let y := flat o.result.final.x
  let Y : ℝ → Nat → ℝ := fun v => Function.update y (s * n + k) v
  have hsay : ∀ v, (periodArgs (Y v) (startVec a.initial si c.varNames) (startVec a.terminal st c.varNames) X P n a.T t).Says
      c.varNames c.shockNames c.paramNames (σ v) := by
    intro v
    let o' : RunOut := { o with trajectory := fun t k => Y v (t * n + k) }
    have h1 : InPeriod m df a si st o' t (σ v) := by
      refine inPeriod_irrelevant (o := o') hr href ⟨fun i nm asm δ hi hδ => ?_, (hσ v).shocks, (hσ v).params, (hσ v).steady⟩
      rcases (hσ v).vars i nm asm δ hi hδ with hb | ⟨t', ht', hu, hv⟩ | hb
      · exact .inl hb
      · refine .inr (.inl ⟨t', ht', hu, ?_⟩)
        have hi' : i < n := by
          have h7 : o.columns[i]? = some nm := hi
          rw [hcol] at h7
          exact (List.getElem?_eq_some_iff.1 h7).1
        rw [hv]
        change (if t' = s ∧ i = k then v else o.trajectory t' i) = Y v (t' * n + i)
        by_cases hc : t' = s ∧ i = k
        · rw [if_pos hc, hc.1, hc.2]; simp [Y]
        · rw [if_neg hc, htraj]
          have : t' * n + i ≠ s * n + k := by
            intro he
            have q1 := div_pos_eq (t := t') hi'
            have q2 := div_pos_eq (t := s) hk
            rw [he] at q1
            exact hc ⟨q1.1.symm.trans q2.1, q1.2.symm.trans q2.2⟩
          simp only [Y]
          rw [Function.update_of_ne this]
      · exact .inr (.inr hb)
    exact argsSay' hord hso hpl hnd hi ht hsk hpk tr (Y v) (o := o') hcol (fun _ _ => rfl) t htT (σ v) h1
  have hself : Y (o.trajectory s k) = y := by
    simp only [Y]
    rw [htraj]
    exact Function.update_eq_self _ _
  have heval : ∀ v, e.eval (σ v) = stackedResiduals f.residual (Y v) (startVec a.initial si c.varNames) (startVec a.terminal st c.varNames) X P n
      m.eqs.length a.T (t * m.eqs.length + r) := by
    intro v
    rw [tr.square, C30_residuals _ _ _ _ _ _ _ _ _ _ _ htT hrr, ← PF.args_eq _ _ _ _ _ _ _ _ htT]
    exact ((C121_residual ord so hord hso m c f tr.comp hsh _ (σ v) (hsay v) (hσ v).steady r e he).2).symm
  have hder := C121_stacked_jacobian ord so hord hso m c f tr.comp hsh hasm y (startVec a.initial si c.varNames) (startVec a.terminal st c.varNames) X P
    a.T t s r k htT hsT (by rw [tr.square]; exact hrr) hk (σ (o.trajectory s k)) (hσ _).steady (by have := hsay (o.trajectory s k); rwa [hself] at this) hsm hsv
  refine ⟨_, by simp only [heval]; rw [htraj]; exact hder, ?_⟩
  have hjac : flat (fun i => flat (o.result.final.jac i) (s * m.eqs.length + k)) (t * m.eqs.length + r) =
      cooAt (stackedSystem (fun a => (c.parts.residual a, c.jacobian a)) y (startVec a.initial si c.varNames) (startVec a.terminal st c.varNames) X P n n a.T).2
        (t * n + r) (s * n + k) := by
    have hsq := tr.square
    obtain ⟨_, _, _, _, _, _, _, _, _, hout⟩ := tr
    subst hout
    let g := pfMerit f (startVec a.initial si c.varNames) (startVec a.terminal st c.varNames) X P c.varNames.length a.T
    have h := (C35_bounded_and_consistent _ (hsolver (a.T * c.varNames.length) g) (solver (a.T * c.varNames.length) g).2
      (pfSystem c (startVec a.initial si c.varNames) (startVec a.terminal st c.varNames) X P c.varNames.length a.T)
      (fun i => x0 i) 1e-10 1e-10 1000).2.2.2.1
    rw [hsq]
    have h2 := congrFun (congrFun h ⟨t * n + r, pos_lt htT hrr⟩) ⟨s * n + k, pos_lt hsT hk⟩
    refine (flat_at _ _ (pos_lt htT hrr)).trans ((flat_at _ _ (pos_lt hsT hk)).trans (h2.trans ?_))
    rfl
  rw [hjac, period_jac _ y n a.T t s r k htT hsT hrr hk]
  by_cases h0 : blockTri (fun _ => c.jacobian (periodArgs y (startVec a.initial si c.varNames) (startVec a.terminal st c.varNames) X P n a.T 0)) n t r s k = 0
  · rw [if_pos h0]
    by_cases ht0 : t = 0
    · left
      subst ht0
      refine h0.symm.trans ?_
      unfold blockTri
      rfl
    · exact .inr ⟨Nat.pos_of_ne_zero ht0, rfl⟩
  · rw [if_neg h0]
    exact .inl rfl

/-- **C132**: an initial guess of another shape than the table of the run is refused: a run that returns had an array with a row for every period
and a column for every variable; or a frame with a row for every period and one column for each variable (and perhaps others) -/
theorem C132_guess_shape (ord so) (m : PFModel) (pm : ParamModel ℝ) (steady : List (Str × ℝ) → Option (List (Str × ℝ))) (solver : SolverOf)
    (a : RunArgs) (o : RunOut) (h : solvePF ord so m pm steady solver a = .ok o) :
    (∀ rows cols v, a.guess = .array rows cols v → rows = a.T ∧ cols = o.columns.length) ∧
    (∀ cols rows v, a.guess = .frame cols rows v → rows = a.T ∧ cols.Nodup ∧ ∀ n ∈ o.columns, n ∈ cols) := by
  obtain ⟨c, f, si, st, x0, X, P, df, tr⟩ := trace h
  have hcol : o.columns = c.varNames := by rw [tr.out]; rfl
  rw [hcol]
  constructor
  · intro rows cols v hg
    have h1 := tr.guess
    rw [hg] at h1
    unfold guessVector at h1
    simp only at h1
    split at h1
    · cases h1
    · rename_i hc
      push Not at hc
      exact hc
  · intro cols rows v hg
    have h1 := tr.guess
    rw [hg] at h1
    unfold guessVector at h1
    simp only at h1
    split at h1
    · cases h1
    · rename_i hc
      push Not at hc
      split at h1
      · rename_i ha
        exact ⟨hc.1, hc.2, fun n hn => by simpa using List.all_eq_true.1 ha n hn⟩
      · cases h1

open Rsp in
/-- the hypotheses are met: in the run over four periods of `x[] = 2 + 0.5*x[-1] + e[]*x[-1]`, the entry of the reported matrix for the equation
and the variable in the same period is what remains of the derivative -/
example (lin : ∀ N : Nat, Matrix (Fin N) (Fin N) ℝ → (Fin N → ℝ) → Option (Fin N → ℝ)) (t s : Nat) (ht : t < 4) (hs : s < 4) :
    ∃ o d, solvePF id id rsM rsPm (fun _ => some rsSS) (defaultSolver lin) rsRun = .ok o ∧
      HasDerivAt (fun v => rsQ.eval ((rsPath rsRun (o.withValue s 0 v) 6 [1/4, 0, 0, 0]).val.symAt t)) d (o.trajectory s 0) ∧
      (flat (fun i => flat (o.result.final.jac i) (s * 1 + 0)) (t * 1 + 0) = d ∨
        (0 < t ∧ flat (fun i => flat (o.result.final.jac i) (s * 1 + 0)) (t * 1 + 0) = 0)) := by
  obtain ⟨o, ho⟩ := rs_runs (defaultSolver lin)
  have hasm : SameAssumptions rsM.atoms := by
    rw [rs_atoms]
    intro x hx y hy _
    simp only [List.mem_cons, List.not_mem_nil, or_false] at hx hy
    have h1 : x.asm = rsX.asm := by rcases hx with rfl | rfl | rfl | rfl <;> rfl
    have h2 : y.asm = rsX.asm := by rcases hy with rfl | rfl | rfl | rfl <;> rfl
    rw [h1, h2]
  have hcol := rs_columns ho
  obtain ⟨d, h1, h2⟩ := C132_jacobian id id (fun _ => .refl _) (fun _ => .refl _) rsM rs_plain rs_now hasm (by decide) rsPm (fun _ => some rsSS)
    (defaultSolver lin) (fun N g => C35_solvers.1 _ _ _) rsRun o ho (by simp [rsRun]) (by simp [rsRun]) (by simp [rsRun, dkeys])
    (by simp [rsRun, dkeys]) [] rsSS rsSS ⟨rfl, ⟨[], .nil, rfl⟩, ⟨[], .nil, rfl⟩⟩ t s 0 0 ht hs (by rw [hcol]; decide) rsQ rfl
    (fun v => (rsPath rsRun (o.withValue s 0 v) 6 [1/4, 0, 0, 0]).val.symAt t) (fun v => PFS.inPeriod (rs_onpath (o := o.withValue s 0 v) hcol t ht))
    (by
      intro e he
      simp only [rsM, List.mem_singleton] at he
      subst he
      simp [rsQ, SExpr.SmoothAt]) (by intro p hp; cases hp)
  exact ⟨o, d, ho, h1, h2⟩

end GE
