import Verif.Props.PFSolve
import Verif.Props.Simulate
/-! # C144: an economy at rest stays at rest -/

open Matrix

namespace GE

/-! ## specification -/

/-- the values `σ` of the symbols are those of an economy at rest in the steady state `ss`: every variable at its steady-state value at every date, no
shock, parameters as the user fixes them for good or as the model has them -/
structure RestsAt (m : PFModel) (columns : List Str) (paths : List (Str × PPath ℝ)) (defaults ss : List (Str × ℝ)) (σ : Sym → ℝ) : Prop where
  vars : ∀ n ∈ columns, ∀ asm k, (k = -1 ∨ k = 0 ∨ k = 1) → BoundaryValue [] ss n (σ (.tv ⟨n, .t k, asm⟩))
  shocks : ∀ s ∈ m.shocks, ∀ asm, σ (.tv ⟨s.base, .t 0, asm⟩) = 0
  params : ∀ n ∈ m.params ++ m.determ, ParamValue paths defaults n 0 (σ (.par n))
  steady : ∀ p ∈ m.ssDict, ∀ x : TSym, x.idx = .ss → symName (safeToSS p.1) = createName x → σ (.tv x) = p.2.eval σ

namespace Rst

theorem boundary_unique {ss : List (Str × ℝ)} {n : Str} {v w : ℝ} (h : BoundaryValue [] ss n v) (h' : BoundaryValue [] ss n w) : v = w := by
  rcases h with ⟨_, hk, _⟩ | ⟨-, h⟩
  · cases hk
  rcases h' with ⟨_, hk, _⟩ | ⟨-, h'⟩
  · cases hk
  rcases h with h | ⟨h1, h | ⟨h2, rfl⟩⟩ <;> rcases h' with h' | ⟨h1', h' | ⟨h2', rfl⟩⟩ <;> simp_all

theorem steady_same {steady : List (Str × ℝ) → Option (List (Str × ℝ))} {a : RunArgs} (hp : ∀ p ∈ a.paths.getD [], ∃ v, p.2 = .scalar v) {t u : Nat}
    {x y : List (Str × ℝ)} (h : SteadyIn steady a t x) (h' : SteadyIn steady a u y) : y = x := by
  obtain ⟨kw, hf, hs⟩ := h
  obtain ⟨kw', hf', hs'⟩ := h'
  have : kw' = kw := by
    generalize a.paths.getD [] = l at hp hf hf'
    clear hs hs'
    induction hf generalizing kw' with
    | nil => cases hf'; rfl
    | @cons p q l kw h1 _ ih =>
      cases hf' with
      | @cons _ q' _ kw' h2 hf' =>
        obtain ⟨v, hv⟩ := hp p (by simp)
        have e1 : q = (p.1, v) := by
          rcases h1 with ⟨e, h1 | ⟨vs, h1, -⟩⟩
          · rw [hv] at h1; cases h1; exact Prod.ext e rfl
          · rw [hv] at h1; cases h1
        have e2 : q' = (p.1, v) := by
          rcases h2 with ⟨e, h2 | ⟨vs, h2, -⟩⟩
          · rw [hv] at h2; cases h2; exact Prod.ext e rfl
          · rw [hv] at h2; cases h2
        rw [e1, e2, ih kw' (fun r hr => hp r (List.mem_cons_of_mem _ hr)) hf']
  rw [this, hs] at hs'
  exact (Option.some.inj hs').symm

end Rst

/-- **C144**: a run of `solve_perfect_foresight` without shocks, whose parameters do not change within the horizon, whose ends are left to the steady
state and which starts from it, is recognised as solved at once and returns the steady state in every period, provided the equations hold there -/
theorem C144_perfect_foresight (ord so) (hord : ∀ l, (ord l).Perm l) (hso : ∀ l, (so l).Perm l) (m : PFModel) (hpl : m.PlainValues) (hsh : m.ShocksNow)
    (hnd : (m.params ++ m.determ).Nodup) (pm : ParamModel ℝ) (steady : List (Str × ℝ) → Option (List (Str × ℝ))) (solver : SolverOf)
    (a : RunArgs) (o : RunOut) (h : solvePF ord so m pm steady solver a = .ok o)
    (hpk : (dkeys (a.paths.getD [])).Nodup) (hp : ∀ p ∈ a.paths.getD [], ∃ v, p.2 = .scalar v)
    (hs : a.shocks.getD [] = []) (hi : a.initial = []) (ht : a.terminal = []) (hg : a.guess = .none ∨ ∃ d, a.guess = .steady d)
    (defaults ss ss' : List (Str × ℝ)) (hr : RefersTo pm steady a o.columns defaults ss ss')
    (σ : Sym → ℝ) (hσ : RestsAt m o.columns (a.paths.getD []) defaults ss σ) (hz : ∀ e ∈ m.eqs, |e.eval σ| < 1e-10) :
    o.result.success = true ∧ o.result.final.nit = 0 ∧ ∀ t < a.T, ∀ (i : Nat) n, o.columns[i]? = some n → BoundaryValue [] ss n (o.trajectory t i) := by
  have hss : ss' = ss := by
    have h1 := hr.before
    have h2 := hr.after
    unfold DictFor at h1 h2
    rcases hg with hg | ⟨d, hg⟩
    · rw [hg] at h1 h2
      exact Rst.steady_same hp h1 h2
    · rw [hg] at h1 h2
      exact h2.trans h1.symm
  subst hss
  let G : Nat → Nat → ℝ := fun _ i => ((o.columns[i]?).map fun n => σ (.tv ⟨n, .t 0, []⟩)).getD 0
  have hGv : ∀ (t i : Nat) n, o.columns[i]? = some n → G t i = σ (.tv ⟨n, .t 0, []⟩) := by
    intro t i n hn
    simp only [G, hn, Option.map_some, Option.getD_some]
  have hGb : ∀ (t i : Nat) n, o.columns[i]? = some n → BoundaryValue [] ss' n (G t i) := by
    intro t i n hn
    rw [hGv t i n hn]
    exact hσ.vars n (List.mem_of_getElem? hn) _ _ (by simp)
  have hG : ∀ t < a.T, ∀ (i : Nat) n, o.columns[i]? = some n → GuessValue a ss' n i t (G t i) := by
    intro t _ i n hn
    unfold GuessValue
    rcases hg with hg | ⟨d, hg⟩ <;> rw [hg] <;> exact hGb t i n hn
  have hin : ∀ t < a.T, InPeriod m defaults a ss' ss' { o with trajectory := G } t σ := by
    intro t htT
    refine ⟨fun i n asm k hn hk => ?_, fun s hs' asm => ?_, fun n hn => ?_, hσ.steady⟩
    · have hb := hσ.vars n (List.mem_of_getElem? hn) asm k hk
      have hn' : o.columns[i]? = some n := hn
      unfold OnPath
      rw [hi, ht]
      by_cases h1 : (t : Int) + k = -1
      · exact .inl ⟨h1, hb⟩
      · by_cases h2 : (t : Int) + k = a.T
        · exact .inr (.inr ⟨h2, hb⟩)
        · refine .inr (.inl ⟨((t : Int) + k).toNat, by omega, by omega, ?_⟩)
          exact Rst.boundary_unique hb (hGb t i n hn')
    · rw [hs]
      exact .inr ⟨fun path hp => (by cases hp), hσ.shocks s hs' asm⟩
    · rcases hσ.params n hn with h1 | ⟨vs, h1, -⟩ | h1
      · exact .inl h1
      · obtain ⟨v, hv⟩ := hp _ h1
        cases hv
      · exact .inr (.inr h1)
  obtain ⟨h1, h2, h3⟩ := C132_solved_guess ord so hord hso m hpl hsh hnd pm steady solver a o h (by rw [hi]; simp) (by rw [ht]; simp)
    (by rw [hs]; simp [dkeys]) hpk defaults ss' ss' hr G hG (fun _ => σ) hin fun t _ e he => hz e he
  refine ⟨h1, h2, fun t htT i n hn => ?_⟩
  rw [h3 t htT i (List.getElem?_eq_some_iff.1 hn).1]
  exact hGb t i n hn

open PFS Rsp in
/-- the hypotheses are met: `x[] = 2 + 0.5*x[-1] + e[]*x[-1]` in its steady state `x = 4`, over any horizon and with any solver -/
example (solver : SolverOf) : ∃ o, solvePF id id rsM rsPm (fun _ => some rsSS) solver { T := 10 } = .ok o ∧ o.result.success = true ∧
    ∀ t < 10, o.trajectory t 0 = 4 := by
  have hrun : ∃ o, solvePF id id rsM rsPm (fun _ => some rsSS) solver { T := 10 } = .ok o := by
    obtain ⟨c, f, hc, hv, hs, hp⟩ := rs_compiles
    have hn0 : normalizeConditions ([] : List (Str × ℝ)) = [] := rfl
    unfold solvePF
    simp only [hc, Option.getD_none, boundaryParams, List.foldr_nil, steadyDicts, computeSS, guessVector, hn0, hv, hs, hp]
    simp [validatePF, dkeys, shockMatrix, dget, rsPm, ParamModel.parameters, dupdate, paramMatrix, paramLoop, rsM]
  obtain ⟨o, ho⟩ := hrun
  have hcol := rs_columns ho
  have hx : BoundaryValue [] rsSS "x".toList 4 := .inr ⟨fun key w hk => (by cases hk), .inl (by simp [rsSS, dget])⟩
  have key := C144_perfect_foresight id id (fun _ => .refl _) (fun _ => .refl _) rsM rs_plain rs_now (by decide) rsPm (fun _ => some rsSS) solver { T := 10 } o
    ho (by simp [dkeys]) (by simp) rfl rfl rfl (.inl rfl) [] rsSS rsSS ⟨rfl, ⟨[], .nil, rfl⟩, ⟨[], .nil, rfl⟩⟩
    (fun s => match s with | .tv x => if x.base = "e".toList then 0 else 4 | _ => 0)
    (by
      refine ⟨fun n hn asm k hk => ?_, fun s hs asm => ?_, fun n hn => (by cases hn), fun p hp => (by cases hp)⟩
      · rw [hcol, List.mem_singleton] at hn
        subst hn
        simp only
        rw [if_neg (by decide)]
        exact hx
      · simp only [rsM, List.mem_singleton] at hs
        subst hs
        exact if_pos rfl)
    (by
      intro e he
      simp only [rsM, List.mem_singleton] at he
      subst he
      have h1 : (if (rsX.atT (-1)).base = "e".toList then (0 : ℝ) else 4) = 4 := if_neg (by decide)
      have h2 : (if rsX.base = "e".toList then (0 : ℝ) else 4) = 4 := if_neg (by decide)
      have h3 : (if rsE.base = "e".toList then (0 : ℝ) else 4) = 0 := if_pos rfl
      simp only [rsQ, SExpr.eval, h1, h2, h3]
      norm_num)
  exact ⟨o, ho, key.1, fun t ht => Rst.boundary_unique (key.2.2 t ht 0 _ (by rw [hcol]; rfl)) hx⟩

/-- **C144**: without shocks `simulate` stays at the steady state -/
theorem C144_simulate {n k : ℕ} (T : Mat n n) (R : Mat n k) (eps : List (Fin k → ℝ)) (h0 : ∀ e ∈ eps, e = 0) (X : List (Fin n → ℝ))
    (h : simulateOne T R eps = .ok X) : X.length = eps.length ∧ ∀ x ∈ X, x = 0 := by
  unfold simulateOne at h
  cases eps with
  | nil => cases h
  | cons e es =>
    simp only [Except.ok.injEq] at h
    subst h
    refine ⟨by simp, ?_⟩
    have he : R *ᵥ e = 0 := by rw [h0 e (by simp), mulVec_zero]
    rw [he]
    have hes : ∀ e ∈ es, e = 0 := fun e h => h0 e (by simp [h])
    clear h0 he
    induction es with
    | nil => simp
    | cons e es ih =>
      intro x hx
      rw [List.scanl_cons, List.mem_cons] at hx
      rcases hx with rfl | hx
      · rfl
      · rw [hes e (by simp), mulVec_zero, mulVec_zero, add_zero] at hx
        exact ih (fun e h => hes e (by simp [h])) x hx

end GE
