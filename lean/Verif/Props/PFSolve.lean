import Verif.Model.PFSolve
import Verif.Props.PFCompile
import Verif.Props.SparseRoot2
import Verif.Props.Responses
/-! # C132: a perfect-foresight run, from the arguments to the equations it solves -/

namespace GE

namespace PFS
open PF

theorem removes (key n : Str) : removeSuffixSS key = n ↔ Names key n := by
  constructor
  · rintro rfl
    by_cases h : ['_', 's', 's'] <:+ key
    · obtain ⟨k, rfl⟩ := h
      rw [(C58_names k).1]; exact .inl rfl
    · rw [(C58_names key).2 h]; exact .inr ⟨rfl, h⟩
  · rintro (rfl | ⟨rfl, h⟩)
    · exact (C58_names n).1
    · exact (C58_names _).2 h

/-- the boundary vector holds the boundary values -/
theorem boundary (user ss : List (Str × ℝ)) (names : List Str) (hn : names.Nodup) (hu : (user.map fun p => removeSuffixSS p.1).Nodup)
    (hmem : ∀ p ∈ user, removeSuffixSS p.1 ∈ names) (i : Nat) (n : Str) (hi : names[i]? = some n) (v : ℝ) (hv : BoundaryValue user ss n v) :
    ((boundaryVector (normalizeConditions user) ss names)[i]?).getD 0 = v := by
  obtain ⟨h1, h2⟩ := (C58_boundary user ss names hn hu hmem).2 i n hi
  rcases hv with ⟨key, hk, hkn⟩ | ⟨hno, hv⟩
  · rw [h1 key v hk ((removes key n).2 hkn)]; rfl
  · rw [h2 fun p hp hr => hno p.1 p.2 hp ((removes p.1 n).1 hr)]
    rcases hv with hv | ⟨hv, hv' | ⟨hv', rfl⟩⟩
    · rw [hv]; rfl
    · rw [hv, hv']; rfl
    · rw [hv, hv']; rfl

theorem pathValue_iff (p : PPath ℝ) (t : Nat) (v : ℝ) : PathValue p t v ↔ p.at t = some v := by
  cases p with
  | scalar w => simp [PathValue, PPath.at]
  | array vs => simp [PathValue, PPath.at]

/-- the values for a period are determined -/
theorem kw_unique (t : Nat) : ∀ (paths : List (Str × PPath ℝ)) (kw : List (Str × ℝ)),
    List.Forall₂ (fun p q => q.1 = p.1 ∧ PathValue p.2 t q.2) paths kw → kw = updatesAt paths t
  | [], [], .nil => rfl
  | p :: paths, q :: kw, .cons h1 h2 => by
    have := kw_unique t paths kw h2
    obtain ⟨n, v⟩ := p
    obtain ⟨k, w⟩ := q
    obtain ⟨rfl, hw⟩ := h1
    have hw := (pathValue_iff _ _ _).1 hw
    simp only at hw
    simp [updatesAt, hw, this]

theorem kw_exists (t T : Nat) (ht : t < T) : ∀ (paths : List (Str × PPath ℝ)), (∀ p ∈ paths, ∀ vs, p.2 = .array vs → vs.length = T) →
    List.Forall₂ (fun p q => q.1 = p.1 ∧ PathValue p.2 t q.2) paths (updatesAt paths t)
  | [], _ => .nil
  | p :: paths, hlen => by
    have ih := kw_exists t T ht paths fun p hp => hlen p (List.mem_cons_of_mem _ hp)
    obtain ⟨n, v⟩ := p
    have : ∃ w, v.at t = some w := by
      cases v with
      | scalar w => exact ⟨w, rfl⟩
      | array vs =>
        have := hlen (n, .array vs) (List.mem_cons_self ..) vs rfl
        exact ⟨vs[t], List.getElem?_eq_getElem (by omega)⟩
    obtain ⟨w, hw⟩ := this
    have : updatesAt ((n, v) :: paths) t = (n, w) :: updatesAt paths t := by simp [updatesAt, hw]
    rw [this]
    exact .cons ⟨rfl, (pathValue_iff _ _ _).2 hw⟩ ih

theorem steadyIn_unique {steady : List (Str × ℝ) → Option (List (Str × ℝ))} {a : RunArgs} {t : Nat} {ss ss' : List (Str × ℝ)}
    (h : SteadyIn steady a t ss) (h' : SteadyIn steady a t ss') : ss = ss' := by
  obtain ⟨kw, hk, h⟩ := h
  obtain ⟨kw', hk', h'⟩ := h'
  rw [kw_unique t _ _ hk] at h
  rw [kw_unique t _ _ hk', h] at h'
  exact Option.some.inj h'

/-- which of the admissible dictionaries is meant does not matter -/
theorem dict_irrelevant {steady : List (Str × ℝ) → Option (List (Str × ℝ))} {a : RunArgs} {t : Nat} {user : List (Str × ℝ)} {columns : List Str}
    {ss ss' : List (Str × ℝ)} (h : DictFor steady a t user columns ss) (h' : DictFor steady a t user columns ss') {n : Str} (hn : n ∈ columns) {v : ℝ}
    (hv : BoundaryValue user ss n v) : BoundaryValue user ss' n v := by
  have given : (∀ n ∈ columns, ∃ key v, (key, v) ∈ user ∧ Names key n) → BoundaryValue user ss' n v := by
    intro hall
    rcases hv with h | ⟨hno, _⟩
    · exact .inl h
    · obtain ⟨key, w, hk, hkn⟩ := hall n hn
      exact absurd hkn (hno key w hk)
  unfold DictFor at h h'
  cases hg : a.guess with
  | steady d => rw [hg] at h h'; simp only at h h'; rw [h', ← h]; exact hv
  | none => rw [hg] at h h'; simp only at h h'; rw [← steadyIn_unique h h']; exact hv
  | frame _ _ _ =>
    rw [hg] at h h'; simp only at h h'
    rcases h with h | h
    · rcases h' with h' | h'
      · rw [← steadyIn_unique h h']; exact hv
      · exact given h'
    · exact given h
  | array _ _ _ =>
    rw [hg] at h h'; simp only at h h'
    rcases h with h | h
    · rcases h' with h' | h'
      · rw [← steadyIn_unique h h']; exact hv
      · exact given h'
    · exact given h

theorem dicts (steady : List (Str × ℝ) → Option (List (Str × ℝ))) (g : Guess) (ni nt : Bool) (first last i t : List (Str × ℝ))
    (h : steadyDicts steady g ni nt first last = .ok (i, t)) :
    (∀ d, g = .steady d → i = d ∧ t = d) ∧ (g = .none → steady first = some i ∧ steady last = some t) ∧
    ((∀ d, g ≠ .steady d) → (steady first = some i ∨ ni = false) ∧ (steady last = some t ∨ nt = false)) := by
  have step : ∀ kw (x : List (Str × ℝ)), computeSS steady kw = .ok x → steady kw = some x := by
    intro kw x hx
    unfold computeSS at hx
    split at hx
    · cases hx; assumption
    · cases hx
  unfold steadyDicts at h
  have other : (match (if ni then computeSS steady first else .ok []) with
      | .error e => (Except.error e : Except RunErr (List (Str × ℝ) × List (Str × ℝ)))
      | .ok i =>
        match (open Classical in if nt then (if ni ∧ last = first then .ok i else computeSS steady last) else .ok []) with
        | .error e => .error e
        | .ok t => .ok (i, t)) = Except.ok (i, t) → (steady first = some i ∨ ni = false) ∧ (steady last = some t ∨ nt = false) := by
    intro h
    split at h
    · cases h
    rename_i i' h1
    split at h
    · cases h
    rename_i t' h2
    cases h
    have ha : steady first = some i ∨ ni = false := by
      cases ni with
      | false => exact .inr rfl
      | true => exact .inl (step _ _ h1)
    refine ⟨ha, ?_⟩
    cases nt with
    | false => exact .inr rfl
    | true =>
      left
      rw [if_pos rfl] at h2
      split at h2
      · rename_i hc
        cases h2
        rw [hc.2]
        rcases ha with ha | ha
        · exact ha
        · rw [ha] at hc; cases hc.1
      · exact step _ _ h2
  cases g with
  | steady d => cases h; exact ⟨fun d hd => (by cases hd; exact ⟨rfl, rfl⟩), fun hd => (by cases hd), fun hd => absurd rfl (hd _)⟩
  | none =>
    suffices hh : steady first = some i ∧ steady last = some t from ⟨fun d hd => (by cases hd), fun _ => hh, fun _ => ⟨.inl hh.1, .inl hh.2⟩⟩
    simp only at h
    split at h
    · cases h
    rename_i i' h1
    split at h
    · cases h
    rename_i t' h2
    cases h
    refine ⟨step _ _ h1, ?_⟩
    split at h2
    · exact step _ _ h2
    · rename_i hc
      cases h2
      rw [not_not.1 hc]; exact step _ _ h1
  | frame _ _ _ => exact ⟨fun d hd => (by cases hd), fun hd => (by cases hd), fun _ => other h⟩
  | array _ _ _ => exact ⟨fun d hd => (by cases hd), fun hd => (by cases hd), fun _ => other h⟩

/-- what a run that returns has gone through -/
structure Trace (ord : List TSym → List TSym) (so : List (Sym × SExpr) → List (Sym × SExpr)) (m : PFModel) (pm : ParamModel ℝ)
    (steady : List (Str × ℝ) → Option (List (Str × ℝ))) (solver : SolverOf) (a : RunArgs) (o : RunOut) (c : PFCompiled) (f : PFParts)
    (ssInit ssTerm : List (Str × ℝ)) (x0 : Nat → ℝ) (X P : Nat → Nat → ℝ) (defaults : List (Str × ℝ)) : Prop where
  comp : compileProblem ord so m = .ok (c, f)
  bound : ∃ first last, boundaryParams (a.paths.getD []) = some (first, last) ∧ steadyDicts steady a.guess
    (!(c.varNames.all fun n => n ∈ dkeys (normalizeConditions a.initial))) (!(c.varNames.all fun n => n ∈ dkeys (normalizeConditions a.terminal)))
    first last = .ok (ssInit, ssTerm)
  guess : guessVector a.guess ssInit c.varNames a.T = .ok x0
  valid : validatePF (normalizeConditions a.initial) (normalizeConditions a.terminal) a.shocks a.paths c.varNames c.shockNames c.paramNames a.T = .ok ()
  shocks : shockMatrix a.shocks c.shockNames a.T = some X
  defs : pm.parameters [] = .ok defaults
  params : paramMatrix a.paths c.paramNames defaults a.T = .ok P
  square : m.eqs.length = c.varNames.length
  pos : a.T ≠ 0
  out : o = runSolver c f solver x0 (boundaryVector (normalizeConditions a.initial) ssInit c.varNames)
    (boundaryVector (normalizeConditions a.terminal) ssTerm c.varNames) X P a.T

theorem trace {ord so m pm steady solver a o} (h : solvePF ord so m pm steady solver a = .ok o) :
    ∃ c f ssInit ssTerm x0 X P defaults, Trace ord so m pm steady solver a o c f ssInit ssTerm x0 X P defaults := by
  unfold solvePF at h
  simp only at h
  split at h
  · cases h
  rename_i c f hc
  split at h
  · cases h
  rename_i first last hb
  split at h
  · cases h
  rename_i ssInit ssTerm hs
  split at h
  · cases h
  rename_i x0 hx
  split at h
  · cases h
  rename_i hv
  split at h
  · cases h
  rename_i X hX
  split at h
  · cases h
  rename_i defaults hd
  split at h
  · cases h
  rename_i P hP
  split at h
  · cases h
  rename_i hsq
  split at h
  · cases h
  rename_i hT
  exact ⟨c, f, ssInit, ssTerm, x0, X, P, defaults, hc, ⟨first, last, hb, hs⟩, hx, hv, hX, hd, hP, not_not.1 hsq, hT, (Except.ok.inj h).symm⟩

/-- a position in the stacked vector -/
theorem pos_lt {T n t r : Nat} (ht : t < T) (hr : r < n) : t * n + r < T * n :=
  calc t * n + r < t * n + n := by omega
    _ = (t + 1) * n := by rw [Nat.succ_mul]
    _ ≤ T * n := Nat.mul_le_mul_right _ ht

theorem flat_at {N : Nat} (x : Fin N → ℝ) (i : Nat) (h : i < N) : flat x i = x ⟨i, h⟩ := dif_pos h

/-- the boundary vector as the solver uses it -/
def startVec (user ss : List (Str × ℝ)) (names : List Str) (i : Nat) : ℝ := ((boundaryVector (normalizeConditions user) ss names)[i]?).getD 0

variable {ord : List TSym → List TSym} {so : List (Sym × SExpr) → List (Sym × SExpr)} {m : PFModel} {pm : ParamModel ℝ}
    {steady : List (Str × ℝ) → Option (List (Str × ℝ))} {solver : SolverOf} {a : RunArgs} {o : RunOut} {c : PFCompiled} {f : PFParts}
    {ssInit ssTerm : List (Str × ℝ)} {x0 : Nat → ℝ} {X P : Nat → Nat → ℝ} {defaults : List (Str × ℝ)}

/-- the values of period `t` of a path are the arguments of the compiled function in that period -/
theorem argsSay' (hord : ∀ l, (ord l).Perm l) (hso : ∀ l, (so l).Perm l) (hpl : m.PlainValues) (hnd : (m.params ++ m.determ).Nodup)
    (hi : (a.initial.map fun p => removeSuffixSS p.1).Nodup) (ht : (a.terminal.map fun p => removeSuffixSS p.1).Nodup)
    (hsk : (dkeys (a.shocks.getD [])).Nodup) (hpk : (dkeys (a.paths.getD [])).Nodup)
    {o₀ : RunOut} (tr : Trace ord so m pm steady solver a o₀ c f ssInit ssTerm x0 X P defaults) (y : Nat → ℝ) (hcol : o.columns = c.varNames)
    (htraj : ∀ t k, o.trajectory t k = y (t * c.varNames.length + k)) (t : Nat) (htT : t < a.T) (σ : Sym → ℝ)
    (hσ : InPeriod m defaults a ssInit ssTerm o t σ) :
    (periodArgs y (startVec a.initial ssInit c.varNames)
      (startVec a.terminal ssTerm c.varNames) X P c.varNames.length a.T t).Says
      c.varNames c.shockNames c.paramNames σ := by
  obtain ⟨hvn, hv, hs, hps, _, _⟩ := C121_names ord so hord hso m hpl c f tr.comp
  obtain ⟨v1, v2, v3, v4⟩ := (C31_validation _ _ _ _ _ _ _ _).1 tr.valid
  have hmem : ∀ user : List (Str × ℝ), (user.map fun p => removeSuffixSS p.1).Nodup → (∀ p ∈ normalizeConditions user, p.1 ∈ c.varNames) →
      ∀ p ∈ user, removeSuffixSS p.1 ∈ c.varNames := by
    intro user hu h p hp
    refine h (removeSuffixSS p.1, p.2) ?_
    have := dupdate_fresh [] (user.map fun p => (removeSuffixSS p.1, p.2)) (by simpa [dkeys, Function.comp_def] using hu)
    have hn : normalizeConditions user = user.map fun p => (removeSuffixSS p.1, p.2) := by simpa [normalizeConditions] using this
    rw [hn]; exact List.mem_map.2 ⟨p, hp, rfl⟩
  have bi := fun i n hn v => boundary a.initial ssInit c.varNames hvn hi (hmem _ hi v1) i n hn v
  have bt := fun i n hn v => boundary a.terminal ssTerm c.varNames hvn ht (hmem _ ht v2) i n hn v
  have hlenS : ∀ p ∈ a.shocks.getD [], p.2.length = a.T := by
    intro p hp
    cases hh : a.shocks with
    | none => rw [hh] at hp; simp at hp
    | some l => rw [hh] at hp; exact (v3 l hh p hp).2
  have hP : ∀ p ∈ a.paths.getD [], p.1 ∈ c.paramNames ∧ ∀ vs, p.2 = .array vs → vs.length = a.T := by
    intro p hp
    cases hh : a.paths with
    | none => rw [hh] at hp; simp at hp
    | some l => rw [hh] at hp; exact v4 l hh p hp
  refine ⟨?_, ?_, ?_, ?_, ?_⟩
  · intro i n asm hn
    rcases hσ.vars i n asm (-1) (hcol ▸ hn) (.inl rfl) with ⟨hu, hb⟩ | ⟨t', ht', hu, hv⟩ | ⟨hu, hb⟩
    · have h0 : t = 0 := by omega
      simp only [periodArgs, if_pos h0]
      exact (bi i n hn _ hb).symm
    · have h0 : t ≠ 0 := by omega
      have : t' = t - 1 := by omega
      simp only [periodArgs, if_neg h0]
      rw [hv, htraj, this]
    · omega
  · intro i n asm hn
    rcases hσ.vars i n asm 0 (hcol ▸ hn) (.inr (.inl rfl)) with ⟨hu, hb⟩ | ⟨t', ht', hu, hv⟩ | ⟨hu, hb⟩
    · omega
    · have : t' = t := by omega
      rw [hv, htraj, this]; rfl
    · omega
  · intro i n asm hn
    rcases hσ.vars i n asm 1 (hcol ▸ hn) (.inr (.inr rfl)) with ⟨hu, hb⟩ | ⟨t', ht', hu, hv⟩ | ⟨hu, hb⟩
    · omega
    · have h0 : ¬ t = a.T - 1 := by omega
      have : t' = t + 1 := by omega
      simp only [periodArgs, if_neg h0]
      rw [hv, htraj, this]
    · have h0 : t = a.T - 1 := by omega
      simp only [periodArgs, if_pos h0]
      exact (bt i n hn _ hb).symm
  · intro i n asm hn
    obtain ⟨M, hM, h1⟩ := C31_shock_matrix a.shocks c.shockNames a.T hlenS
    have : M = X := Option.some.inj (hM.symm.trans tr.shocks)
    subst this
    obtain ⟨s, hs', rfl⟩ := List.mem_map.1 ((hs n).1 (List.mem_of_getElem? hn)).1
    have h2 := h1 i _ hn t htT
    rcases hσ.shocks s hs' asm with ⟨path, hp, hv⟩ | ⟨hno, hv⟩
    · have := h2.1 path (dget_of_mem _ hsk _ _ hp)
      rw [hv] at this
      exact Option.some.inj this
    · rw [hv]
      refine (h2.2 ?_).symm
      rw [dget_eq_none]
      intro hk
      obtain ⟨q, hq, he⟩ := List.mem_map.1 hk
      exact hno q.2 (by rw [← he]; exact hq)
  · intro i n hn
    have hin := List.mem_of_getElem? hn
    have hpn : c.paramNames.Nodup := hps.nodup hnd
    have hdef : ∀ n ∈ c.paramNames, n ∈ dkeys defaults := by
      have := tr.params
      unfold paramMatrix at this
      split at this
      · rename_i hall
        intro n hn
        exact (dget_isSome _ _).1 (List.all_eq_true.1 hall n hn)
      · cases this
    obtain ⟨M, hM, h1⟩ := C31_param_matrix a.paths c.paramNames defaults a.T hpn hdef hpk (fun p hp => (hP p hp).1) (fun p hp => (hP p hp).2)
    have : M = P := Except.ok.inj (hM.symm.trans tr.params)
    subst this
    obtain ⟨g1, g2, g3⟩ := h1 i n hn t htT
    rcases hσ.params n (hps.subset hin) with hp | ⟨vs, hp, hv⟩ | ⟨hno, hv⟩
    · exact (g1 _ (dget_of_mem _ hpk _ _ hp)).symm
    · have := g2 vs (dget_of_mem _ hpk _ _ hp)
      rw [hv] at this
      exact Option.some.inj this
    · have hnone : dget (a.paths.getD []) n = none := by
        rw [dget_eq_none]
        intro hk
        obtain ⟨q, hq, he⟩ := List.mem_map.1 hk
        exact hno q.2 (by rw [← he]; exact hq)
      have := g3 hnone
      rw [hv] at this
      exact Option.some.inj this

/-- the values of period `t` of a run are the arguments of the compiled function in that period -/
theorem argsSay (hord : ∀ l, (ord l).Perm l) (hso : ∀ l, (so l).Perm l) (hpl : m.PlainValues) (hnd : (m.params ++ m.determ).Nodup)
    (hi : (a.initial.map fun p => removeSuffixSS p.1).Nodup) (ht : (a.terminal.map fun p => removeSuffixSS p.1).Nodup)
    (hsk : (dkeys (a.shocks.getD [])).Nodup) (hpk : (dkeys (a.paths.getD [])).Nodup)
    (tr : Trace ord so m pm steady solver a o c f ssInit ssTerm x0 X P defaults) (t : Nat) (htT : t < a.T) (σ : Sym → ℝ)
    (hσ : InPeriod m defaults a ssInit ssTerm o t σ) :
    (periodArgs (flat o.result.final.x) (startVec a.initial ssInit c.varNames)
      (startVec a.terminal ssTerm c.varNames) X P c.varNames.length a.T t).Says
      c.varNames c.shockNames c.paramNames σ :=
  argsSay' hord hso hpl hnd hi ht hsk hpk tr _ (by rw [tr.out]; rfl) (fun t k => by rw [tr.out]; rfl) t htT σ hσ

/-- the reported residuals are those of the reported path -/
theorem reported (hsolver : ∀ N g, HonestStep (solver N g).1) (tr : Trace ord so m pm steady solver a o c f ssInit ssTerm x0 X P defaults)
    (i : Nat) (hi : i < a.T * c.varNames.length) :
    flat o.result.final.res i = stackedResiduals c.parts.residual (flat o.result.final.x)
      (startVec a.initial ssInit c.varNames)
      (startVec a.terminal ssTerm c.varNames) X P c.varNames.length c.varNames.length a.T i := by
  obtain ⟨_, _, _, _, _, _, _, _, _, hout⟩ := tr
  subst hout
  let g := pfMerit f (startVec a.initial ssInit c.varNames) (startVec a.terminal ssTerm c.varNames) X P c.varNames.length a.T
  have h := (C35_bounded_and_consistent _ (hsolver (a.T * c.varNames.length) g) (solver (a.T * c.varNames.length) g).2
    (pfSystem c (startVec a.initial ssInit c.varNames) (startVec a.terminal ssTerm c.varNames) X P c.varNames.length a.T)
    (fun i => x0 i) 1e-10 1e-10 1000).2.2.1
  rw [← C30_same_residuals c.parts.residual c.jacobian]
  have h2 := congrFun h ⟨i, hi⟩
  exact (flat_at _ i hi).trans h2

end PFS
open PFS

namespace PFS
variable {ord : List TSym → List TSym} {so : List (Sym × SExpr) → List (Sym × SExpr)} {m : PFModel} {pm : ParamModel ℝ}
    {steady : List (Str × ℝ) → Option (List (Str × ℝ))} {solver : SolverOf} {a : RunArgs} {o : RunOut} {c : PFCompiled} {f : PFParts}
    {ssInit ssTerm : List (Str × ℝ)} {x0 : Nat → ℝ} {X P : Nat → Nat → ℝ} {defaults : List (Str × ℝ)}

/-- a run refers to the dictionaries it has used -/
theorem refers (tr : Trace ord so m pm steady solver a o c f ssInit ssTerm x0 X P defaults) : RefersTo pm steady a o.columns defaults ssInit ssTerm := by
  have hcol : o.columns = c.varNames := by rw [tr.out]; rfl
  obtain ⟨v1, v2, v3, v4⟩ := (C31_validation _ _ _ _ _ _ _ _).1 tr.valid
  obtain ⟨first, last, hb, hd⟩ := tr.bound
  have hlen : ∀ p ∈ a.paths.getD [], ∀ vs, p.2 = .array vs → vs.length = a.T := by
    intro p hp
    cases hh : a.paths with
    | none => rw [hh] at hp; simp at hp
    | some l => rw [hh] at hp; exact (v4 l hh p hp).2
  have hT := Nat.pos_of_ne_zero tr.pos
  rw [C58_boundary_params _ a.T hT hlen] at hb
  obtain ⟨rfl, rfl⟩ : updatesAt (a.paths.getD []) 0 = first ∧ updatesAt (a.paths.getD []) (a.T - 1) = last := by
    simpa using hb
  have hall : ∀ user : List (Str × ℝ), (!(c.varNames.all fun n => n ∈ dkeys (normalizeConditions user))) = false →
      ∀ n ∈ o.columns, ∃ key v, (key, v) ∈ user ∧ Names key n := by
    intro user hu n hn
    rw [Bool.not_eq_false', List.all_eq_true] at hu
    have := hu n (hcol ▸ hn)
    rw [decide_eq_true_eq] at this
    unfold normalizeConditions at this
    rcases (mem_dkeys_dupdate _ _ _).1 this with h | h
    · simp [dkeys] at h
    · simp only [dkeys, List.map_map, List.mem_map, Function.comp] at h
      obtain ⟨p, hp, he⟩ := h
      exact ⟨p.1, p.2, hp, (removes _ _).1 he⟩
  have hdd := dicts _ _ _ _ _ _ _ _ hd
  have h0 : steady (updatesAt (a.paths.getD []) 0) = some ssInit → SteadyIn steady a 0 ssInit := fun h => ⟨_, kw_exists 0 a.T hT _ hlen, h⟩
  have h1 : steady (updatesAt (a.paths.getD []) (a.T - 1)) = some ssTerm → SteadyIn steady a (a.T - 1) ssTerm :=
    fun h => ⟨_, kw_exists (a.T - 1) a.T (by omega) _ hlen, h⟩
  refine ⟨tr.defs, ?_, ?_⟩
  · unfold DictFor
    cases hg : a.guess with
    | steady d => exact (hdd.1 d hg).1
    | none => exact h0 (hdd.2.1 hg).1
    | frame _ _ _ => exact (hdd.2.2 fun d hd => by rw [hg] at hd; cases hd).1.imp h0 (hall _)
    | array _ _ _ => exact (hdd.2.2 fun d hd => by rw [hg] at hd; cases hd).1.imp h0 (hall _)
  · unfold DictFor
    cases hg : a.guess with
    | steady d => exact (hdd.1 d hg).2
    | none => exact h1 (hdd.2.1 hg).2
    | frame _ _ _ => exact (hdd.2.2 fun d hd => by rw [hg] at hd; cases hd).2.imp h1 (hall _)
    | array _ _ _ => exact (hdd.2.2 fun d hd => by rw [hg] at hd; cases hd).2.imp h1 (hall _)

theorem inPeriod_irrelevant {d1 i1 t1 d2 i2 t2 : List (Str × ℝ)} (h1 : RefersTo pm steady a o.columns d1 i1 t1)
    (h2 : RefersTo pm steady a o.columns d2 i2 t2) {t : Nat} {σ : Sym → ℝ} (h : InPeriod m d1 a i1 t1 o t σ) : InPeriod m d2 a i2 t2 o t σ := by
  have hd : d1 = d2 := Except.ok.inj (h1.own.symm.trans h2.own)
  subst hd
  refine ⟨fun i n asm k hi hk => ?_, h.shocks, h.params, h.steady⟩
  have hn := List.mem_of_getElem? hi
  rcases h.vars i n asm k hi hk with ⟨hu, hb⟩ | hv | ⟨hu, hb⟩
  · exact .inl ⟨hu, dict_irrelevant h1.before h2.before hn hb⟩
  · exact .inr (.inl hv)
  · exact .inr (.inr ⟨hu, dict_irrelevant h1.after h2.after hn hb⟩)

theorem guess_irrelevant {columns : List Str} {d1 i1 t1 d2 i2 t2 : List (Str × ℝ)} (h1 : RefersTo pm steady a columns d1 i1 t1)
    (h2 : RefersTo pm steady a columns d2 i2 t2) {n : Str} {i t : Nat} {v : ℝ} (h : GuessValue a i2 n i t v) : GuessValue a i1 n i t v := by
  have b1 := h1.before
  have b2 := h2.before
  unfold DictFor at b1 b2
  unfold GuessValue at h ⊢
  cases hg : a.guess with
  | steady d => rw [hg] at b1 b2 h; simp only at b1 b2 h ⊢; rw [b1, ← b2]; exact h
  | none => rw [hg] at b1 b2 h; simp only at b1 b2 h ⊢; rw [steadyIn_unique b1 b2]; exact h
  | frame _ _ _ => rw [hg] at h; exact h
  | array _ _ _ => rw [hg] at h; exact h

theorem div_pos_eq {n t i : Nat} (hi : i < n) : (t * n + i) / n = t ∧ (t * n + i) % n = i := by
  have hn : 0 < n := by omega
  constructor
  · rw [Nat.mul_comm, Nat.mul_add_div hn, Nat.div_eq_of_lt hi, Nat.add_zero]
  · rw [Nat.mul_comm, Nat.mul_add_mod, Nat.mod_eq_of_lt hi]

theorem guessed {names : List Str} (h : guessVector a.guess ssInit names a.T = .ok x0) (t : Nat) (_htT : t < a.T) (i : Nat) (n : Str)
    (hn : names[i]? = some n) : GuessValue a ssInit n i t (x0 (t * names.length + i)) := by
  have hi : i < names.length := (List.getElem?_eq_some_iff.1 hn).1
  obtain ⟨e1, e2⟩ := div_pos_eq (t := t) hi
  have tile : BoundaryValue [] ssInit n (((ssToArray ssInit names)[(t * names.length + i) % names.length]?).getD 0) := by
    right
    refine ⟨by simp, ?_⟩
    rw [e2, ssToArray, List.getElem?_map, hn]
    simp only [Option.map_some, Option.getD_some]
    rw [show n ++ ssSuffix = n ++ ['_', 's', 's'] from rfl]
    cases h1 : dget ssInit (n ++ ['_', 's', 's']) with
    | some v => exact .inl rfl
    | none =>
      cases h2 : dget ssInit n with
      | some v => exact .inr ⟨rfl, .inl rfl⟩
      | none => exact .inr ⟨rfl, .inr ⟨rfl, rfl⟩⟩
  unfold guessVector at h
  unfold GuessValue
  cases hg : a.guess with
  | steady d => rw [hg] at h; cases h; exact tile
  | none => rw [hg] at h; cases h; exact tile
  | frame cols rows w =>
    rw [hg] at h
    simp only at h ⊢
    split at h
    · cases h
    split at h
    · rename_i hall
      cases h
      have hin := List.all_eq_true.1 hall n (List.mem_of_getElem? hn)
      rw [decide_eq_true_eq] at hin
      refine ⟨cols.idxOf n, ?_, ?_⟩
      · rw [List.getElem?_eq_getElem (List.idxOf_lt_length_of_mem hin), List.getElem_idxOf]
      · simp only [e1, e2, hn, Option.map_some, Option.getD_some]
    · cases h
  | array rows cols v =>
    rw [hg] at h
    simp only at h ⊢
    split at h
    · cases h
    · cases h
      simp only [e1, e2]

theorem frame_nodup {names : List Str} (h : guessVector a.guess ssInit names a.T = .ok x0) (cols : List Str) (rows : Nat) (v : Nat → Nat → ℝ)
    (hg : a.guess = .frame cols rows v) : cols.Nodup := by
  unfold guessVector at h
  rw [hg] at h
  simp only at h
  split at h
  · cases h
  · rename_i hc
    rw [not_or, not_not, not_not] at hc
    exact hc.2

theorem guess_unique {n : Str} {i t : Nat} {v w : ℝ} (hv : GuessValue a ssInit n i t v) (hw : GuessValue a ssInit n i t w)
    (hfr : ∀ cols rows z, a.guess = .frame cols rows z → cols.Nodup) : v = w := by
  have bv : ∀ {v w : ℝ}, BoundaryValue [] ssInit n v → BoundaryValue [] ssInit n w → v = w := by
    intro v w hv hw
    rcases hv with ⟨_, hv, _⟩ | ⟨_, hv⟩
    · simp at hv
    rcases hw with ⟨_, hw, _⟩ | ⟨_, hw⟩
    · simp at hw
    rcases hv with hv | ⟨hv, hv' | ⟨hv', rfl⟩⟩ <;> rcases hw with hw | ⟨hw, hw' | ⟨hw', rfl⟩⟩ <;> simp_all
  unfold GuessValue at hv hw
  cases hg : a.guess with
  | steady d => rw [hg] at hv hw; exact bv hv hw
  | none => rw [hg] at hv hw; exact bv hv hw
  | frame cols rows z =>
    rw [hg] at hv hw
    obtain ⟨j, hj, rfl⟩ := hv
    obtain ⟨k, hk, rfl⟩ := hw
    have hnd := hfr _ _ _ hg
    obtain ⟨h1, e1⟩ := List.getElem?_eq_some_iff.1 hj
    obtain ⟨h2, e2⟩ := List.getElem?_eq_some_iff.1 hk
    rw [(hnd.getElem_inj_iff (hi := h1) (hj := h2)).1 (e1.trans e2.symm)]
  | array _ _ _ => rw [hg] at hv hw; exact hv.trans hw.symm

end PFS

/-- **C132**: a perfect-foresight run that returns reports, as the residual of equation `r` in period `t`, exactly the value of the model's
equation `r` at that date: with the path of the table, the initial values one period before and the terminal values one period after it
(the user's, otherwise those of the steady state), the shocks and parameters of the date (the user's, otherwise none and the model's own). -/
theorem C132_residuals (ord so) (hord : ∀ l, (ord l).Perm l) (hso : ∀ l, (so l).Perm l) (m : PFModel) (hpl : m.PlainValues) (hsh : m.ShocksNow)
    (hnd : (m.params ++ m.determ).Nodup) (pm : ParamModel ℝ) (steady : List (Str × ℝ) → Option (List (Str × ℝ))) (solver : SolverOf)
    (hsolver : ∀ N g, HonestStep (solver N g).1) (a : RunArgs) (o : RunOut) (h : solvePF ord so m pm steady solver a = .ok o)
    (hi : (a.initial.map fun p => removeSuffixSS p.1).Nodup) (ht : (a.terminal.map fun p => removeSuffixSS p.1).Nodup)
    (hsk : (dkeys (a.shocks.getD [])).Nodup) (hpk : (dkeys (a.paths.getD [])).Nodup) :
    o.size = a.T * m.eqs.length ∧ o.columns.length = m.eqs.length ∧ (∃ defaults ssInit ssTerm, RefersTo pm steady a o.columns defaults ssInit ssTerm) ∧
    ∀ defaults ssInit ssTerm, RefersTo pm steady a o.columns defaults ssInit ssTerm → ∀ t < a.T, ∀ σ, InPeriod m defaults a ssInit ssTerm o t σ →
      ∀ (r : Nat) e, m.eqs[r]? = some e → flat o.result.final.res (t * m.eqs.length + r) = e.eval σ := by
  obtain ⟨c, f, ssInit, ssTerm, x0, X, P, defaults, tr⟩ := trace h
  have hcol : o.columns = c.varNames := by rw [tr.out]; rfl
  have hsize : o.size = a.T * c.varNames.length := by rw [tr.out]; rfl
  refine ⟨by rw [hsize, tr.square], by rw [hcol, tr.square], ⟨_, _, _, refers tr⟩, ?_⟩
  intro d2 i2 t2 h2 t htT σ hσ' r e he
  have hσ := inPeriod_irrelevant h2 (refers tr) hσ'
  have hr : r < c.varNames.length := by rw [← tr.square]; exact (List.getElem?_eq_some_iff.1 he).1
  rw [tr.square, reported hsolver tr _ (pos_lt htT hr), C30_residuals _ _ _ _ _ _ _ _ _ _ _ htT hr,
    ← PF.args_eq _ _ _ _ _ _ _ _ htT]
  exact (C121_residual ord so hord hso m c f tr.comp hsh _ σ (argsSay hord hso hpl hnd hi ht hsk hpk tr t htT σ hσ) hσ.steady r e he).1

/-- **C132**: what the verdict means. Success: at every date of the horizon every equation of the model holds up to `1e-10`, or the last step
moved the path by less than `1e-10` relative to its size. Failure: at some date some equation does not hold up to `1e-10`. -/
theorem C132_verdict (ord so) (hord : ∀ l, (ord l).Perm l) (hso : ∀ l, (so l).Perm l) (m : PFModel) (hpl : m.PlainValues) (hsh : m.ShocksNow)
    (hnd : (m.params ++ m.determ).Nodup) (pm : ParamModel ℝ) (steady : List (Str × ℝ) → Option (List (Str × ℝ))) (solver : SolverOf)
    (hsolver : ∀ N g, HonestStep (solver N g).1) (a : RunArgs) (o : RunOut) (h : solvePF ord so m pm steady solver a = .ok o)
    (hi : (a.initial.map fun p => removeSuffixSS p.1).Nodup) (ht : (a.terminal.map fun p => removeSuffixSS p.1).Nodup)
    (hsk : (dkeys (a.shocks.getD [])).Nodup) (hpk : (dkeys (a.paths.getD [])).Nodup)
    (defaults ssInit ssTerm : List (Str × ℝ)) (hr : RefersTo pm steady a o.columns defaults ssInit ssTerm) (σ : Nat → Sym → ℝ)
    (hσ : ∀ t < a.T, InPeriod m defaults a ssInit ssTerm o t (σ t)) :
    (o.result.success = true → (∀ t < a.T, ∀ e ∈ m.eqs, |e.eval (σ t)| < 1e-10) ∨
      ∃ pre before, o.result.iterates = pre ++ [o.result.final] ∧
        (pre.getLast?.map SState.x = some before ∨ (pre = [] ∧ ∀ t < a.T, ∀ (i : Nat) n, o.columns[i]? = some n →
          GuessValue a ssInit n i t (flat before (t * m.eqs.length + i)))) ∧
        maxAbs (o.result.final.x - before) < 1e-10 * (1 + maxAbs o.result.final.x)) ∧
    (o.result.success = false → ∃ t < a.T, ∃ e ∈ m.eqs, 1e-10 ≤ |e.eval (σ t)|) := by
  obtain ⟨hsz, hcl, _, key⟩ := C132_residuals ord so hord hso m hpl hsh hnd pm steady solver hsolver a o h hi ht hsk hpk
  have all : (∀ i, |o.result.final.res i| < 1e-10) ↔ ∀ t < a.T, ∀ e ∈ m.eqs, |e.eval (σ t)| < 1e-10 := by
    constructor
    · intro hall t htT e he
      obtain ⟨r, hr'⟩ := List.getElem?_of_mem he
      have := key _ _ _ hr t htT (σ t) (hσ t htT) r e hr'
      have hlt : t * m.eqs.length + r < o.size := by
        rw [hsz]; exact pos_lt htT (List.getElem?_eq_some_iff.1 hr').1
      rw [← this, flat_at _ _ hlt]; exact hall _
    · intro hall i
      have hi' : i.1 < a.T * m.eqs.length := by rw [← hsz]; exact i.2
      have hpos : 0 < m.eqs.length := Nat.pos_of_ne_zero (by intro h0; rw [h0] at hi'; simp at hi')
      have h1 : i.1 / m.eqs.length < a.T := Nat.div_lt_of_lt_mul (by rw [Nat.mul_comm]; exact hi')
      have h2 : i.1 % m.eqs.length < m.eqs.length := Nat.mod_lt _ hpos
      have := key _ _ _ hr _ h1 (σ _) (hσ _ h1) _ _ (List.getElem?_eq_getElem h2)
      rw [show i.1 / m.eqs.length * m.eqs.length + i.1 % m.eqs.length = i.1 by rw [Nat.mul_comm]; exact Nat.div_add_mod _ _,
        flat_at _ _ i.2] at this
      rw [show o.result.final.res i = o.result.final.res ⟨i.1, i.2⟩ from rfl, this]
      exact hall _ h1 _ (List.getElem_mem _)
  obtain ⟨c, f, si, st, x0, X, P, df, tr⟩ := trace h
  have href := refers tr
  obtain ⟨_, _, hguess, _, _, _, _, hsqr, _, hout⟩ := tr
  subst hout
  have hstart : ∀ t < a.T, ∀ i < c.varNames.length, ∀ n, c.varNames[i]? = some n → GuessValue a ssInit n i t (x0 (t * c.varNames.length + i)) := by
    intro t htT i hil n hn
    refine guess_irrelevant hr href (guessed hguess t htT i n hn)
  let g := pfMerit f (startVec a.initial si c.varNames) (startVec a.terminal st c.varNames) X P c.varNames.length a.T
  have hv := C35_success _ (hsolver (a.T * c.varNames.length) g) (solver (a.T * c.varNames.length) g).2
    (pfSystem c (startVec a.initial si c.varNames) (startVec a.terminal st c.varNames) X P c.varNames.length a.T)
    (fun i => x0 i) 1e-10 1e-10 (by norm_num) 1000
  have hc := (C35_bounded_and_consistent _ (hsolver (a.T * c.varNames.length) g) (solver (a.T * c.varNames.length) g).2
    (pfSystem c (startVec a.initial si c.varNames) (startVec a.terminal st c.varNames) X P c.varNames.length a.T)
    (fun i => x0 i) 1e-10 1e-10 1000).2.2.1
  dsimp only at hv
  rw [← hc] at hv
  refine ⟨fun hs => ?_, fun hs => ?_⟩
  · rcases hv.1 hs with h1 | ⟨pre, s, h1, h2⟩
    · exact .inl (all.1 h1)
    · right
      cases pre with
      | nil =>
        injection h1 with h1 h3
        refine ⟨[], s.x, h3, .inr ⟨rfl, ?_⟩, h2⟩
        intro t htT i n hn
        have hil : i < c.varNames.length := (List.getElem?_eq_some_iff.1 hn).1
        rw [hsqr, ← h1]
        refine Eq.mp (congrArg _ (Eq.symm ?_)) (hstart t htT i hil n hn)
        exact dif_pos (pos_lt htT hil)
      | cons p pre =>
        injection h1 with h1 h3
        refine ⟨pre ++ [s], s.x, h3.trans (List.append_assoc pre [s] [_]).symm, .inl (congrArg (Option.map SState.x) List.getLast?_concat), h2⟩
  · have := hv.2 hs
    by_contra hno
    push Not at hno
    exact this (all.2 hno)

/-- the economy of period `t` of a run: its path around the date, the shocks, parameters and steady-state values of the date. Anything the
equations do not speak about is left open. -/
structure RunPath (m : PFModel) (defaults : List (Str × ℝ)) (a : RunArgs) (ssInit ssTerm : List (Str × ℝ)) (o : RunOut) (t : Nat) (R : RealPath) :
    Prop where
  vars : ∀ (i : Nat) n asm (u : Int), o.columns[i]? = some n → t - 1 ≤ u → u ≤ t + 1 → OnPath a ssInit ssTerm o i n u (R.path n asm u)
  shocks : ∀ s ∈ m.shocks, ∀ asm, ShockValue (a.shocks.getD []) s.base t (R.path s.base asm t)
  params : ∀ n ∈ m.params ++ m.determ, ParamValue (a.paths.getD []) defaults n t (R.par n)
  steady : ∀ p ∈ m.ssDict, ∀ n asm, symName (safeToSS p.1) = createName ⟨n, .ss, asm⟩ → R.ss n asm = p.2.val R t

theorem PFS.inPeriod {m : PFModel} {defaults : List (Str × ℝ)} {a : RunArgs} {ssInit ssTerm : List (Str × ℝ)} {o : RunOut} {t : Nat} {R : RealPath}
    (h : RunPath m defaults a ssInit ssTerm o t R) : InPeriod m defaults a ssInit ssTerm o t (R.val.symAt t) := by
  refine ⟨fun i n asm k hn hk => h.vars i n asm (t + k) hn (by omega) (by omega), fun s hs asm => ?_, h.params, fun p hp x hx he => ?_⟩
  · have := h.shocks s hs asm
    rwa [show R.val.symAt t (.tv ⟨s.base, .t 0, asm⟩) = R.path s.base asm t by
      show R.path s.base asm (t + 0) = _; rw [Int.add_zero]]
  · obtain ⟨n, idx, asm⟩ := x
    simp only at hx
    subst hx
    rw [Rsp.eval_symAt]
    exact h.steady p hp n asm he

/-- **C132, the whole way**: a GCN file is read and its blocks become a model; the model is run under perfect foresight. Every equation of the
file has a row of the reported residuals, the same at every date, which is its violation at that date: right minus left side as written, on
the path of the run with the definitions of the blocks holding (and the auxiliary variables for deeper lags and leads being those). If the run reports success, every equation of the file as written holds at
every date up to `1e-10`, unless the last step was negligible. -/
theorem C132_written (text : List Char) (ts : List Tok) (f : Gcn.GFile) (P : Primitives) (hs : SpellsToks text ts) (hf : Gcn.IsFile ts f)
    (hl : Gcn.LoadGcn text P) (hd : f.DistinctNames)
    (ord so) (hord : ∀ l, (ord l).Perm l) (hso : ∀ l, (so l).Perm l) (m : PFModel) (hm : m.eqs = P.equations) (hpl : m.PlainValues)
    (hsh : m.ShocksNow) (hnd : (m.params ++ m.determ).Nodup) (pm : ParamModel ℝ) (steady : List (Str × ℝ) → Option (List (Str × ℝ)))
    (solver : SolverOf) (hsolver : ∀ N g, HonestStep (solver N g).1) (a : RunArgs) (o : RunOut)
    (h : solvePF ord so m pm steady solver a = .ok o)
    (hi : (a.initial.map fun p => removeSuffixSS p.1).Nodup) (ht : (a.terminal.map fun p => removeSuffixSS p.1).Nodup)
    (hsk : (dkeys (a.shocks.getD [])).Nodup) (hpk : (dkeys (a.paths.getD [])).Nodup)
    (defaults ssInit ssTerm : List (Str × ℝ)) (hr : RefersTo pm steady a o.columns defaults ssInit ssTerm)
    (R : Nat → RealPath) (hR : ∀ t < a.T, RunPath m defaults a ssInit ssTerm o t (R t)) (hdef : ∀ t < a.T, f.DefinitionsHold (R t))
    (hshift : ∀ t < a.T, f.ShiftsHold (R t)) :
    (∀ b, f.IsModelBlock b → ∀ e ∈ b.stated, ∃ r < m.eqs.length, ∀ t < a.T,
      flat o.result.final.res (t * m.eqs.length + r) = - Gcn.writtenGap f e (R t) t) ∧
    (o.result.success = true → (∀ b, f.IsModelBlock b → ∀ e ∈ b.stated, ∀ t < a.T, |Gcn.writtenGap f e (R t) t| < 1e-10) ∨
      ∃ pre before, o.result.iterates = pre ++ [o.result.final] ∧
        (pre.getLast?.map SState.x = some before ∨ (pre = [] ∧ ∀ t < a.T, ∀ (i : Nat) n, o.columns[i]? = some n →
          GuessValue a ssInit n i t (flat before (t * m.eqs.length + i)))) ∧
        maxAbs (o.result.final.x - before) < 1e-10 * (1 + maxAbs o.result.final.x)) := by
  obtain ⟨_, _, _, key⟩ := C132_residuals ord so hord hso m hpl hsh hnd pm steady solver hsolver a o h hi ht hsk hpk
  have verdict := C132_verdict ord so hord hso m hpl hsh hnd pm steady solver hsolver a o h hi ht hsk hpk defaults ssInit ssTerm hr
    (fun t => (R t).val.symAt t) fun t htT => inPeriod (hR t htT)
  have gap : ∀ b, f.IsModelBlock b → ∀ e ∈ b.stated, ∃ q ∈ m.eqs, ∀ t < a.T, q.eval ((R t).val.symAt t) = - Gcn.writtenGap f e (R t) t := by
    intro b hb e he
    obtain ⟨q, hq, hval⟩ := Rsp.written_gaps hs hf hl hd b hb e he
    refine ⟨q, by rw [hm]; exact hq, fun t htT => ?_⟩
    rw [Rsp.eval_symAt, hval (R t) (hshift t htT) (hdef t htT) t]
  refine ⟨fun b hb e he => ?_, fun hsu => ?_⟩
  · obtain ⟨q, hq, hv⟩ := gap b hb e he
    obtain ⟨r, hr'⟩ := List.getElem?_of_mem hq
    refine ⟨r, (List.getElem?_eq_some_iff.1 hr').1, fun t htT => ?_⟩
    rw [key _ _ _ hr t htT _ (inPeriod (hR t htT)) r q hr', hv t htT]
  · refine (verdict.1 hsu).imp (fun hall b hb e he t htT => ?_) id
    obtain ⟨q, hq, hv⟩ := gap b hb e he
    have := hall t htT q hq
    rwa [hv t htT, abs_neg] at this

/-- **C132**: with the default solver the reported path is never worse than the initial guess: the sum of squared violations does not grow
from one iterate to the next. -/
theorem C132_default_improves (ord so) (m : PFModel) (pm : ParamModel ℝ) (steady : List (Str × ℝ) → Option (List (Str × ℝ)))
    (lin : ∀ N : Nat, Matrix (Fin N) (Fin N) ℝ → (Fin N → ℝ) → Option (Fin N → ℝ)) (a : RunArgs) (o : RunOut)
    (h : solvePF ord so m pm steady (defaultSolver lin) a = .ok o) (defaults ssInit ssTerm : List (Str × ℝ))
    (hr : RefersTo pm steady a o.columns defaults ssInit ssTerm) :
    ∃ start : SState o.size o.size, (∀ t < a.T, ∀ (i : Nat) n, o.columns[i]? = some n →
        GuessValue a ssInit n i t (flat start.x (t * o.columns.length + i))) ∧ o.result.final = o.result.iterates.getLastD start ∧
      (start :: o.result.iterates).Pairwise fun s s' => merit s'.res ≤ merit s.res := by
  obtain ⟨c, f, si, st, x0, X, P, df, tr⟩ := trace h
  have href := refers tr
  have hcomp := tr.comp
  obtain ⟨_, _, hguess, _, _, _, _, hsqr, _, hout⟩ := tr
  subst hout
  obtain ⟨rfl, _⟩ := PFC.compile_ok ord so m c f hcomp
  let F := pfSystem c (startVec a.initial si c.varNames) (startVec a.terminal st c.varNames) X P c.varNames.length a.T
  let g := pfMerit c.parts (startVec a.initial si c.varNames) (startVec a.terminal st c.varNames) X P c.varNames.length a.T
  let cfg : LineSearchCfg (a.T * c.varNames.length) (a.T * c.varNames.length) := { c1 := 1e-4, beta := 0.5, maxIter := 50, meritFun := some g }
  have hmerit : SRoot.ConsistentMerit cfg F := by
    intro g' hg' x
    have : g = g' := Option.some.inj hg'
    subst this
    funext i
    show stackedResiduals _ _ _ _ _ _ _ _ _ _ = _
    rw [← C30_same_residuals c.parts.residual c.jacobian]
    rfl
  have hmono := (C32_monotone () (fun _ s => ((), newtonDirection (lin _) s)) cfg F (fun _ s => (C32_directions (lin _) 0).1 s) (by norm_num [cfg])
    (by norm_num [cfg]) hmerit () (fun i => x0 i) 1e-10 1e-10 1000).1
  have hS := (C35_solvers (m := a.T * c.varNames.length) (n := a.T * c.varNames.length)).1 () (fun _ s => ((), newtonDirection (lin _) s)) cfg
  have hfin := (C35_bounded_and_consistent _ hS () F (fun i => x0 i) 1e-10 1e-10 1000).2.1
  have hcons : ∀ s ∈ startState F (fun i => x0 i) :: (rootFind (armijoSolver () (fun _ s => ((), newtonDirection (lin _) s)) cfg) () F (fun i => x0 i)
      1e-10 1e-10 1000).2.iterates, s.res = (F s.x).1 := by
    intro s hs
    rcases List.mem_cons.1 hs with rfl | hs
    · rfl
    · unfold rootFind at hs
      dsimp only at hs
      split at hs
      · cases hs
      · exact ((SRoot.loop_spec _ hS F 1e-10 1e-10 1000 _ _ _).cons s hs).1
  refine ⟨startState F fun i => x0 i, fun t htT i n hn => ?_, hfin, ?_⟩
  · have hil : i < c.varNames.length := (List.getElem?_eq_some_iff.1 hn).1
    refine Eq.mp (congrArg _ (Eq.symm ?_)) (guess_irrelevant hr href (guessed hguess t htT i n hn))
    exact dif_pos (pos_lt htT hil)
  · have hx : ((fun i : Fin (a.T * c.varNames.length) => x0 i) :: (rootFind (armijoSolver () (fun _ s => ((), newtonDirection (lin _) s)) cfg) () F (fun i => x0 i)
        1e-10 1e-10 1000).2.iterates.map SState.x) = (startState F (fun i => x0 i) :: (rootFind (armijoSolver ()
        (fun _ s => ((), newtonDirection (lin _) s)) cfg) () F (fun i => x0 i) 1e-10 1e-10 1000).2.iterates).map SState.x := rfl
    rw [hx, List.pairwise_map] at hmono
    refine hmono.imp_of_mem ?_
    intro s s' hs hs' hle
    rw [hcons s hs, hcons s' hs']; exact hle

/-- **C132**: a guess which already solves the model comes back unchanged: if every equation holds up to `1e-10` at every date on the path of the
guess, the run reports success after no iteration and its table is the guess. In particular an economy in its steady state stays there. -/
theorem C132_solved_guess (ord so) (hord : ∀ l, (ord l).Perm l) (hso : ∀ l, (so l).Perm l) (m : PFModel) (hpl : m.PlainValues) (hsh : m.ShocksNow)
    (hnd : (m.params ++ m.determ).Nodup) (pm : ParamModel ℝ) (steady : List (Str × ℝ) → Option (List (Str × ℝ))) (solver : SolverOf)
    (a : RunArgs) (o : RunOut) (h : solvePF ord so m pm steady solver a = .ok o)
    (hi : (a.initial.map fun p => removeSuffixSS p.1).Nodup) (ht : (a.terminal.map fun p => removeSuffixSS p.1).Nodup)
    (hsk : (dkeys (a.shocks.getD [])).Nodup) (hpk : (dkeys (a.paths.getD [])).Nodup)
    (defaults ssInit ssTerm : List (Str × ℝ)) (hr : RefersTo pm steady a o.columns defaults ssInit ssTerm) (G : Nat → Nat → ℝ)
    (hG : ∀ t < a.T, ∀ (i : Nat) n, o.columns[i]? = some n → GuessValue a ssInit n i t (G t i)) (σ : Nat → Sym → ℝ)
    (hσ : ∀ t < a.T, InPeriod m defaults a ssInit ssTerm { o with trajectory := G } t (σ t)) (hz : ∀ t < a.T, ∀ e ∈ m.eqs, |e.eval (σ t)| < 1e-10) :
    o.result.success = true ∧ o.result.final.nit = 0 ∧ ∀ t < a.T, ∀ i < o.columns.length, o.trajectory t i = G t i := by
  obtain ⟨c, f, si, st, x0, X, P, df, tr⟩ := trace h
  have href := refers tr
  have hcol : o.columns = c.varNames := by rw [tr.out]; rfl
  have hx0 : ∀ t < a.T, ∀ (i : Nat) n, c.varNames[i]? = some n → G t i = x0 (t * c.varNames.length + i) := by
    intro t htT i n hn
    exact guess_unique (hG t htT i n (hcol ▸ hn)) (guess_irrelevant hr href (guessed tr.guess t htT i n hn)) (frame_nodup tr.guess)
  let F := pfSystem c (startVec a.initial si c.varNames) (startVec a.terminal st c.varNames) X P c.varNames.length a.T
  -- the guess as an output
  let o' : RunOut := { o with trajectory := fun t k => x0 (t * c.varNames.length + k) }
  have hσ' : ∀ t < a.T, InPeriod m df a si st o' t (σ t) := by
    intro t htT
    have h1 : InPeriod m defaults a ssInit ssTerm o' t (σ t) := by
      refine ⟨fun i n asm k hn hk => ?_, (hσ t htT).shocks, (hσ t htT).params, (hσ t htT).steady⟩
      rcases (hσ t htT).vars i n asm k hn hk with hb | ⟨t', ht', hu, hv⟩ | hb
      · exact .inl hb
      · exact .inr (.inl ⟨t', ht', hu, by rw [hv]; exact hx0 t' ht' i n (by rw [← hcol]; exact hn)⟩)
      · exact .inr (.inr hb)
    exact inPeriod_irrelevant (o := o') hr href h1
  have hres : ∀ i, |(F fun i => x0 i).1 i| < 1e-10 := by
    intro i
    have hpos : 0 < c.varNames.length := Nat.pos_of_ne_zero (by
      intro h0; have h9 : i.1 < a.T * c.varNames.length := i.2; simp [h0] at h9)
    have h1 : i.1 / c.varNames.length < a.T := Nat.div_lt_of_lt_mul (Nat.lt_of_lt_of_eq i.2 (Nat.mul_comm _ _))
    have h2 : i.1 % c.varNames.length < c.varNames.length := Nat.mod_lt _ hpos
    have h3 : i.1 / c.varNames.length * c.varNames.length + i.1 % c.varNames.length = i.1 := by rw [Nat.mul_comm]; exact Nat.div_add_mod _ _
    have h4 : (F fun i => x0 i).1 i = stackedResiduals c.parts.residual (flat fun i : Fin (a.T * c.varNames.length) => x0 i) (startVec a.initial si c.varNames)
        (startVec a.terminal st c.varNames) X P c.varNames.length c.varNames.length a.T i.1 := by
      rw [← C30_same_residuals c.parts.residual c.jacobian]; rfl
    have h5 : m.eqs[i.1 % c.varNames.length]? = some (m.eqs[i.1 % c.varNames.length]'(by rw [tr.square]; exact h2)) :=
      List.getElem?_eq_getElem _
    have h6 := (C121_residual ord so hord hso m c f tr.comp hsh _ _ (argsSay' hord hso hpl hnd hi ht hsk hpk tr x0 (o := o') hcol (fun _ _ => rfl)
      _ h1 _ (hσ' _ h1)) (hσ' _ h1).steady _ _ h5).1
    rw [h4, ← h3, C30_residuals _ _ _ _ _ _ _ _ _ _ _ h1 h2, ← PF.args_eq _ _ _ _ _ _ _ _ h1]
    have h7 : c.parts.residual (periodArgs (flat fun i : Fin (a.T * c.varNames.length) => x0 i) (startVec a.initial si c.varNames)
        (startVec a.terminal st c.varNames) X P c.varNames.length a.T (i.1 / c.varNames.length)) = c.parts.residual (periodArgs x0
        (startVec a.initial si c.varNames) (startVec a.terminal st c.varNames) X P c.varNames.length a.T (i.1 / c.varNames.length)) := by
      have hf : f = c.parts := (PFC.compile_ok ord so m c f tr.comp).1
      have := PFC.reads_only ord so m c f tr.comp
      rw [hf] at this
      refine this _ _ (fun k hk => ?_) rfl rfl
      have hx : ∀ t < a.T, flat (fun i : Fin (a.T * c.varNames.length) => x0 i) (t * c.varNames.length + k) = x0 (t * c.varNames.length + k) :=
        fun t ht => flat_at _ _ (pos_lt ht hk)
      refine ⟨?_, hx _ h1, ?_⟩
      · unfold periodArgs
        simp only
        split
        · rfl
        · exact hx _ (Nat.lt_of_le_of_lt (Nat.sub_le _ _) h1)
      · unfold periodArgs
        simp only
        split
        · rfl
        · rename_i hne
          exact hx _ (by clear * - h1 hne; generalize i.1 / c.varNames.length = q at *; omega)
    rw [h7, h6]
    exact hz _ h1 _ (List.getElem_mem _)
  have hfind : ∀ (S : RootSolver (a.T * c.varNames.length) (a.T * c.varNames.length)) (s : S.σ), (rootFind S s F (fun i => x0 i) 1e-10 1e-10 1000).2 =
      { final := startState F fun i => x0 i, success := true, last := none, iterates := [] } := by
    intro S s
    have : maxAbs (startState F fun i => x0 i).res < 1e-10 := (maxAbs_lt _ _ (by norm_num)).2 hres
    unfold rootFind
    simp only
    rw [if_pos this]
  let g := pfMerit f (startVec a.initial si c.varNames) (startVec a.terminal st c.varNames) X P c.varNames.length a.T
  have hrun := hfind (solver (a.T * c.varNames.length) g).1 (solver (a.T * c.varNames.length) g).2
  have hout := tr.out
  clear_value o'
  clear hσ'
  subst hout
  refine ⟨?_, ?_, fun t htT i hi => ?_⟩
  · exact congrArg (·.success) hrun
  · exact congrArg (·.final.nit) hrun
  · have h1 : flat (startState F fun i => x0 i).x (t * c.varNames.length + i) = x0 (t * c.varNames.length + i) := flat_at _ _ (pos_lt htT hi)
    rw [hx0 t htT i _ (List.getElem?_eq_getElem hi), ← h1]
    exact congrArg (fun r : RootResult _ _ => flat r.final.x (t * c.varNames.length + i)) hrun

namespace PFS
open Rsp

/-- the model of the file `rsText`, `x[] = 2 + 0.5*x[-1] + e[]*x[-1]` -/
def rsM : PFModel := { eqs := [rsQ], shocks := [rsE], params := [], determ := [], ssDict := [] }

/-- its parameters: none -/
noncomputable def rsPm : ParamModel ℝ := ⟨[], []⟩

theorem rs_atoms : rsM.atoms = [rsX.atT (-1), rsE, rsX.atT (-1), rsX] := by rfl

theorem rs_plain : rsM.PlainValues := by intro p hp; cases hp

theorem rs_now : rsM.ShocksNow := by
  intro x hx hb k hk
  rw [rs_atoms] at hx
  simp only [List.mem_cons, List.not_mem_nil, or_false] at hx
  simp only [rsM, List.map_cons, List.map_nil, List.mem_singleton] at hb
  rcases hx with rfl | rfl | rfl | rfl
  · exact absurd hb (by decide)
  · exact (TIdx.t.inj hk).symm
  · exact absurd hb (by decide)
  · exact absurd hb (by decide)

theorem rs_compiles : ∃ c f, compileProblem id id rsM = .ok (c, f) ∧ c.varNames = ["x".toList] ∧ c.shockNames = ["e".toList] ∧ c.paramNames = [] := by
  have h : ∃ cf, compileProblem id id rsM = .ok cf := by
    refine (C121_compiles id id (fun _ => .refl _) (fun _ => .refl _) rsM rs_plain (by decide)).2 ⟨by simp [rsM], ?_, ?_⟩
    · intro e he x hx
      have hx' : x ∈ rsM.atoms := List.mem_flatMap.2 ⟨e, List.mem_append_left _ he, hx⟩
      have hX : ∃ e' ∈ rsM.eqs, ∃ y ∈ e'.tsyms, y.base = "x".toList ∧ y.idx = .t 0 := ⟨rsQ, List.mem_cons_self .., rsX, by decide, rfl, rfl⟩
      rw [rs_atoms] at hx'
      simp only [List.mem_cons, List.not_mem_nil, or_false] at hx'
      rcases hx' with rfl | rfl | rfl | rfl
      · exact .inr ⟨.inl rfl, .inr hX⟩
      · exact .inr ⟨.inr (.inl rfl), .inl (by simp [rsM])⟩
      · exact .inr ⟨.inl rfl, .inr hX⟩
      · exact .inr ⟨.inr (.inl rfl), .inr hX⟩
    · intro e he k hk
      simp only [rsM, List.mem_singleton] at he
      subst he
      simp [rsQ, SExpr.syms] at hk
  obtain ⟨⟨c, f⟩, h⟩ := h
  obtain ⟨hf, hp, hv, hs, hk⟩ := PFC.compile_ok _ _ _ c f h
  have hparts : pfParts id id rsM = .ok ⟨[rsQ], ⟨[rsX.atT (-1)], [rsX], [], [rsE]⟩, []⟩ := by rfl
  rw [hp] at hparts
  have hpe := Except.ok.inj hparts
  refine ⟨c, f, h, by rw [hv, hpe]; rfl, by rw [hs, hpe]; rfl, ?_⟩
  rw [hk.1, hpe]

/-- four periods from `x = 6` with a shock in the first period -/
noncomputable def rsRun : RunArgs := { T := 4, initial := [("x_ss".toList, 6)], shocks := some [("e".toList, [1/4, 0, 0, 0])] }

theorem rs_columns {solver : SolverOf} {a : RunArgs} {o : RunOut} {steady} (h : solvePF id id rsM rsPm steady solver a = .ok o) :
    o.columns = ["x".toList] := by
  obtain ⟨c, f, hc, hv, -⟩ := rs_compiles
  obtain ⟨c', f', si, st, x0, X, P, df, tr⟩ := trace h
  have : c' = c := congrArg Prod.fst (Except.ok.inj (tr.comp.symm.trans hc))
  rw [tr.out, ← hv, ← this]; rfl

theorem rs_runs (solver : SolverOf) : ∃ o, solvePF id id rsM rsPm (fun _ => some rsSS) solver rsRun = .ok o := by
  obtain ⟨c, f, hc, hv, hs, hp⟩ := rs_compiles
  have hn : normalizeConditions ([("x_ss".toList, 6)] : List (Str × ℝ)) = [("x".toList, 6)] := by
    simp [normalizeConditions, removeSuffixSS, ssSuffix, dupdate, dset, List.isSuffixOf]
  have hn0 : normalizeConditions ([] : List (Str × ℝ)) = [] := rfl
  unfold solvePF rsRun
  simp only [hc, Option.getD_none, boundaryParams, List.foldr_nil, steadyDicts, computeSS, guessVector, hn, hn0, hv, hs, hp]
  simp [validatePF, dkeys, shockMatrix, dget, rsPm, ParamModel.parameters, dupdate, paramMatrix, paramLoop, rsM]

/-- the path of such a run: 6 before, the table, the steady state 4 afterwards; the shock hits at date 0 -/
noncomputable def rsPath (a : RunArgs) (o : RunOut) (x0 : ℝ) (e : List ℝ) : RealPath where
  par _ := 0
  path n _ u := if n = "x".toList then (if u = -1 then x0 else if u < a.T then o.trajectory u.toNat 0 else 4) else (e[u.toNat]?).getD 0
  ss _ _ := 0

theorem rs_onpath {o : RunOut} (ho : o.columns = ["x".toList]) (t : Nat) (ht : t < 4) :
    RunPath rsM [] rsRun rsSS rsSS o t (rsPath rsRun o 6 [1/4, 0, 0, 0]) := by
  refine ⟨fun i n asm u hi h1 h2 => ?_, fun s hs asm => ?_, fun n hn => (by cases hn), fun p hp => (by cases hp)⟩
  · rw [ho] at hi
    have hi0 : i = 0 := by have := (List.getElem?_eq_some_iff.1 hi).1; simpa using this
    subst hi0
    have hn : n = "x".toList := (Option.some.inj hi).symm
    subst hn
    have hT : (rsRun.T : Int) = 4 := rfl
    simp only [rsPath, if_true]
    unfold OnPath
    rw [hT]
    by_cases hu : u = -1
    · rw [if_pos hu]
      exact .inl ⟨hu, .inl ⟨"x_ss".toList, by simp [rsRun], .inl rfl⟩⟩
    · rw [if_neg hu]
      by_cases hu4 : u < 4
      · rw [if_pos hu4]
        exact .inr (.inl ⟨u.toNat, by show u.toNat < 4; omega, by omega, rfl⟩)
      · rw [if_neg hu4]
        exact .inr (.inr ⟨by omega, .inr ⟨fun key w hk => (by cases hk), .inl (by simp [rsSS, dget])⟩⟩)
  · simp only [rsM, List.mem_singleton] at hs
    subst hs
    refine .inl ⟨[1/4, 0, 0, 0], by simp [rsRun, rsE], ?_⟩
    have : ¬ rsE.base = "x".toList := by decide
    simp only [rsPath, if_neg this, Int.toNat_natCast]
    rw [List.getElem?_eq_getElem (by simpa using ht)]; rfl

end PFS
open PFS Rsp

/-- the hypotheses are met: the file `x[] = 2 + 0.5*x[-1] + e[]*x[-1]` is read and run over four periods from `x = 6`, ending in the steady
state `x = 4`, with any sparse solver. The reported residual of each date is the violation of the equation as written there. -/
example (lin : ∀ N : Nat, Matrix (Fin N) (Fin N) ℝ → (Fin N → ℝ) → Option (Fin N → ℝ)) : ∃ P o, Gcn.LoadGcn rsText P ∧
    solvePF id id rsM rsPm (fun _ => some rsSS) (defaultSolver lin) rsRun = .ok o ∧
    (∀ t < 4, flat o.result.final.res t = - Gcn.writtenGap rsFile rsEq (rsPath rsRun o 6 [1/4, 0, 0, 0]) t) := by
  obtain ⟨P, hl, h1, h2, h3⟩ := rs_load
  obtain ⟨o, ho⟩ := rs_runs (defaultSolver lin)
  refine ⟨P, o, hl, ho, fun t ht => ?_⟩
  obtain ⟨r, hr, h⟩ := (C132_written rsText rsToks rsFile P rs_spells rs_file hl (by simp [Gcn.GFile.DistinctNames, rsFile])
    id id (fun _ => .refl _) (fun _ => .refl _) rsM h1.symm rs_plain rs_now (by decide) rsPm (fun _ => some rsSS) (defaultSolver lin)
    (fun N g => C35_solvers.1 _ _ _) rsRun o ho (by simp [rsRun]) (by simp [rsRun]) (by simp [rsRun, dkeys]) (by simp [rsRun, dkeys]) [] rsSS rsSS
    ⟨rfl, ⟨[], .nil, rfl⟩, ⟨[], .nil, rfl⟩⟩ (fun _ => rsPath rsRun o 6 [1/4, 0, 0, 0]) (fun t ht => rs_onpath (rs_columns ho) t ht)
    (by
      intro t ht b hb e he
      cases rs_block b hb
      cases he) (fun t ht => rs_shifts _)).1 rsBlock rs_model rsEq (by simp [Gcn.GBlock.stated, rsBlock])
  have hr0 : r = 0 := by simpa [rsM] using hr
  have := h t ht
  subst hr0
  simpa [rsM] using this

/-- the economy in its steady state `x = 4` stays there: no iteration, every entry of the table is 4 -/
example (solver : SolverOf) : ∃ o, solvePF id id rsM rsPm (fun _ => some rsSS) solver { T := 10 } = .ok o ∧ o.result.success = true ∧
    ∀ t < 10, o.trajectory t 0 = 4 := by
  have hrun : ∃ o, solvePF id id rsM rsPm (fun _ => some rsSS) solver { T := 10 } = .ok o := by
    obtain ⟨c, f, hc, hv, hs, hp⟩ := rs_compiles
    have hn0 : normalizeConditions ([] : List (Str × ℝ)) = [] := rfl
    unfold solvePF
    simp only [hc, Option.getD_none, boundaryParams, List.foldr_nil, steadyDicts, computeSS, guessVector, hn0, hv, hs, hp]
    simp [validatePF, dkeys, shockMatrix, dget, rsPm, ParamModel.parameters, dupdate, paramMatrix, paramLoop, rsM]
  obtain ⟨o, ho⟩ := hrun
  have hcol := rs_columns ho
  have hx : ∀ n, n = "x".toList → BoundaryValue [] rsSS n 4 := by
    rintro n rfl
    exact .inr ⟨fun key w hk => (by cases hk), .inl (by simp [rsSS, dget])⟩
  have hname : ∀ (i : Nat) n, o.columns[i]? = some n → n = "x".toList := by
    intro i n hi
    rw [hcol] at hi
    have := List.mem_of_getElem? hi
    simpa using this
  have key := C132_solved_guess id id (fun _ => .refl _) (fun _ => .refl _) rsM rs_plain rs_now (by decide) rsPm (fun _ => some rsSS) solver { T := 10 } o ho
    (by simp) (by simp) (by simp [dkeys]) (by simp [dkeys]) [] rsSS rsSS ⟨rfl, ⟨[], .nil, rfl⟩, ⟨[], .nil, rfl⟩⟩ (fun _ _ => 4)
    (fun t ht i n hi => hx n (hname i n hi)) (fun _ s => match s with | .tv x => if x.base = "e".toList then 0 else 4 | _ => 0)
    (by
      intro t ht
      refine ⟨fun i n asm k hi hk => ?_, fun s hs asm => ?_, fun n hn => (by cases hn), fun p hp => (by cases hp)⟩
      · have hn := hname i n hi
        subst hn
        simp only
        rw [if_neg (by decide)]
        by_cases h1 : (t : Int) + k = -1
        · exact .inl ⟨h1, hx _ rfl⟩
        · by_cases h2 : (t : Int) + k = 10
          · exact .inr (.inr ⟨h2, hx _ rfl⟩)
          · refine .inr (.inl ⟨((t : Int) + k).toNat, ?_, by omega, rfl⟩)
            show ((t : Int) + k).toNat < 10
            have : t < 10 := ht
            omega
      · simp only [rsM, List.mem_singleton] at hs
        subst hs
        exact .inr ⟨fun p hp => (by cases hp), if_pos rfl⟩)
    (by
      intro t ht e he
      simp only [rsM, List.mem_singleton] at he
      subst he
      have h1 : (if (rsX.atT (-1)).base = "e".toList then (0 : ℝ) else 4) = 4 := if_neg (by decide)
      have h2 : (if rsX.base = "e".toList then (0 : ℝ) else 4) = 4 := if_neg (by decide)
      have h3 : (if rsE.base = "e".toList then (0 : ℝ) else 4) = 0 := if_pos rfl
      simp only [rsQ, SExpr.eval, h1, h2, h3]
      norm_num)
  exact ⟨o, ho, key.1, fun t ht => key.2.2 t ht 0 (by simp [hcol])⟩

/-! ## C58: the types of the numbers -/

namespace PFS

theorem dget_val (d : List (Str × PyNumber)) (n : Str) : dget (d.map fun p => (p.1, p.2.val)) n = (dget d n).map PyNumber.val := by
  induction d with
  | nil => rfl
  | cons p d ih =>
    simp only [List.map_cons, dget]
    split
    · rfl
    · exact ih

theorem int_or_val {l : List PyNumber} {v : PyNumber} (h : allInts l = false ∨ ∃ z, v = .int z) : (if allInts l then v.truncate else v.val) = v.val := by
  rcases h with h | ⟨z, rfl⟩
  · rw [h]; rfl
  · split <;> rfl

end PFS

/-- **C58**, with the types of the numbers: if one of the steady-state values is a float, or every condition the user states is a Python
integer, or the user states every variable, the boundary vector is the one of `C58_boundary`. -/
theorem C58_types_partial (conds ss : List (Str × PyNumber)) (names : List Str)
    (h : (∃ n ∈ names, ∃ x, (dget ss (n ++ ['_', 's', 's'])).or (dget ss n) = some (.float x) ∨ (dget ss (n ++ ['_', 's', 's'])).or (dget ss n) = none) ∨
      (∀ p ∈ conds, ∃ z, p.2 = .int z) ∨ ∀ n ∈ names, n ∈ dkeys conds) :
    boundaryVectorPy conds ss names = boundaryVector (conds.map fun p => (p.1, p.2.val)) (ss.map fun p => (p.1, p.2.val)) names := by
  have hk : dkeys (conds.map fun p => (p.1, p.2.val)) = dkeys conds := by simp [dkeys, Function.comp_def]
  unfold boundaryVectorPy boundaryVector
  rw [hk]
  split
  · refine List.map_congr_left fun n _ => ?_
    rw [PFS.dget_val]
  · rename_i hall
    have hstart : ((names.map fun n => (dget ss (n ++ ssSuffix)).getD ((dget ss n).getD (.float 1))).map PyNumber.val) =
        ssToArray (ss.map fun p => (p.1, p.2.val)) names := by
      unfold ssToArray
      rw [List.map_map]
      refine List.map_congr_left fun n _ => ?_
      simp only [Function.comp, PFS.dget_val]
      cases dget ss (n ++ ssSuffix) with
      | some v => rfl
      | none => cases dget ss n <;> rfl
    dsimp only
    rw [hstart, List.foldl_map]
    have key : ∀ p ∈ conds, ((if allInts (names.map fun n => (dget ss (n ++ ssSuffix)).getD ((dget ss n).getD (.float 1))) then p.2.truncate else p.2.val) : ℝ) =
        p.2.val := by
      intro p hp
      refine PFS.int_or_val ?_
      rcases h with ⟨n, hn, x, hx⟩ | h | h
      · refine .inl ?_
        rw [allInts, List.all_eq_false]
        refine ⟨_, List.mem_map.2 ⟨n, hn, rfl⟩, ?_⟩
        have e : ssSuffix = ['_', 's', 's'] := rfl
        rw [e]
        cases h1 : dget ss (n ++ ['_', 's', 's']) with
        | some v =>
          rw [h1] at hx
          simp only [Option.some_or, Option.some.injEq, reduceCtorEq, or_false] at hx
          subst hx; simp
        | none =>
          rw [h1] at hx
          simp only [Option.none_or] at hx
          rcases hx with hx | hx <;> rw [hx] <;> simp
      · exact .inr (h p hp)
      · exact absurd (by simpa using h) hall
    have : ∀ (l : List (Str × PyNumber)) (y : List ℝ), (∀ p ∈ l, p ∈ conds) → l.foldl (fun y p => y.set (names.idxOf p.1)
        (if allInts (names.map fun n => (dget ss (n ++ ssSuffix)).getD ((dget ss n).getD (.float 1))) then p.2.truncate else p.2.val)) y =
        l.foldl (fun y p => setCondition names y (p.1, p.2.val)) y := by
      intro l
      induction l with
      | nil => intro y _; rfl
      | cons p l ih =>
        intro y hl
        rw [List.foldl_cons, List.foldl_cons, key p (hl p (List.mem_cons_self ..))]
        exact ih _ fun q hq => hl q (List.mem_cons_of_mem _ hq)
    exact this conds _ fun p hp => hp

/-- **C58**, fails: a steady-state dictionary of Python integers turns the user's condition into an integer: asked to start from `K = 0.9`,
the run starts from `K = 0`, for any other integers. -/
theorem C58_integer_violated (k c : Int) : boundaryVectorPy [(['K'], .float 0.9)] [(['K', '_', 's', 's'], .int k), (['C', '_', 's', 's'], .int c)] [['C'], ['K']] =
    [(c : ℝ), 0] := by
  have h : ⌊(0.9 : ℝ)⌋ = 0 := by norm_num [Int.floor_eq_iff]
  have h0 : (0 : ℝ) ≤ 0.9 := by norm_num
  simp [boundaryVectorPy, dkeys, dget, ssSuffix, allInts, PyNumber.val, PyNumber.truncate, List.idxOf, List.findIdx, List.findIdx.go, h, h0]

/-- with one float in the dictionary the condition is kept -/
example (k : Int) : boundaryVectorPy [(['K'], .float 0.9)] [(['K', '_', 's', 's'], .int k), (['C', '_', 's', 's'], .float 1)] [['C'], ['K']] = [1, 0.9] := by
  rw [C58_types_partial _ _ _ (.inl ⟨['C'], by simp, 1, .inl (by simp [dget])⟩)]
  simp [boundaryVector, setCondition, ssToArray, dkeys, dget, ssSuffix, PyNumber.val, List.idxOf, List.findIdx, List.findIdx.go]

end GE
