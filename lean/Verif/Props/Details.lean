import Verif.Props.Build
import Verif.Props.Configure
import Verif.Props.SparseRoot2
import Verif.Props.Plotting
import Verif.Props.Containers
import Verif.Props.SSDriver
import Verif.Props.Simplification
import Verif.Props.Perturbation
/-!
# Details found missing by wrong programs that the other theorems accepted
-/

namespace GE

/-! ## C41: parameters of shock distributions -/

/-- **C41** the hyper-parameters of shocks count as used: exactly the names standing as a value in a shock's distribution, in any block -/
theorem C41_hyper (bs : List Blk) (n : Str) :
    n ∈ distParamNames bs ↔ ∃ b ∈ bs, ∃ d ∈ b.shockDists, ∃ key, (key, Sum.inr n) ∈ d.kwargs := by
  unfold distParamNames
  simp only [List.mem_flatMap, List.mem_filterMap]
  refine exists_congr fun b => and_congr_right fun _ => exists_congr fun d => and_congr_right fun _ => ?_
  constructor
  · rintro ⟨⟨k, v⟩, hm, hv⟩
    cases v with
    | inl q => cases hv
    | inr m => cases hv; exact ⟨k, hm⟩
  · rintro ⟨k, hm⟩
    exact ⟨(k, .inr n), hm, rfl⟩

/-- so a parameter defined only to be the standard deviation of a shock is never reported as superfluous -/
theorem C41_hyper_kept (eqs ssRel : List SExpr) (param calib determ : List (Str × SExpr)) (args : List Str) (bs : List Blk)
    (hn : (dkeys (allDefs param calib determ)).Nodup) (hno : ¬ ∃ n, Orphan (eqs ++ ssRel) (allDefs param calib determ) n)
    (b : Blk) (hb : b ∈ bs) (d : Dist) (hd : d ∈ b.shockDists) (key n : Str) (hk : (key, Sum.inr n) ∈ d.kwargs) (on : OnUnused) :
    (∀ l, validateResults eqs ssRel param calib determ on args (distParamNames bs) = .ok l → n ∉ l) ∧
    ∀ l, validateResults eqs ssRel param calib determ on args (distParamNames bs) = .error (.extra l) → n ∉ l := by
  obtain ⟨l0, h0, h1, h2, h3⟩ := C41_extra eqs ssRel param calib determ args (distParamNames bs) hn hno
  have hn0 : n ∉ l0 := fun h => ((h0 n).1 h).2.2.2.2 ((C41_hyper bs n).2 ⟨b, hb, d, hd, key, hk⟩)
  cases on with
  | raise =>
    rw [h1]
    refine ⟨fun l h => ?_, fun l h => ?_⟩
    · split at h
      · cases h; simp
      · cases h
    · split at h
      · cases h
      · cases h; exact hn0
  | warn =>
    rw [h2]
    exact ⟨fun l h => (by cases h; exact hn0), fun l h => (by cases h)⟩
  | ignore =>
    rw [h3]
    exact ⟨fun l h => (by cases h; simp), fun l h => (by cases h)⟩

/-! ## C95: what a PyMC model must supply -/

/-- **C95** after `configure` a PyMC model has to supply exactly: the free parameters that were not declared constant, the covariance matrix of
the shocks or one standard deviation per shock, and one standard deviation for each series with measurement error -/
theorem C95_parameters (o : SSObj) (fullCov : Bool) (r : Configured) (n : Str) : n ∈ paramNames o fullCov r ↔
    (n ∈ o.inputParams ∧ n ∉ r.constants) ∨ (fullCov = true ∧ n = "state_cov".toList) ∨ (fullCov = false ∧ ∃ s ∈ o.shocks, n = "sigma_".toList ++ s) ∨
      ∃ s ∈ r.errorStates, n = "error_sigma_".toList ++ s := by
  unfold paramNames
  have e : ∀ (l : List Str) (p : Str), n ∈ l.map (fun s => p ++ s) ↔ ∃ s ∈ l, n = p ++ s := fun l p => by
    rw [List.mem_map]; exact exists_congr fun s => and_congr_right fun _ => eq_comm
  have e0 : n ∈ o.inputParams.filter (fun x => decide (x ∉ r.constants)) ↔ n ∈ o.inputParams ∧ n ∉ r.constants := by
    rw [List.mem_filter, decide_eq_true_iff]
  rw [List.mem_append, List.mem_append, e, e0, or_assoc]
  cases fullCov with
  | true =>
    rw [if_pos rfl, List.mem_singleton]
    exact or_congr Iff.rfl ⟨fun h => h.elim (fun h => .inl ⟨rfl, h⟩) fun h => .inr (.inr h), fun h => h.elim (fun h => .inl h.2) fun h => h.elim
      (fun h => by cases h.1) .inr⟩
  | false =>
    rw [if_neg (by decide), e]
    exact or_congr Iff.rfl ⟨fun h => h.elim (fun h => .inr (.inl ⟨rfl, h⟩)) fun h => .inr (.inr h), fun h => h.elim (fun h => by cases h.1) fun h => h.elim
      (fun h => .inl h.2) .inr⟩

/-- **C94** without a full covariance the shocks are uncorrelated and each has the square of its own standard deviation as variance -/
theorem C94_shocks (shocks : List Str) (sigma : Str → ℝ) (i j : ℕ) (s : Str) (hi : shocks[i]? = some s) :
    stateCov shocks sigma i i = sigma s ^ 2 ∧ (i ≠ j → stateCov shocks sigma i j = 0 ∧ stateCov shocks sigma j i = 0) := by
  unfold stateCov
  refine ⟨by simp [hi], fun h => ⟨if_neg h, if_neg (Ne.symm h)⟩⟩

/-! ## C32: the chord method -/

/-- the proposals of a chord direction over a run of states, from a new object -/
noncomputable def chordRun {m n : Nat} (lin : Matrix (Fin m) (Fin n) ℝ → (Fin m → ℝ) → Option (Fin n → ℝ)) (every : Nat) :
    ChordSt m n → List (SState m n) → List (Proposal n)
  | _, [] => []
  | c, s :: ss => (chordDirection lin every c s).2 :: chordRun lin every (chordDirection lin every c s).1 ss

/-- **C32**: the chord method refreshes its matrix on every `every`-th call, starting with the first: the direction of call `k` is, up to the
sign that makes it point downhill, the linear solver's answer for the Jacobian seen at the last refresh -/
theorem C32_chord {m n : Nat} (lin : Matrix (Fin m) (Fin n) ℝ → (Fin m → ℝ) → Option (Fin n → ℝ)) (every : Nat) (he : 0 < every)
    (ss : List (SState m n)) (k : Nat) (s base : SState m n) (hk : ss[k]? = some s) (hb : ss[every * (k / every)]? = some base)
    (dx : Fin n → ℝ) (hdx : lin base.jac (-s.res) = some dx) :
    ∃ p, (chordRun lin every {} ss)[k]? = some p ∧ (p.direction = dx ∨ p.direction = -dx) := by
  have key : ∀ (ss : List (SState m n)) (pre : List (SState m n)) (c : ChordSt m n), c.calls = pre.length →
      (pre ≠ [] → ∃ b, pre[every * ((pre.length - 1) / every)]? = some b ∧ c.cached = some b.jac) →
      ∀ k s base, pre.length ≤ k → (pre ++ ss)[k]? = some s → (pre ++ ss)[every * (k / every)]? = some base →
      (chordRun lin every c ss)[k - pre.length]? = some (finishProposal s.res s.jac (solveOrGradient lin base.jac s.res)) := by
    intro ss
    induction ss with
    | nil =>
      intro pre c _ _ k s base hle h1 _
      rw [List.append_nil, List.getElem?_eq_none hle] at h1
      cases h1
    | cons x xs ih =>
      intro pre c hc hcache k s base hle h1 h2
      have hJ : ∃ b, (pre ++ [x])[every * (pre.length / every)]? = some b ∧ (if c.calls % every = 0 then x.jac else c.cached.getD x.jac) = b.jac := by
        rw [hc]
        by_cases h0 : pre.length % every = 0
        · rw [if_pos h0]
          have : every * (pre.length / every) = pre.length := Nat.mul_div_cancel' (Nat.dvd_of_mod_eq_zero h0)
          exact ⟨x, by rw [this]; simp, rfl⟩
        · rw [if_neg h0]
          have hpos : 0 < pre.length := Nat.pos_of_ne_zero fun h => h0 (by rw [h, Nat.zero_mod])
          obtain ⟨b, hb1, hb2⟩ := hcache (List.ne_nil_of_length_pos hpos)
          have hdiv : (pre.length - 1) / every = pre.length / every := by
            have h3 := Nat.div_add_mod pre.length every
            have h4 := Nat.mod_lt pre.length he
            refine Nat.div_eq_of_lt_le ?_ ?_
            · rw [Nat.mul_comm]; omega
            · rw [Nat.succ_mul, Nat.mul_comm]; omega
          refine ⟨b, ?_, by rw [hb2]; rfl⟩
          rw [← hdiv, List.getElem?_append_left (List.getElem?_eq_some_iff.1 hb1).1]; exact hb1
      obtain ⟨b, hb1, hb2⟩ := hJ
      by_cases hk : k = pre.length
      · subst hk
        have hs : s = x := by simpa using h1.symm
        have hbb : base = b := by
          have hlt : every * (pre.length / every) < (pre ++ [x]).length := (List.getElem?_eq_some_iff.1 hb1).1
          have : (pre ++ x :: xs)[every * (pre.length / every)]? = some b := by
            rw [show pre ++ x :: xs = (pre ++ [x]) ++ xs by simp, List.getElem?_append_left hlt]; exact hb1
          rw [this] at h2; exact (Option.some.inj h2).symm
        subst hs hbb
        simp only [Nat.sub_self, chordRun, List.getElem?_cons_zero, chordDirection, hb2]
      · have hlt : (pre ++ [x]).length ≤ k := by simp; omega
        have := ih (pre ++ [x]) (chordDirection lin every c x).1 (by simp [chordDirection, hc]) (fun _ => ⟨b, by simpa using hb1, by simp [chordDirection, hb2]⟩) k s base
          hlt (by simpa using h1) (by simpa using h2)
        have e : k - pre.length = (k - (pre ++ [x]).length) + 1 := by simp at hlt ⊢; omega
        rw [e, chordRun, List.getElem?_cons_succ]
        exact this
  refine ⟨_, by simpa using key ss [] {} rfl (fun h => absurd rfl h) k s base (Nat.zero_le _) hk hb, ?_⟩
  simp only [finishProposal, solveOrGradient, hdx, Option.getD_some]
  split
  · exact .inr rfl
  · exact .inl rfl

/-! ## C114: an empty selection -/

open Plot in
/-- **C114** without a selection, or with an empty one, a corner plot shows every pair of the available variables -/
theorem C114_corner_all (available : List Str) (h2 : 2 ≤ available.length) (hn : available.Nodup) (sel : Option (List Str)) (hs : sel = none ∨ sel = some []) :
    ∃ ps, plotCorner available sel = .ok ps ∧ ps.Nodup ∧ ∀ a b, (a, b) ∈ ps ↔ ∃ i j : Nat, j ≤ i ∧ available[i]? = some a ∧ available[j]? = some b := by
  obtain ⟨ps, h1, h3, h4⟩ := C114_corner_partial available available h2 (fun _ h => h) hn
  refine ⟨ps, ?_, h3, h4⟩
  rw [← h1]
  have hc : cornerVars available (some available) = available := by cases available with | nil => rfl | cons => rfl
  rcases hs with rfl | rfl
  · show plotCorner available none = _
    unfold plotCorner
    rw [hc]; rfl
  · unfold plotCorner
    rw [hc]; rfl

/-! ## C03: names without a date -/

/-- **C03** `safe_string_to_sympy`: `x_t`, `x_tp1`, `x_tm1`, `x_ss` are the variable `x` at that date with the assumptions of `x`; any other
string is the parameter of that name with its own assumptions -/
theorem C03_symbol_of_string (asm : List (Str × Asm)) :
    (∀ x, safeStringToSympy (x ++ "_t".toList) asm = .var ⟨x, .t 0, (dget asm x).getD []⟩ ∧
      safeStringToSympy (x ++ "_tp1".toList) asm = .var ⟨x, .t 1, (dget asm x).getD []⟩ ∧
      safeStringToSympy (x ++ "_tm1".toList) asm = .var ⟨x, .t (-1), (dget asm x).getD []⟩ ∧
      safeStringToSympy (x ++ "_ss".toList) asm = .var ⟨x, .ss, (dget asm x).getD []⟩) ∧
    ∀ x a, '_' ∉ a → a ∉ ["t".toList, "tp1".toList, "tm1".toList, "ss".toList] →
      safeStringToSympy (x ++ '_' :: a) asm = .par (x ++ '_' :: a) ((dget asm (x ++ '_' :: a)).getD []) ∧
      safeStringToSympy a asm = .par a ((dget asm a).getD []) := by
  refine ⟨fun x => ⟨?_, ?_, ?_, ?_⟩, fun x a ha hne => ⟨?_, ?_⟩⟩
  · have := rsplit_append x "t".toList (by decide)
    unfold safeStringToSympy
    rw [show x ++ "_t".toList = x ++ '_' :: "t".toList from rfl, this]; rfl
  · have := rsplit_append x "tp1".toList (by decide)
    unfold safeStringToSympy
    rw [show x ++ "_tp1".toList = x ++ '_' :: "tp1".toList from rfl, this]; rfl
  · have := rsplit_append x "tm1".toList (by decide)
    unfold safeStringToSympy
    rw [show x ++ "_tm1".toList = x ++ '_' :: "tm1".toList from rfl, this]; rfl
  · have := rsplit_append x "ss".toList (by decide)
    unfold safeStringToSympy
    rw [show x ++ "_ss".toList = x ++ '_' :: "ss".toList from rfl, this]; rfl
  all_goals
    have hd : dget safeStringToIndex a = none := by
      rw [dget_eq_none]
      intro h
      apply hne
      simp only [safeStringToIndex, dkeys, List.map_cons, List.map_nil, List.mem_cons, List.not_mem_nil, or_false] at h ⊢
      rcases h with h | h | h | h <;> simp [h]
  · unfold safeStringToSympy
    rw [rsplit_append x a ha]
    simp only [hd]
  · unfold safeStringToSympy
    rw [rsplit_none a ha]
    simp only [hd]

/-! ## assumptions -/

/-- **C83** a variable counts as positive (negative, in the unit interval) only if the file says so; an assumption set to false does not count -/
theorem C83_assumption (a : Asm) (name : Str) : a.has name = true ↔ dget a name = some true := by
  unfold Asm.has; simp

/-- **C39** the same in the linearisation: the log of a variable is used only if it is not assumed negative -/
theorem C39_assumption (v : TSym) (name : Str) : v.assumed name = true ↔ dget v.asm name = some true := by
  unfold TSym.assumed
  cases dget v.asm name with
  | none => simp
  | some b => simp

/-! ## C26: what counts as the definition of a variable -/

namespace Det

theorem mem_dset_of {d : List (Sym × SExpr)} {k k' : Sym} {v : SExpr} : k' ∈ dkeys (dset d k v) ↔ k' ∈ dkeys d ∨ k' = k := by
  rw [← dget_isSome, dget_dset, ← dget_isSome]
  by_cases h : k' = k
  · simp [h]
  · simp [h, Ne.symm h]

theorem defDict_keys (ds : List SEq) (s : Sym) : s ∈ dkeys (defDict ds) ↔ ∃ e ∈ ds, e.lhs = .sym s := by
  have : ∀ (ds : List SEq) (d : List (Sym × SExpr)), s ∈ dkeys (ds.foldl (fun d e => match e.lhs with | .sym s => dset d s e.rhs | _ => d) d) ↔
      s ∈ dkeys d ∨ ∃ e ∈ ds, e.lhs = .sym s := by
    intro ds
    induction ds with
    | nil => intro d; simp
    | cons e ds ih =>
      intro d
      rw [List.foldl_cons, ih]
      cases he : e.lhs with
      | sym s' =>
        simp only [mem_dset_of, List.mem_cons, exists_eq_or_imp, he, SExpr.sym.injEq]
        constructor
        · rintro ((h | h) | h)
          · exact .inl h
          · exact .inr (.inl h.symm)
          · exact .inr (.inr h)
        · rintro (h | h | h)
          · exact .inl (.inl h)
          · exact .inl (.inr h.symm)
          · exact .inr h
      | _ => simp [he]
  exact (this ds []).trans (by simp [dkeys])

end Det

/-- **C26** the definitions try_reduce uses: a variable has one exactly when it stands alone on the left of an identity, an objective or a
constraint of some block, and the value substituted is the right side of such an equation -/
theorem C26_definitions (blocks : List Block) (x : Sym) :
    ((dget (blockSubDict blocks) x).isSome ↔ ∃ b ∈ blocks, ∃ e, (e ∈ dvals b.identities ∨ e ∈ dvals b.objective ∨ e ∈ dvals b.constraints) ∧ e.lhs = .sym x) ∧
    ∀ v, dget (blockSubDict blocks) x = some v → ∃ b ∈ blocks, ∃ e, (e ∈ dvals b.identities ∨ e ∈ dvals b.objective ∨ e ∈ dvals b.constraints) ∧
      e.lhs = .sym x ∧ e.rhs = v := by
  constructor
  · rw [dget_isSome, blockSubDict, Det.defDict_keys]
    simp only [List.mem_flatMap, List.mem_append, or_assoc]
    constructor
    · rintro ⟨e, ⟨b, hb, he⟩, hl⟩; exact ⟨b, hb, e, he, hl⟩
    · rintro ⟨b, hb, e, he, hl⟩; exact ⟨e, ⟨b, hb, he⟩, hl⟩
  · intro v hv
    have hm := mem_of_dget _ _ _ hv
    obtain ⟨e, he, h1, h2⟩ := Slv.defDict_mem _ _ hm
    simp only [List.mem_flatMap, List.mem_append, or_assoc] at he
    obtain ⟨b, hb, he⟩ := he
    exact ⟨b, hb, e, he, h1, h2.symm⟩

end GE
