import Verif.Props.PFSolve
import Verif.Props.Perturbation
import Verif.Props.Simulate
/-! # C146: in a linear model perfect foresight and the linear solution agree -/

open Matrix

namespace GE

/-! ## specification -/

/-- the model is linear: the gap of each equation is the same linear function of the deviations of the variables from `ss` one period back, now and
one period ahead and of the shocks, with the matrices `A`, `B`, `C` and `D`, on every path with the parameter values `par` -/
structure LinearModel {n k : ℕ} (m : PFModel) (par : Str → ℝ) (sv : Str → Asm → ℝ) (vars : Fin n → TSym) (shocks : Fin k → TSym) (ss : Fin n → ℝ)
    (A B C : Mat n n) (D : Mat n k) : Prop where
  square : m.eqs.length = n
  noises : m.shocks = List.ofFn shocks
  varNames : Function.Injective fun j => (vars j).base
  shockNames : Function.Injective fun s => (shocks s).base
  apart : ∀ j s, (vars j).base ≠ (shocks s).base
  gap : ∀ R : RealPath, R.par = par → R.ss = sv → ∀ (t : Int) (r : Fin n) e, m.eqs[(r : ℕ)]? = some e → e.val R t =
    (A *ᵥ (fun j => R.path (vars j).base (vars j).asm (t - 1) - ss j) + B *ᵥ (fun j => R.path (vars j).base (vars j).asm t - ss j) +
      C *ᵥ (fun j => R.path (vars j).base (vars j).asm (t + 1) - ss j) + D *ᵥ fun s => R.path (shocks s).base (shocks s).asm t) r
  steady : ∀ R : RealPath, R.par = par → R.ss = sv → ∀ (t : Int), ∀ p ∈ m.ssDict, ∀ b asm, symName (safeToSS p.1) = createName ⟨b, .ss, asm⟩ →
    sv b asm = p.2.val R t

/-- the settings of a run are those of the linear model: it starts `before` away from the steady state, is hit by the shocks `e`, has the parameter
values `par` in every period, its guess is `dev` away from the steady state and its columns are the variables -/
structure LinearRun {n k : ℕ} (m : PFModel) (par : Str → ℝ) (vars : Fin n → TSym) (shocks : Fin k → TSym) (ss : Fin n → ℝ) (a : RunArgs) (o : RunOut)
    (defaults ssInit : List (Str × ℝ)) (before : Fin n → ℝ) (e : ℕ → Fin k → ℝ) (dev : ℕ → Fin n → ℝ) : Prop where
  columns : ∀ b ∈ o.columns, ∃ j, (vars j).base = b
  start : ∀ j, BoundaryValue a.initial ssInit (vars j).base (ss j + before j)
  hits : ∀ s, ∀ t < a.T, ShockValue (a.shocks.getD []) (shocks s).base t (e t s)
  params : ∀ p ∈ m.params ++ m.determ, ∀ t < a.T, ParamValue (a.paths.getD []) defaults p t (par p)
  guess : ∀ t < a.T, ∀ i j, o.columns[i]? = some (vars j).base → GuessValue a ssInit (vars j).base i t (ss j + dev t j)

namespace Lnr

theorem boundary_exists (user ss : List (Str × ℝ)) (n : Str) : ∃ v, BoundaryValue user ss n v := by
  by_cases h : ∃ key v, (key, v) ∈ user ∧ Names key n
  · obtain ⟨key, v, h1, h2⟩ := h
    exact ⟨v, .inl ⟨key, h1, h2⟩⟩
  · have h0 : ∀ key w, (key, w) ∈ user → ¬ Names key n := fun key w h1 h2 => h ⟨key, w, h1, h2⟩
    cases h1 : dget ss (n ++ ['_', 's', 's']) with
    | some v => exact ⟨v, .inr ⟨h0, .inl h1⟩⟩
    | none =>
      cases h2 : dget ss n with
      | some v => exact ⟨v, .inr ⟨h0, .inr ⟨h1, .inl h2⟩⟩⟩
      | none => exact ⟨1, .inr ⟨h0, .inr ⟨h1, .inr ⟨h2, rfl⟩⟩⟩⟩

open Classical in
/-- the path on which the variables deviate by `dev` from the steady state and the shocks are `e` -/
noncomputable def path {n k : ℕ} (par : Str → ℝ) (sv : Str → Asm → ℝ) (vars : Fin n → TSym) (shocks : Fin k → TSym) (ss : Fin n → ℝ)
    (dev : ℤ → Fin n → ℝ) (e : ℤ → Fin k → ℝ) : RealPath where
  par := par
  path b _ u := if h : ∃ j, (vars j).base = b then ss h.choose + dev u h.choose else if h : ∃ s, (shocks s).base = b then e u h.choose else 0
  ss := sv

section
variable {n k : ℕ} {par : Str → ℝ} {sv : Str → Asm → ℝ} {vars : Fin n → TSym} {shocks : Fin k → TSym} {ss : Fin n → ℝ}
  {dev : ℤ → Fin n → ℝ} {e : ℤ → Fin k → ℝ}

theorem path_var (hv : Function.Injective fun j => (vars j).base) (j : Fin n) (asm : Asm) (u : Int) :
    (path par sv vars shocks ss dev e).path (vars j).base asm u = ss j + dev u j := by
  have h : ∃ i, (vars i).base = (vars j).base := ⟨j, rfl⟩
  have hc : h.choose = j := hv h.choose_spec
  simp only [path, dif_pos h]
  rw [hc]

theorem path_shock (hs : Function.Injective fun s => (shocks s).base) (hd : ∀ j s, (vars j).base ≠ (shocks s).base) (s : Fin k) (asm : Asm) (u : Int) :
    (path par sv vars shocks ss dev e).path (shocks s).base asm u = e u s := by
  have h : ∃ i, (shocks i).base = (shocks s).base := ⟨s, rfl⟩
  have hn : ¬ ∃ j, (vars j).base = (shocks s).base := fun ⟨j, hj⟩ => hd j s hj
  have hc : h.choose = s := hs h.choose_spec
  simp only [path, dif_neg hn, dif_pos h]
  rw [hc]

end

theorem confirms {n k : ℕ} (ord so) (hord : ∀ l, (ord l).Perm l) (hso : ∀ l, (so l).Perm l) (m : PFModel) (hpl : m.PlainValues) (hsh : m.ShocksNow)
    (hnd : (m.params ++ m.determ).Nodup) (pm : ParamModel ℝ) (steady : List (Str × ℝ) → Option (List (Str × ℝ))) (solver : SolverOf)
    (a : RunArgs) (o : RunOut) (h : solvePF ord so m pm steady solver a = .ok o)
    (hi : (a.initial.map fun p => removeSuffixSS p.1).Nodup) (ht : (a.terminal.map fun p => removeSuffixSS p.1).Nodup)
    (hsk : (dkeys (a.shocks.getD [])).Nodup) (hpk : (dkeys (a.paths.getD [])).Nodup)
    (defaults ssInit ssTerm : List (Str × ℝ)) (hr : RefersTo pm steady a o.columns defaults ssInit ssTerm)
    (par : Str → ℝ) (sv : Str → Asm → ℝ) (vars : Fin n → TSym) (shocks : Fin k → TSym) (ss : Fin n → ℝ) (A B C : Mat n n) (D : Mat n k)
    (hl : LinearModel m par sv vars shocks ss A B C D) (before after : Fin n → ℝ) (e : ℕ → Fin k → ℝ) (dev : ℕ → Fin n → ℝ)
    (hrun : LinearRun m par vars shocks ss a o defaults ssInit before e dev)
    (hend : ∀ j, BoundaryValue a.terminal ssTerm (vars j).base (ss j + after j))
    (hsol : ∀ t < a.T, A *ᵥ (if t = 0 then before else dev (t - 1)) + B *ᵥ dev t + C *ᵥ (if t + 1 = a.T then after else dev (t + 1)) + D *ᵥ e t = 0) :
    o.result.success = true ∧ o.result.final.nit = 0 ∧
      ∀ t < a.T, ∀ i j, o.columns[i]? = some (vars j).base → o.trajectory t i = ss j + dev t j := by
  let dv : ℤ → Fin n → ℝ := fun u => if u = -1 then before else if u = a.T then after else dev u.toNat
  let ev : ℤ → Fin k → ℝ := fun u => e u.toNat
  let R := path par sv vars shocks ss dv ev
  let G : Nat → Nat → ℝ := fun t i => ((o.columns[i]?).map fun b => R.path b [] t).getD 0
  have hG : ∀ (t i : Nat) b, o.columns[i]? = some b → G t i = R.path b [] t := by
    intro t i b hb
    simp only [G, hb, Option.map_some, Option.getD_some]
  have hvar : ∀ j asm u, R.path (vars j).base asm u = ss j + dv u j := fun j asm u => path_var hl.varNames j asm u
  have hshk : ∀ s asm u, R.path (shocks s).base asm u = ev u s := fun s asm u => path_shock hl.shockNames hl.apart s asm u
  have hdv : ∀ t : ℕ, t < a.T → dv t = dev t := by
    intro t htT
    simp only [dv]
    rw [if_neg (by omega), if_neg (by omega), Int.toNat_natCast]
  have hpath : ∀ t < a.T, RunPath m defaults a ssInit ssTerm { o with trajectory := G } t R := by
    intro t htT
    refine ⟨fun i b asm u hb h1 h2 => ?_, fun s hs asm => ?_, fun p hp => hrun.params p hp t htT, fun p hp b asm hb => ?_⟩
    · have hb' : o.columns[i]? = some b := hb
      obtain ⟨j, rfl⟩ := hrun.columns b (List.mem_of_getElem? hb')
      rw [hvar]
      unfold OnPath
      by_cases h3 : u = -1
      · refine .inl ⟨h3, ?_⟩
        have : dv u = before := if_pos h3
        rw [this]
        exact hrun.start j
      · by_cases h4 : u = a.T
        · refine .inr (.inr ⟨h4, ?_⟩)
          have : dv u = after := by simp only [dv]; rw [if_neg h3, if_pos h4]
          rw [this]
          exact hend j
        · refine .inr (.inl ⟨u.toNat, by omega, by omega, ?_⟩)
          show _ = G _ _
          rw [hG _ _ _ hb', hvar]
          congr 3
          omega
    · rw [hl.noises, List.mem_ofFn] at hs
      obtain ⟨s, rfl⟩ := hs
      rw [hshk]
      exact hrun.hits s t htT
    · exact hl.steady R rfl rfl t p hp b asm hb
  have hz : ∀ t < a.T, ∀ q ∈ m.eqs, |q.eval (R.val.symAt t)| < 1e-10 := by
    intro t htT q hq
    obtain ⟨r, hr'⟩ := List.getElem?_of_mem hq
    have hrn : r < n := by rw [← hl.square]; exact (List.getElem?_eq_some_iff.1 hr').1
    rw [Rsp.eval_symAt, hl.gap R rfl rfl t ⟨r, hrn⟩ q hr']
    have h1 : (fun j => R.path (vars j).base (vars j).asm (t - 1) - ss j) = if t = 0 then before else dev (t - 1) := by
      funext j
      rw [hvar, add_sub_cancel_left]
      by_cases h0 : t = 0
      · subst h0
        rfl
      · rw [if_neg h0, show ((t : ℤ) - 1) = ((t - 1 : ℕ) : ℤ) by omega, hdv _ (by omega)]
    have h2 : (fun j => R.path (vars j).base (vars j).asm t - ss j) = dev t := by
      funext j
      rw [hvar, add_sub_cancel_left, hdv t htT]
    have h3 : (fun j => R.path (vars j).base (vars j).asm (t + 1) - ss j) = if t + 1 = a.T then after else dev (t + 1) := by
      funext j
      rw [hvar, add_sub_cancel_left]
      by_cases h0 : t + 1 = a.T
      · rw [if_pos h0]
        simp only [dv]
        rw [if_neg (by omega), if_pos (by omega)]
      · rw [if_neg h0, show ((t : ℤ) + 1) = ((t + 1 : ℕ) : ℤ) by omega, hdv _ (by omega)]
    have h4 : (fun s => R.path (shocks s).base (shocks s).asm t) = e t := by
      funext s
      rw [hshk]
      rfl
    rw [h1, h2, h3, h4, hsol t htT, Pi.zero_apply, abs_zero]
    norm_num
  obtain ⟨k1, k2, k3⟩ := C132_solved_guess ord so hord hso m hpl hsh hnd pm steady solver a o h hi ht hsk hpk defaults ssInit ssTerm hr G
    (by
      intro t htT i b hb
      obtain ⟨j, rfl⟩ := hrun.columns b (List.mem_of_getElem? hb)
      rw [hG _ _ _ hb, hvar, hdv t htT]
      exact hrun.guess t htT i j hb)
    (fun t => R.val.symAt t) (fun t htT => PFS.inPeriod (hpath t htT)) hz
  refine ⟨k1, k2, fun t htT i j hb => ?_⟩
  rw [k3 t htT i (List.getElem?_eq_some_iff.1 hb).1, hG _ _ _ hb, hvar, hdv t htT]

end Lnr

/-- **C146**: a linear model, hit by a shock in the first period, possibly away from its steady state. Let `T` and `R` solve the model (the two matrix
equations of the linear solution). If the run is given the path of the linear rule `x₀ = T x₋₁ + R v`, `xₜ₊₁ = T xₜ` as its guess and as its
end, the run finds it solved and returns it. -/
theorem C146_rule {n k : ℕ} (ord so) (hord : ∀ l, (ord l).Perm l) (hso : ∀ l, (so l).Perm l) (m : PFModel) (hpl : m.PlainValues) (hsh : m.ShocksNow)
    (hnd : (m.params ++ m.determ).Nodup) (pm : ParamModel ℝ) (steady : List (Str × ℝ) → Option (List (Str × ℝ))) (solver : SolverOf)
    (a : RunArgs) (o : RunOut) (h : solvePF ord so m pm steady solver a = .ok o)
    (hi : (a.initial.map fun p => removeSuffixSS p.1).Nodup) (ht : (a.terminal.map fun p => removeSuffixSS p.1).Nodup)
    (hsk : (dkeys (a.shocks.getD [])).Nodup) (hpk : (dkeys (a.paths.getD [])).Nodup)
    (defaults ssInit ssTerm : List (Str × ℝ)) (hr : RefersTo pm steady a o.columns defaults ssInit ssTerm)
    (par : Str → ℝ) (sv : Str → Asm → ℝ) (vars : Fin n → TSym) (shocks : Fin k → TSym) (ss : Fin n → ℝ) (A B C T : Mat n n) (D R : Mat n k)
    (hl : LinearModel m par sv vars shocks ss A B C D) (hT : A + B * T + C * T * T = 0) (hR : B * R + C * T * R + D = 0)
    (before : Fin n → ℝ) (v : Fin k → ℝ) (dev : ℕ → Fin n → ℝ) (h0 : dev 0 = T *ᵥ before + R *ᵥ v) (hS : ∀ t, dev (t + 1) = T *ᵥ dev t)
    (hrun : LinearRun m par vars shocks ss a o defaults ssInit before (fun t => if t = 0 then v else 0) dev)
    (hend : ∀ j, BoundaryValue a.terminal ssTerm (vars j).base (ss j + dev a.T j)) :
    o.result.success = true ∧ o.result.final.nit = 0 ∧
      ∀ t < a.T, ∀ i j, o.columns[i]? = some (vars j).base → o.trajectory t i = ss j + dev t j := by
  refine Lnr.confirms ord so hord hso m hpl hsh hnd pm steady solver a o h hi ht hsk hpk defaults ssInit ssTerm hr par sv vars shocks ss A B C D hl
    before (dev a.T) _ dev hrun hend fun t htT => ?_
  have hnext : (if t + 1 = a.T then dev a.T else dev (t + 1)) = T *ᵥ dev t := by
    split
    · rename_i h1; rw [← h1, hS]
    · exact hS t
  rw [hnext]
  cases t with
  | zero =>
    have e1 : ∀ x : Fin n → ℝ, A *ᵥ x + B *ᵥ (T *ᵥ x) + C *ᵥ (T *ᵥ (T *ᵥ x)) = 0 := by
      intro x
      simp only [mulVec_mulVec, ← add_mulVec, ← Matrix.mul_assoc, hT, zero_mulVec]
    have e2 : B *ᵥ (R *ᵥ v) + C *ᵥ (T *ᵥ (R *ᵥ v)) + D *ᵥ v = 0 := by
      simp only [mulVec_mulVec, ← add_mulVec, ← Matrix.mul_assoc, hR, zero_mulVec]
    simp only [if_true, h0, mulVec_add]
    rw [show (0 : Fin n → ℝ) = (A *ᵥ before + B *ᵥ (T *ᵥ before) + C *ᵥ (T *ᵥ (T *ᵥ before))) + (B *ᵥ (R *ᵥ v) + C *ᵥ (T *ᵥ (R *ᵥ v)) + D *ᵥ v) by
      rw [e1, e2, add_zero]]
    abel
  | succ t =>
    rw [if_neg (by omega), if_neg (by omega), Nat.add_sub_cancel, hS, mulVec_zero, add_zero]
    simp only [mulVec_mulVec, ← add_mulVec, ← Matrix.mul_assoc, hT, zero_mulVec]

/-- **C146**: what `simulate` says about a shock in the first period and what perfect foresight says agree in a linear model -/
theorem C146_impulse {n k : ℕ} (ord so) (hord : ∀ l, (ord l).Perm l) (hso : ∀ l, (so l).Perm l) (m : PFModel) (hpl : m.PlainValues) (hsh : m.ShocksNow)
    (hnd : (m.params ++ m.determ).Nodup) (pm : ParamModel ℝ) (steady : List (Str × ℝ) → Option (List (Str × ℝ))) (solver : SolverOf)
    (a : RunArgs) (o : RunOut) (h : solvePF ord so m pm steady solver a = .ok o)
    (hi : (a.initial.map fun p => removeSuffixSS p.1).Nodup) (ht : (a.terminal.map fun p => removeSuffixSS p.1).Nodup)
    (hsk : (dkeys (a.shocks.getD [])).Nodup) (hpk : (dkeys (a.paths.getD [])).Nodup)
    (defaults ssInit ssTerm : List (Str × ℝ)) (hr : RefersTo pm steady a o.columns defaults ssInit ssTerm)
    (par : Str → ℝ) (sv : Str → Asm → ℝ) (vars : Fin n → TSym) (shocks : Fin k → TSym) (ss : Fin n → ℝ) (A B C T : Mat n n) (D R : Mat n k)
    (hl : LinearModel m par sv vars shocks ss A B C D) (hT : A + B * T + C * T * T = 0) (hR : B * R + C * T * R + D = 0)
    (v : Fin k → ℝ) (X : List (Fin n → ℝ)) (hX : simulateOne T R (v :: List.replicate a.T 0) = .ok X)
    (hrun : LinearRun m par vars shocks ss a o defaults ssInit 0 (fun t => if t = 0 then v else 0) fun t => X.getD t 0)
    (hend : ∀ j, BoundaryValue a.terminal ssTerm (vars j).base (ss j + X.getD a.T 0 j)) :
    o.result.success = true ∧ o.result.final.nit = 0 ∧
      ∀ t < a.T, ∀ i j, o.columns[i]? = some (vars j).base → o.trajectory t i = ss j + X.getD t 0 j := by
  rw [C37_simulate] at hX
  obtain ⟨-, hlen, hget⟩ := Sim.simulateLinear_ok hX
  have hXt : ∀ t ≤ a.T, X.getD t 0 = (T ^ t * R) *ᵥ v := by
    intro t htT
    rw [hget t (by simp; omega), Finset.sum_range_succ']
    simp only [Nat.sub_zero, List.getD_cons_zero, List.getD_cons_succ]
    rw [Finset.sum_eq_zero, zero_add]
    intro s hs
    rw [show (List.replicate a.T (0 : Fin k → ℝ)).getD s 0 = 0 by
      rw [List.getD_eq_getElem?_getD, List.getElem?_replicate]; split <;> rfl, mulVec_zero]
  have key := C146_rule ord so hord hso m hpl hsh hnd pm steady solver a o h hi ht hsk hpk defaults ssInit ssTerm hr par sv vars shocks ss A B C T D R
    hl hT hR 0 v (fun t => (T ^ t * R) *ᵥ v) (by simp) (fun t => by simp only [mulVec_mulVec, pow_succ', Matrix.mul_assoc])
    ⟨hrun.columns, hrun.start, hrun.hits, hrun.params, fun t htT i j hb => by rw [← hXt t htT.le]; exact hrun.guess t htT i j hb⟩
    (fun j => by rw [← hXt a.T le_rfl]; exact hend j)
  refine ⟨key.1, key.2.1, fun t htT i j hb => ?_⟩
  rw [key.2.2 t htT i j hb, hXt t htT.le]

/-- **C146**: in a linear model without expectations this holds for shocks in every period, whatever the run is told about its end -/
theorem C146_backward {n k : ℕ} (ord so) (hord : ∀ l, (ord l).Perm l) (hso : ∀ l, (so l).Perm l) (m : PFModel) (hpl : m.PlainValues) (hsh : m.ShocksNow)
    (hnd : (m.params ++ m.determ).Nodup) (pm : ParamModel ℝ) (steady : List (Str × ℝ) → Option (List (Str × ℝ))) (solver : SolverOf)
    (a : RunArgs) (o : RunOut) (h : solvePF ord so m pm steady solver a = .ok o)
    (hi : (a.initial.map fun p => removeSuffixSS p.1).Nodup) (ht : (a.terminal.map fun p => removeSuffixSS p.1).Nodup)
    (hsk : (dkeys (a.shocks.getD [])).Nodup) (hpk : (dkeys (a.paths.getD [])).Nodup)
    (defaults ssInit ssTerm : List (Str × ℝ)) (hr : RefersTo pm steady a o.columns defaults ssInit ssTerm)
    (par : Str → ℝ) (sv : Str → Asm → ℝ) (vars : Fin n → TSym) (shocks : Fin k → TSym) (ss : Fin n → ℝ) (A B T : Mat n n) (D R : Mat n k)
    (hl : LinearModel m par sv vars shocks ss A B 0 D) (hT : A + B * T = 0) (hR : B * R + D = 0)
    (eps : List (Fin k → ℝ)) (hlen : eps.length = a.T) (X : List (Fin n → ℝ)) (hX : simulateOne T R eps = .ok X)
    (hrun : LinearRun m par vars shocks ss a o defaults ssInit 0 (fun t => eps.getD t 0) fun t => X.getD t 0) :
    o.result.success = true ∧ o.result.final.nit = 0 ∧
      ∀ t < a.T, ∀ i j, o.columns[i]? = some (vars j).base → o.trajectory t i = ss j + X.getD t 0 j := by
  rw [C37_simulate] at hX
  obtain ⟨-, hlX, hget⟩ := Sim.simulateLinear_ok hX
  choose w hw using fun j => Lnr.boundary_exists a.terminal ssTerm (vars j).base
  refine Lnr.confirms ord so hord hso m hpl hsh hnd pm steady solver a o h hi ht hsk hpk defaults ssInit ssTerm hr par sv vars shocks ss A B 0 D hl
    0 (fun j => w j - ss j) _ _ hrun (fun j => by rw [add_sub_cancel]; exact hw j) fun t htT => ?_
  have e1 : ∀ x : Fin n → ℝ, A *ᵥ x + B *ᵥ (T *ᵥ x) = 0 := by
    intro x
    rw [mulVec_mulVec, ← add_mulVec, hT, zero_mulVec]
  have e2 : ∀ x : Fin k → ℝ, B *ᵥ (R *ᵥ x) + D *ᵥ x = 0 := by
    intro x
    rw [mulVec_mulVec, ← add_mulVec, hR, zero_mulVec]
  rw [zero_mulVec, add_zero]
  cases t with
  | zero =>
    rw [if_pos rfl, mulVec_zero, zero_add, hget 0 (by omega)]
    simp only [zero_add, Finset.sum_range_one, Nat.sub_zero, pow_zero, Matrix.one_mul]
    exact e2 _
  | succ t =>
    have hstep : X.getD (t + 1) 0 = T *ᵥ X.getD t 0 + R *ᵥ eps.getD (t + 1) 0 := by
      rw [hget (t + 1) (by omega), hget t (by omega), Finset.sum_range_succ, mulVec_sum]
      simp only [Nat.sub_self, pow_zero, Matrix.one_mul]
      congr 1
      refine Finset.sum_congr rfl fun s hs => ?_
      rw [Finset.mem_range] at hs
      rw [mulVec_mulVec, ← Matrix.mul_assoc, ← pow_succ', show t + 1 - s = t - s + 1 by omega]
    rw [if_neg (by omega), Nat.add_sub_cancel, hstep, mulVec_add]
    have h1 := e1 (X.getD t 0)
    have h2 := e2 (eps.getD (t + 1) 0)
    clear hrun
    generalize X.getD t 0 = x at h1 ⊢
    generalize eps.getD (t + 1) 0 = y at h2 ⊢
    rw [show A *ᵥ x + (B *ᵥ (T *ᵥ x) + B *ᵥ (R *ᵥ y)) + D *ᵥ y = (A *ᵥ x + B *ᵥ (T *ᵥ x)) + (B *ᵥ (R *ᵥ y) + D *ᵥ y) by abel, h1, h2, add_zero]

/-- **C146**: and the linear solution is computed from those matrices: `linearize_model` of a linear model at its steady state, without logarithms,
returns exactly `A`, `B`, `C` and `D` -/
theorem C146_matrices {n k : ℕ} (m : PFModel) (par : Str → ℝ) (vars : Fin n → TSym) (shocks : Fin k → TSym) (ssd : List (Str × ℝ))
    (A B C : Mat n n) (D : Mat n k)
    (hl : LinearModel m par (steadyPath par (ssOf ssd) (List.ofFn shocks)).ss vars shocks (fun j => ssOf ssd (vars j)) A B C D)
    (hss : ∀ j, (dget (normalizeConditions ssd) (vars j).base).isSome) (hnow : ∀ s, (shocks s).idx = .t 0)
    (hsm : ∀ e ∈ m.eqs, e.Smooth (steadyPath par (ssOf ssd) (List.ofFn shocks)) 0) :
    ∃ M, linearizeModel (List.ofFn vars) m.eqs (List.ofFn shocks) [] ssd (evalAt par) = some M ∧
      (∀ i j : Fin n, entryAt M.A i j = some (A i j) ∧ entryAt M.B i j = some (B i j) ∧ entryAt M.C i j = some (C i j)) ∧
      ∀ (i : Fin n) (s : Fin k), entryAt M.D i s = some (D i s) := by
  have hapart : ∀ j, (⟨(vars j).base, .ss, (vars j).asm⟩ : TSym) ∉ (List.ofFn shocks).map toSS := by
    intro j hj
    rw [List.mem_map] at hj
    obtain ⟨x, hx, he⟩ := hj
    rw [List.mem_ofFn] at hx
    obtain ⟨s, rfl⟩ := hx
    exact hl.apart j s (congrArg TSym.base he).symm
  have hmemS : ∀ s, (⟨(shocks s).base, .ss, (shocks s).asm⟩ : TSym) ∈ (List.ofFn shocks).map toSS := fun s =>
    List.mem_map.2 ⟨shocks s, (List.mem_ofFn).2 ⟨s, rfl⟩, rfl⟩
  obtain ⟨M, hM, -, -, -, hent⟩ := C39_user_matrices (List.ofFn vars) m.eqs (List.ofFn shocks) [] ssd par
    (by rw [List.map_ofFn, List.nodup_ofFn]; exact hl.varNames)
    (by intro v hv; rw [List.mem_ofFn] at hv; obtain ⟨j, rfl⟩ := hv; exact hss j)
    (by intro v hv; rw [List.mem_ofFn] at hv; obtain ⟨j, rfl⟩ := hv; exact hapart j)
    (by intro v hv; rw [List.mem_ofFn] at hv; obtain ⟨s, rfl⟩ := hv; exact hnow s) hsm
  let P := steadyPath par (ssOf ssd) (List.ofFn shocks)
  have hPv : ∀ j u, P.path (vars j).base (vars j).asm u = ssOf ssd (vars j) := by
    intro j u
    show (if _ then _ else _) = _
    rw [if_neg (hapart j)]
    rfl
  have hPs : ∀ s u, P.path (shocks s).base (shocks s).asm u = 0 := by
    intro s u
    exact if_pos (hmemS s)
  -- the deviations on a path disturbed in one variable
  have hdv : ∀ (j : Fin n) (d u : Int) (y : ℝ), (fun i => (P.bump (vars j).base (vars j).asm d y).path (vars i).base (vars i).asm u - ssOf ssd (vars i)) =
      if u = d then Pi.single j (y - ssOf ssd (vars j)) else 0 := by
    intro j d u y
    funext i
    show (if (vars i).base = (vars j).base ∧ (vars i).asm = (vars j).asm ∧ u = d then y else P.path (vars i).base (vars i).asm u) - _ = _
    by_cases hu : u = d
    · rw [if_pos hu]
      by_cases hij : i = j
      · subst hij
        rw [if_pos ⟨rfl, rfl, hu⟩, Pi.single_eq_same]
      · rw [if_neg (fun h => hij (hl.varNames h.1)), hPv, sub_self, Pi.single_eq_of_ne hij]
    · rw [if_neg (fun h => hu h.2.2), hPv, sub_self, if_neg hu]
      rfl
  have hds : ∀ (j : Fin n) (d : Int) (y : ℝ), (fun s => (P.bump (vars j).base (vars j).asm d y).path (shocks s).base (shocks s).asm 0) = 0 := by
    intro j d y
    funext s
    show (if _ then y else P.path (shocks s).base (shocks s).asm 0) = _
    rw [if_neg (fun h => hl.apart j s h.1.symm), hPs]
    rfl
  have hsv : ∀ (s : Fin k) (u : Int) (y : ℝ), (fun i => (P.bump (shocks s).base (shocks s).asm 0 y).path (vars i).base (vars i).asm u -
      ssOf ssd (vars i)) = 0 := by
    intro s u y
    funext i
    show (if _ then y else P.path (vars i).base (vars i).asm u) - _ = _
    rw [if_neg (fun h => hl.apart i s h.1), hPv, sub_self]
    rfl
  have hss' : ∀ (s : Fin k) (y : ℝ), (fun i => (P.bump (shocks s).base (shocks s).asm 0 y).path (shocks i).base (shocks i).asm 0) = Pi.single s y := by
    intro s y
    funext i
    show (if (shocks i).base = (shocks s).base ∧ (shocks i).asm = (shocks s).asm ∧ (0 : Int) = 0 then y else P.path (shocks i).base (shocks i).asm 0) = _
    by_cases his : i = s
    · subst his
      rw [if_pos ⟨rfl, rfl, rfl⟩, Pi.single_eq_same]
    · rw [if_neg (fun h => his (hl.shockNames h.1)), hPs, Pi.single_eq_of_ne his]
  have lin : ∀ (c z y0 : ℝ), HasDerivAt (fun y => c * (y - z)) c y0 := by
    intro c z y0
    simpa using ((hasDerivAt_id y0).sub_const z).const_mul c
  refine ⟨M, hM, fun i j => ?_, fun i s => ?_⟩
  · have hi : (i : ℕ) < m.eqs.length := by rw [hl.square]; exact i.2
    have he := List.getElem?_eq_getElem hi
    have hcol : ∀ (N : Mat n n) (z : ℝ), (N *ᵥ Pi.single j z) i = N i j * z := by
      intro N z
      simp [mulVec_single, Matrix.col_apply, mul_comm]
    have hgap : ∀ (d : Int) (y : ℝ), m.eqs[(i : ℕ)].val (P.bump (vars j).base (vars j).asm d y) 0 =
        ((A *ᵥ (if (0 : Int) - 1 = d then Pi.single j (y - ssOf ssd (vars j)) else 0) + B *ᵥ (if (0 : Int) = d then Pi.single j (y - ssOf ssd (vars j)) else 0) +
          C *ᵥ (if (0 : Int) + 1 = d then Pi.single j (y - ssOf ssd (vars j)) else 0)) i) := by
      intro d y
      rw [hl.gap (P.bump (vars j).base (vars j).asm d y) rfl rfl 0 i _ he, hdv, hdv, hdv, hds, mulVec_zero, add_zero]
    have hget := fun (k X h) => (hent i _ he).1 j (vars j) (by simp) k X h
    have base : (vars j).base ∉ ([] : List TSym).map TSym.base := by simp
    refine ⟨?_, ?_, ?_⟩
    · obtain ⟨x, hx, hd, -⟩ := hget (-1) M.A (by simp)
      rw [hx]
      have h1 := hd (.inl base)
      rw [show (fun y => m.eqs[(i : ℕ)].val (P.bump (vars j).base (vars j).asm (-1) y) 0) = fun y => A i j * (y - ssOf ssd (vars j)) by
        funext y
        rw [hgap]
        norm_num [hcol]] at h1
      rw [h1.unique (lin _ _ _)]
    · obtain ⟨x, hx, hd, -⟩ := hget 0 M.B (by simp)
      rw [hx]
      have h1 := hd (.inl base)
      rw [show (fun y => m.eqs[(i : ℕ)].val (P.bump (vars j).base (vars j).asm 0 y) 0) = fun y => B i j * (y - ssOf ssd (vars j)) by
        funext y
        rw [hgap]
        norm_num [hcol]] at h1
      rw [h1.unique (lin _ _ _)]
    · obtain ⟨x, hx, hd, -⟩ := hget 1 M.C (by simp)
      rw [hx]
      have h1 := hd (.inl base)
      rw [show (fun y => m.eqs[(i : ℕ)].val (P.bump (vars j).base (vars j).asm 1 y) 0) = fun y => C i j * (y - ssOf ssd (vars j)) by
        funext y
        rw [hgap]
        norm_num [hcol]] at h1
      rw [h1.unique (lin _ _ _)]
  · have hi : (i : ℕ) < m.eqs.length := by rw [hl.square]; exact i.2
    have he := List.getElem?_eq_getElem hi
    obtain ⟨x, hx, hd⟩ := (hent i _ he).2 s (shocks s) (by simp)
    rw [hx]
    rw [show (fun y => m.eqs[(i : ℕ)].val (P.bump (shocks s).base (shocks s).asm 0 y) 0) = fun y => D i s * (y - 0) by
      funext y
      rw [hl.gap (P.bump (shocks s).base (shocks s).asm 0 y) rfl rfl 0 i _ he, hsv, hsv, hsv, hss', mulVec_zero, mulVec_zero, mulVec_zero]
      simp [mulVec_single, Matrix.col_apply, mul_comm]] at hd
    rw [hd.unique (lin _ _ _)]

namespace Lnr
open Rsp PFS

/-- the equation `x[] = d + a*x[-1] + c*x[1] + e[]` -/
def lnQ (a c d : ℚ) : SExpr :=
  .add (.add (.add (.add (.num d) (.mul (.num a) (.sym (.tv (rsX.atT (-1)))))) (.mul (.num c) (.sym (.tv (rsX.atT 1))))) (.sym (.tv rsE)))
    (.mul (.num (-1)) (.sym (.tv rsX)))

/-- its model -/
def lnM (a c d : ℚ) : PFModel := { eqs := [lnQ a c d], shocks := [rsE], params := [], determ := [], ssDict := [] }

theorem ln_atoms (a c d : ℚ) : (lnM a c d).atoms = [rsX.atT (-1), rsX.atT 1, rsE, rsX] := by rfl

theorem ln_plain (a c d : ℚ) : (lnM a c d).PlainValues := by intro p hp; cases hp

theorem ln_now (a c d : ℚ) : (lnM a c d).ShocksNow := by
  intro x hx hb k hk
  rw [ln_atoms] at hx
  simp only [List.mem_cons, List.not_mem_nil, or_false] at hx
  simp only [lnM, List.map_cons, List.map_nil, List.mem_singleton] at hb
  rcases hx with rfl | rfl | rfl | rfl
  · exact absurd hb (by decide)
  · exact absurd hb (by decide)
  · exact (TIdx.t.inj hk).symm
  · exact absurd hb (by decide)

theorem ln_compiles (a c d : ℚ) : ∃ p f, compileProblem id id (lnM a c d) = .ok (p, f) ∧ p.varNames = ["x".toList] ∧ p.shockNames = ["e".toList] ∧
    p.paramNames = [] := by
  have h : ∃ cf, compileProblem id id (lnM a c d) = .ok cf := by
    refine (C121_compiles id id (fun _ => .refl _) (fun _ => .refl _) (lnM a c d) (ln_plain a c d) (by simp [lnM])).2 ⟨by simp [lnM], ?_, ?_⟩
    · intro e he x hx
      have hx' : x ∈ (lnM a c d).atoms := List.mem_flatMap.2 ⟨e, List.mem_append_left _ he, hx⟩
      have hX : ∃ e' ∈ (lnM a c d).eqs, ∃ y ∈ e'.tsyms, y.base = "x".toList ∧ y.idx = .t 0 :=
        ⟨lnQ a c d, List.mem_cons_self .., rsX, by simp [lnQ, SExpr.tsyms, SExpr.syms], rfl, rfl⟩
      rw [ln_atoms] at hx'
      simp only [List.mem_cons, List.not_mem_nil, or_false] at hx'
      rcases hx' with rfl | rfl | rfl | rfl
      · exact .inr ⟨.inl rfl, .inr hX⟩
      · exact .inr ⟨.inr (.inr rfl), .inr hX⟩
      · exact .inr ⟨.inr (.inl rfl), .inl (by simp [lnM])⟩
      · exact .inr ⟨.inr (.inl rfl), .inr hX⟩
    · intro e he k hk
      simp only [lnM, List.mem_singleton] at he
      subst he
      simp [lnQ, SExpr.syms] at hk
  obtain ⟨⟨p, f⟩, h⟩ := h
  obtain ⟨hf, hp, hv, hs, hk⟩ := PFC.compile_ok _ _ _ p f h
  have hparts : pfParts id id (lnM a c d) = .ok ⟨[lnQ a c d], ⟨[rsX.atT (-1)], [rsX], [rsX.atT 1], [rsE]⟩, []⟩ := by rfl
  rw [hp] at hparts
  have hpe := Except.ok.inj hparts
  refine ⟨p, f, h, by rw [hv, hpe]; rfl, by rw [hs, hpe]; rfl, ?_⟩
  rw [hk.1, hpe]

theorem ln_columns {a c d : ℚ} {solver : SolverOf} {r : RunArgs} {o : RunOut} {steady} (h : solvePF id id (lnM a c d) rsPm steady solver r = .ok o) :
    o.columns = ["x".toList] := by
  obtain ⟨p, f, hc, hv, -⟩ := ln_compiles a c d
  obtain ⟨p', f', si, st, x0, X, P, df, tr⟩ := trace h
  have : p' = p := congrArg Prod.fst (Except.ok.inj (tr.comp.symm.trans hc))
  rw [tr.out, ← hv, ← this]; rfl

/-- a run after the shock `3/2`, guessing the path of the linear rule -/
noncomputable def lnRun : RunArgs :=
  { T := 3, shocks := some [("e".toList, [3/2, 0, 0])], terminal := [("x".toList, 17/4)], guess := .array 3 1 fun t _ => 4 + 2 / 2 ^ t }

/-- a run with a shock in every period -/
noncomputable def lnRun2 : RunArgs :=
  { T := 3, shocks := some [("e".toList, [1, -1, 2])], guess := .array 3 1 fun t _ => 4 + [1, -1/2, 7/4].getD t 0 }

/-- it is linear around `s` if `s` solves its steady state -/
theorem ln_linear (a c d : ℚ) (s : ℝ) (hs : (d : ℝ) + a * s + c * s = s) (par sv) :
    LinearModel (lnM a c d) par sv (fun _ : Fin 1 => rsX) (fun _ : Fin 1 => rsE) (fun _ => s) !![(a : ℝ)] !![-1] !![(c : ℝ)] !![1] := by
  refine ⟨rfl, rfl, fun _ _ _ => Subsingleton.elim _ _, fun _ _ _ => Subsingleton.elim _ _, fun _ _ => by decide, ?_, fun _ _ _ _ p hp => (by cases hp)⟩
  intro R _ _ t r e he
  have hr : r = 0 := Subsingleton.elim _ _
  subst hr
  have : e = lnQ a c d := by simpa [lnM] using he.symm
  subst this
  have h1 : ∀ k : Int, (SExpr.sym (.tv (rsX.atT k))).val R t = R.path rsX.base rsX.asm (t + k) := fun _ => rfl
  have h2 : (SExpr.sym (.tv rsX)).val R t = R.path rsX.base rsX.asm t := by
    show R.path _ _ (t + 0) = _; rw [Int.add_zero]
  have h3 : (SExpr.sym (.tv rsE)).val R t = R.path rsE.base rsE.asm t := by
    show R.path _ _ (t + 0) = _; rw [Int.add_zero]
  simp only [lnQ, DTT.val_add, DTT.val_mul, DTT.val_num, h1, h2, h3]
  simp only [mulVec, dotProduct, Pi.add_apply, Fin.sum_univ_one, of_apply, cons_val_fin_one, cons_val_zero, ← sub_eq_add_neg]
  push_cast
  linear_combination hs

end Lnr
open Lnr Rsp PFS

/-- the hypotheses of `C146_impulse` are met: `x[] = 1/2 + 3/8*x[-1] + 1/2*x[1] + e[]`, solved by `T = 1/2` and `R = 4/3`, after the shock `e = 3/2`:
both say `x = 6, 5, 9/2, ...` -/
example (solver : SolverOf) : ∃ o, solvePF id id (lnM (3/8) (1/2) (1/2)) rsPm (fun _ => some rsSS) solver lnRun = .ok o ∧ o.result.success = true ∧
    ∀ t < 3, o.trajectory t 0 = 4 + 2 / 2 ^ t := by
  have hrun : ∃ o, solvePF id id (lnM (3/8) (1/2) (1/2)) rsPm (fun _ => some rsSS) solver lnRun = .ok o := by
    obtain ⟨c, f, hc, hv, hs, hp⟩ := ln_compiles (3/8) (1/2) (1/2)
    have hn0 : normalizeConditions ([] : List (Str × ℝ)) = [] := rfl
    have hn : normalizeConditions ([("x".toList, 17/4)] : List (Str × ℝ)) = [("x".toList, 17/4)] := by
      simp [normalizeConditions, removeSuffixSS, ssSuffix, dupdate, dset, List.isSuffixOf]
    unfold solvePF lnRun
    simp only [hc, Option.getD_none, boundaryParams, List.foldr_nil, steadyDicts, computeSS, guessVector, hn0, hn, hv, hs, hp]
    simp [validatePF, dkeys, shockMatrix, dget, rsPm, ParamModel.parameters, dupdate, paramMatrix, paramLoop, lnM]
  obtain ⟨o, ho⟩ := hrun
  have hcol := ln_columns ho
  have hX : ∀ t ≤ 3, (([fun _ => 2, fun _ => 1, fun _ => 1/2, fun _ => 1/4] : List (Fin 1 → ℝ)).getD t 0) 0 = 2 / 2 ^ t := by
    intro t ht
    interval_cases t <;> norm_num
  have key := C146_impulse id id (fun _ => .refl _) (fun _ => .refl _) (lnM (3/8) (1/2) (1/2)) (ln_plain _ _ _) (ln_now _ _ _) (by simp [lnM]) rsPm
    (fun _ => some rsSS) solver lnRun o ho (by simp [lnRun]) (by simp [lnRun]) (by simp [lnRun, dkeys]) (by simp [lnRun, dkeys]) [] rsSS rsSS
    ⟨rfl, .inl ⟨[], .nil, rfl⟩, .inl ⟨[], .nil, rfl⟩⟩ (fun _ => 0) (fun _ _ => 0) (fun _ => rsX) (fun _ => rsE) (fun _ => 4) !![((3/8 : ℚ) : ℝ)] !![-1]
    !![((1/2 : ℚ) : ℝ)] !![1/2] !![1] !![4/3] (ln_linear _ _ _ 4 (by norm_num) _ _) (by ext i j; fin_cases i; fin_cases j; norm_num [Matrix.mul_apply])
    (by ext i j; fin_cases i; fin_cases j; norm_num [Matrix.mul_apply]) (fun _ => 3/2) [fun _ => 2, fun _ => 1, fun _ => 1/2, fun _ => 1/4]
    (by
      have h1 : (!![4/3] : Mat 1 1) *ᵥ (fun _ => 3/2) = fun _ => (2 : ℝ) := by
        funext i; fin_cases i; norm_num [mulVec, dotProduct]
      have h2 : ∀ x : ℝ, (!![1/2] : Mat 1 1) *ᵥ (fun _ => x) + (!![4/3] : Mat 1 1) *ᵥ 0 = fun _ => x / 2 := by
        intro x; funext i; fin_cases i; norm_num [mulVec, dotProduct]; ring
      rw [show lnRun.T = 3 from rfl]
      simp only [simulateOne, List.replicate, List.scanl_cons, List.scanl_nil, h1, h2]
      norm_num)
    (by
      refine ⟨?_, fun j => ?_, fun s t ht => .inl ⟨[3/2, 0, 0], by simp [lnRun, rsE], ?_⟩, fun p hp => (by cases hp), fun t ht i j hi => ?_⟩
      · intro b hb
        rw [hcol, List.mem_singleton] at hb
        exact ⟨0, hb.symm⟩
      · exact .inr ⟨fun key w hk => (by cases hk), .inl (by simp [rsSS, dget, rsX])⟩
      · have ht' : t < 3 := ht
        interval_cases t <;> norm_num
      · have hj : j = 0 := Subsingleton.elim _ _
        have hi0 : i = 0 := by have := (List.getElem?_eq_some_iff.1 hi).1; simpa [hcol] using this
        subst hj hi0
        rw [hX t (by have ht' : t < 3 := ht; omega)]
        rfl)
    (by
      intro j
      have hj : j = 0 := Subsingleton.elim _ _
      subst hj
      rw [show lnRun.T = 3 from rfl, hX 3 le_rfl]
      exact .inl ⟨"x".toList, by norm_num [lnRun], .inr ⟨rfl, by decide⟩⟩)
  refine ⟨o, ho, key.1, fun t ht => ?_⟩
  rw [key.2.2 t ht 0 0 (by rw [hcol]; rfl), hX t (by omega)]

/-- the hypotheses of `C146_backward` are met: `x[] = 2 + 1/2*x[-1] + e[]`, solved by `T = 1/2` and `R = 1`, under the shocks `1`, `-1`, `2` -/
example (solver : SolverOf) : ∃ o, solvePF id id (lnM (1/2) 0 2) rsPm (fun _ => some rsSS) solver lnRun2 = .ok o ∧ o.result.success = true ∧
    ∀ t < 3, o.trajectory t 0 = 4 + [1, -1/2, 7/4].getD t 0 := by
  have hrun : ∃ o, solvePF id id (lnM (1/2) 0 2) rsPm (fun _ => some rsSS) solver lnRun2 = .ok o := by
    obtain ⟨c, f, hc, hv, hs, hp⟩ := ln_compiles (1/2) 0 2
    have hn0 : normalizeConditions ([] : List (Str × ℝ)) = [] := rfl
    unfold solvePF lnRun2
    simp only [hc, Option.getD_none, boundaryParams, List.foldr_nil, steadyDicts, computeSS, guessVector, hn0, hv, hs, hp]
    simp [validatePF, dkeys, shockMatrix, dget, rsPm, ParamModel.parameters, dupdate, paramMatrix, paramLoop, lnM]
  obtain ⟨o, ho⟩ := hrun
  have hcol := ln_columns ho
  have hX : ∀ t < 3, (([fun _ => 1, fun _ => -1/2, fun _ => 7/4] : List (Fin 1 → ℝ)).getD t 0) 0 = [1, -1/2, 7/4].getD t 0 := by
    intro t ht
    interval_cases t <;> norm_num
  have key := C146_backward id id (fun _ => .refl _) (fun _ => .refl _) (lnM (1/2) 0 2) (ln_plain _ _ _) (ln_now _ _ _) (by simp [lnM]) rsPm
    (fun _ => some rsSS) solver lnRun2 o ho (by simp [lnRun2]) (by simp [lnRun2]) (by simp [lnRun2, dkeys]) (by simp [lnRun2, dkeys]) [] rsSS rsSS
    ⟨rfl, .inl ⟨[], .nil, rfl⟩, .inl ⟨[], .nil, rfl⟩⟩ (fun _ => 0) (fun _ _ => 0) (fun _ => rsX) (fun _ => rsE) (fun _ => 4) !![((1/2 : ℚ) : ℝ)] !![-1]
    !![1/2] !![1] !![1] (by
      have := ln_linear (1/2) 0 2 4 (by norm_num) (fun _ => 0) (fun _ _ => 0)
      rwa [show (!![((0 : ℚ) : ℝ)] : Mat 1 1) = 0 by ext i j; fin_cases i; fin_cases j; simp] at this)
    (by ext i j; fin_cases i; fin_cases j; norm_num [Matrix.mul_apply])
    (by ext i j; fin_cases i; fin_cases j; norm_num [Matrix.mul_apply]) [fun _ => 1, fun _ => -1, fun _ => 2] rfl [fun _ => 1, fun _ => -1/2, fun _ => 7/4]
    (by
      have h1 : ∀ x : ℝ, (!![1] : Mat 1 1) *ᵥ (fun _ => x) = fun _ => x := by
        intro x; funext i; fin_cases i; norm_num [mulVec, dotProduct]
      have h2 : ∀ x : ℝ, (!![1/2] : Mat 1 1) *ᵥ (fun _ => x) = fun _ => x / 2 := by
        intro x; funext i; fin_cases i; norm_num [mulVec, dotProduct]; ring
      have h3 : ∀ x y : ℝ, ((fun _ => x) + (fun _ => y) : Fin 1 → ℝ) = fun _ => x + y := fun _ _ => rfl
      simp only [simulateOne, List.scanl_cons, List.scanl_nil, h1, h2, h3]
      norm_num)
    (by
      refine ⟨?_, fun j => ?_, fun s t ht => .inl ⟨[1, -1, 2], by simp [lnRun2, rsE], ?_⟩, fun p hp => (by cases hp), fun t ht i j hi => ?_⟩
      · intro b hb
        rw [hcol, List.mem_singleton] at hb
        exact ⟨0, hb.symm⟩
      · exact .inr ⟨fun key w hk => (by cases hk), .inl (by simp [rsSS, dget, rsX])⟩
      · have ht' : t < 3 := ht
        interval_cases t <;> norm_num
      · have hj : j = 0 := Subsingleton.elim _ _
        have hi0 : i = 0 := by have := (List.getElem?_eq_some_iff.1 hi).1; simpa [hcol] using this
        subst hj hi0
        rw [hX t ht]
        rfl)
  refine ⟨o, ho, key.1, fun t ht => ?_⟩
  rw [key.2.2 t ht 0 0 (by rw [hcol]; rfl), hX t ht]

/-- the hypotheses of `C146_matrices` are met by the first of these -/
example : ∃ M, linearizeModel [rsX] (lnM (3/8) (1/2) (1/2)).eqs [rsE] [] rsSS (evalAt fun _ => 0) = some M ∧
    entryAt M.A 0 0 = some (((3/8 : ℚ) : ℝ)) ∧ entryAt M.B 0 0 = some (-1) ∧ entryAt M.C 0 0 = some (((1/2 : ℚ) : ℝ)) ∧ entryAt M.D 0 0 = some 1 := by
  have hn : dget (normalizeConditions rsSS) rsX.base = some 4 := by
    simp [rsSS, rsX, normalizeConditions, removeSuffixSS, ssSuffix, dupdate, dset, dget, List.isSuffixOf]
  have hs : ssOf rsSS rsX = 4 := by unfold ssOf; rw [hn]; rfl
  obtain ⟨M, h1, h2, h3⟩ := C146_matrices (lnM (3/8) (1/2) (1/2)) (fun _ => 0) (fun _ : Fin 1 => rsX) (fun _ : Fin 1 => rsE) rsSS _ _ _ _
    (by simp only [hs]; exact ln_linear (3/8) (1/2) (1/2) 4 (by norm_num) _ _) (fun _ => by simp only [hn]; rfl) (fun _ => rfl)
    (by intro e he; simp only [lnM, List.mem_singleton] at he; subst he; simp [lnQ, SExpr.Smooth])
  exact ⟨M, h1, (h2 0 0).1, (h2 0 0).2.1, (h2 0 0).2.2, h3 0 0⟩

end GE
