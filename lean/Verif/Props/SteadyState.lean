import Verif.Model.SteadyState
import Verif.Props.SimplifyBlock
import Verif.Props.Flatten
/-! # C45, C70-C74: the steady state -/

namespace GE

/-! ## specification -/

/-- the entries of the dictionary hold: each symbol has the value of its expression -/
def RealPath.Meets (P : RealPath) (d : List (Sym × SExpr)) : Prop := ∀ p ∈ d, P.val.symAt 0 p.1 = p.2.val P 0

/-- solutions returned by `sp.solve` solve the equation -/
def SSOracle.Sound (o : SSOracle) : Prop :=
  ∀ e x l, o.solve e x = some l → ∀ s ∈ l, ∀ P : RealPath, P.val.symAt 0 (.tv x) = s.val P 0 → e.val P 0 = 0

/-- `sp.solve` finds every solution -/
def SSOracle.Complete (o : SSOracle) : Prop :=
  ∀ e x l, o.solve e x = some l → ∀ P : RealPath, e.val P 0 = 0 → ∃ s ∈ l, P.val.symAt 0 (.tv x) = s.val P 0

/-- solutions mention only symbols of the equation, and not the unknown -/
def SSOracle.Closed (o : SSOracle) : Prop :=
  ∀ e x l, o.solve e x = some l → ∀ s ∈ l, ∀ y ∈ s.syms, y ∈ e.syms ∧ y ≠ .tv x

/-- substitution dictionaries are applied in some order; evaluation and `float` keep values and add no symbols -/
structure SSOracle.Lawful (o : SSOracle) : Prop where
  ord : ∀ d, (o.ord d).Perm d
  norm : SameValues o.norm
  flt : SameValues o.flt
  normSyms : ∀ e, ∀ s ∈ (o.norm e).syms, s ∈ e.syms
  fltSyms : ∀ e, ∀ s ∈ (o.flt e).syms, s ∈ e.syms

namespace SSt

/-- one equation has been solved -/
inductive Reach (o : SSOracle) (ssv : List TSym) (eqs : List SExpr) (d : List (Sym × SExpr)) : List (Sym × SExpr) → Prop
  | refl : Reach o ssv eqs d d
  | step {d1 e x s} : Reach o ssv eqs d d1 → e ∈ eqs → x ∈ ssv → Sym.tv x ∈ e.syms → Sym.tv x ∉ dkeys d1 → trySolve o ssv d1 e x = some s →
      Reach o ssv eqs d (d1 ++ [(.tv x, storeValue o s)])

variable {o : SSOracle} {ssv : List TSym} {eqs : List SExpr}

theorem mem_ssIn {e : SExpr} {s : TSym} : s ∈ ssIn ssv e ↔ Sym.tv s ∈ e.syms ∧ s ∈ ssv := by
  simp [ssIn, mem_tsyms]

/-- what one turn does -/
theorem propEq_cases (st : List (Sym × SExpr) × Bool) (e : SExpr) :
    propEq o ssv st e = st ∨ ∃ x s, x ∈ ssv ∧ Sym.tv x ∈ e.syms ∧ Sym.tv x ∉ dkeys st.1 ∧ trySolve o ssv st.1 e x = some s ∧
      propEq o ssv st e = (st.1 ++ [(.tv x, storeValue o s)], true) := by
  unfold propEq
  split
  · rename_i x hx
    have hm : x ∈ (ssIn ssv e).filter fun s => Sym.tv s ∉ dkeys st.1 := by rw [hx]; simp
    rw [List.mem_filter, mem_ssIn] at hm
    have hnk : Sym.tv x ∉ dkeys st.1 := by simpa using hm.2
    split
    · rename_i s hs
      exact Or.inr ⟨x, s, hm.1.2, hm.1.1, hnk, hs, by rw [dset_new _ _ _ hnk]⟩
    · exact Or.inl rfl
  · exact Or.inl rfl

theorem reach_fold {d0} : ∀ (l : List SExpr), (∀ e ∈ l, e ∈ eqs) → ∀ st : List (Sym × SExpr) × Bool, Reach o ssv eqs d0 st.1 →
    Reach o ssv eqs d0 (l.foldl (propEq o ssv) st).1
  | [], _, _, h => h
  | e :: l, hl, st, h => by
    rw [List.foldl_cons]
    apply reach_fold l (fun e he => hl e (List.mem_cons_of_mem _ he))
    rcases propEq_cases (o := o) (ssv := ssv) st e with h1 | ⟨x, s, hx, hxe, hn, hs, h1⟩
    · rw [h1]; exact h
    · rw [h1]; exact .step h (hl e (List.mem_cons_self ..)) hx hxe hn hs

theorem reach_pass {d0 d} (h : Reach o ssv eqs d0 d) : Reach o ssv eqs d0 (propPass o ssv eqs d).1 :=
  reach_fold eqs (fun _ h => h) (d, false) h

theorem reach_loop {d0} : ∀ n d, Reach o ssv eqs d0 d → Reach o ssv eqs d0 (propLoop o ssv eqs n d)
  | 0, _, h => h
  | n + 1, d, h => by
    unfold propLoop
    split
    · exact reach_loop n _ (reach_pass h)
    · exact reach_pass h

theorem reach_result (o : SSOracle) (ss eqs vars n) : Reach o (ssVariables vars) eqs ss (propagateSS o ss eqs vars n) := reach_loop n ss .refl

/-- what a successful attempt at solving means -/
theorem trySolve_some {d e x s} (h : trySolve o ssv d e x = some s) :
    ssIn ssv (o.norm (e.subsSeq (o.ord d))) = [x] ∧ o.solve (o.norm (e.subsSeq (o.ord d))) x = some [s] ∧ o.simple s = true := by
  unfold trySolve at h
  simp only at h
  split at h
  · rename_i h1
    refine ⟨h1, ?_⟩
    split at h
    · rename_i s' h2
      split at h
      · rename_i h3
        simp only [Option.some.injEq] at h
        subst h
        exact ⟨h2, h3⟩
      · exact absurd h (by simp)
    · exact absurd h (by simp)
  · exact absurd h (by simp)

theorem subst_val (ho : o.Lawful) {d} {P : RealPath} (hP : P.Meets d) (e : SExpr) :
    (o.norm (e.subsSeq (o.ord d))).val P 0 = e.val P 0 := by
  rw [ho.norm]
  exact subsSeq_same_value P.val 0 e _ fun p hp => (hP p ((ho.ord d).mem_iff.mp hp)).symm

theorem store_val (ho : o.Lawful) (s : SExpr) (P : RealPath) : (storeValue o s).val P 0 = s.val P 0 := by
  unfold storeValue
  split
  · exact ho.flt s P 0
  · rfl

theorem meets_append {P : RealPath} {a b} : P.Meets (a ++ b) ↔ P.Meets a ∧ P.Meets b := by
  simp only [RealPath.Meets, List.mem_append]
  exact ⟨fun h => ⟨fun p hp => h p (Or.inl hp), fun p hp => h p (Or.inr hp)⟩, fun h p hp => hp.elim (h.1 p) (h.2 p)⟩

theorem reach_prefix {d d'} (h : Reach o ssv eqs d d') : ∃ added, d' = d ++ added ∧
    (∀ p ∈ added, ∃ x ∈ ssv, p.1 = .tv x ∧ p.1 ∉ dkeys d) ∧ (dkeys added).Nodup := by
  induction h with
  | refl => exact ⟨[], by simp, by simp, by simp [dkeys]⟩
  | @step d1 e x s _ _ hx _ hn _ ih =>
    obtain ⟨a, rfl, h1, h2⟩ := ih
    have hn' : Sym.tv x ∉ dkeys d ∧ Sym.tv x ∉ dkeys a := by
      simpa [dkeys, List.map_append, not_or] using hn
    refine ⟨a ++ [(.tv x, storeValue o s)], by simp, ?_, ?_⟩
    · intro p hp
      rcases List.mem_append.mp hp with hp | hp
      · exact h1 p hp
      · rw [List.mem_singleton] at hp; subst hp
        exact ⟨x, hx, rfl, hn'.1⟩
    · have : dkeys (a ++ [(Sym.tv x, storeValue o s)]) = dkeys a ++ [.tv x] := by simp [dkeys]
      rw [this, List.nodup_append]
      refine ⟨h2, by simp, ?_⟩
      intro b hb c hc hbc
      rw [List.mem_singleton] at hc
      subst hbc; subst hc
      exact hn'.2 hb

end SSt

open SSt

/-! ## C45 -/

/-- **C45** user values are kept, unchanged and in order; what is added are values of model variables the user gave no value for, each
variable once. -/
theorem C45_kept (o : SSOracle) (ss : List (Sym × SExpr)) (eqs : List SExpr) (vars : List TSym) (n : Nat) :
    ∃ added, propagateSS o ss eqs vars n = ss ++ added ∧ (dkeys added).Nodup ∧
      ∀ p ∈ added, p.1 ∉ dkeys ss ∧ ∃ v ∈ vars, p.1 = .tv (toSS v) := by
  obtain ⟨a, h1, h2, h3⟩ := reach_prefix (reach_result o ss eqs vars n)
  refine ⟨a, h1, h3, fun p hp => ?_⟩
  obtain ⟨x, hx, h4, h5⟩ := h2 p hp
  obtain ⟨v, hv, rfl⟩ := List.mem_map.mp hx
  exact ⟨h5, v, hv, h4⟩

/-- **C45** the value looked up for a user-provided name is the user's -/
theorem C45_lookup (o : SSOracle) (ss : List (Sym × SExpr)) (eqs : List SExpr) (vars : List TSym) (n : Nat) (k : Sym) (v : SExpr)
    (h : dget ss k = some v) : dget (propagateSS o ss eqs vars n) k = some v := by
  obtain ⟨a, h1, h0⟩ := C45_kept o ss eqs vars n
  rw [h1]
  clear h1 h0
  induction ss with
  | nil => simp [dget] at h
  | cons p ss ih =>
    simp only [List.cons_append, dget] at h ⊢
    split
    · rename_i hp
      rw [if_pos hp] at h; exact h
    · rename_i hp
      rw [if_neg hp] at h; exact ih h

namespace SSt

theorem reach_identity (ho : o.Lawful) (hs : o.Sound) {d d'} (h : Reach o ssv eqs d d') :
    ∀ p ∈ d', p ∈ d ∨ ∃ e ∈ eqs, p.1 ∈ e.syms ∧ ∀ P : RealPath, P.Meets d' → e.val P 0 = 0 := by
  induction h with
  | refl => intro p hp; exact Or.inl hp
  | @step d1 e x s _ he hx hxe hn ht ih =>
    intro p hp
    rcases List.mem_append.mp hp with hp | hp
    · rcases ih p hp with h | ⟨e', he', h1, h2⟩
      · exact Or.inl h
      · exact Or.inr ⟨e', he', h1, fun P hP => h2 P (meets_append.mp hP).1⟩
    · rw [List.mem_singleton] at hp; subst hp
      refine Or.inr ⟨e, he, hxe, fun P hP => ?_⟩
      obtain ⟨hP1, hP2⟩ := meets_append.mp hP
      obtain ⟨_, h2, _⟩ := trySolve_some ht
      have := hs _ _ _ h2 s (by simp) P (by rw [hP2 _ (List.mem_singleton_self _)]; exact store_val ho s P)
      rw [subst_val ho hP1] at this
      exact this

theorem reach_implied (ho : o.Lawful) (hc : o.Complete) {d d'} (h : Reach o ssv eqs d d') (P : RealPath) (hP : P.Meets d)
    (he : ∀ e ∈ eqs, e.val P 0 = 0) : P.Meets d' := by
  induction h with
  | refl => exact hP
  | @step d1 e x s _ hm hx hxe hn ht ih =>
    refine meets_append.mpr ⟨ih, ?_⟩
    intro p hp
    rw [List.mem_singleton] at hp; subst hp
    obtain ⟨_, h2, _⟩ := trySolve_some ht
    obtain ⟨s', hs', h3⟩ := hc _ _ _ h2 P (by rw [subst_val ho ih]; exact he e hm)
    rw [List.mem_singleton] at hs'; subst hs'
    rw [h3]; exact (store_val ho s' P).symm

theorem store_syms (ho : o.Lawful) {s : SExpr} {y} (hy : y ∈ (storeValue o s).syms) : y ∈ s.syms := by
  unfold storeValue at hy
  split at hy
  · exact ho.fltSyms s y hy
  · exact hy

theorem reach_closed (ho : o.Lawful) (hcl : o.Closed) {d d'} (h : Reach o ssv eqs d d') :
    ∀ p ∈ d', p ∈ d ∨ ∀ y ∈ ssv, Sym.tv y ∉ p.2.syms := by
  induction h with
  | refl => intro p hp; exact Or.inl hp
  | @step d1 e x s _ he hx hxe hn ht ih =>
    intro p hp
    rcases List.mem_append.mp hp with hp | hp
    · exact ih p hp
    · rw [List.mem_singleton] at hp; subst hp
      refine Or.inr fun y hy hys => ?_
      obtain ⟨h1, h2, _⟩ := trySolve_some ht
      obtain ⟨h3, h4⟩ := hcl _ _ _ h2 s (by simp) _ (store_syms ho hys)
      have : y ∈ ssIn ssv (o.norm (e.subsSeq (o.ord d1))) := mem_ssIn.mpr ⟨h3, hy⟩
      rw [h1, List.mem_singleton] at this
      exact h4 (by rw [this])

end SSt

/-- **C45** every added value makes an equation of the model that mentions its variable hold: at any parameters and steady-state values
where all entries of the result hold, that equation holds. -/
theorem C45_identity_holds (o : SSOracle) (ho : o.Lawful) (hs : o.Sound) (ss : List (Sym × SExpr)) (eqs : List SExpr) (vars : List TSym)
    (n : Nat) (p : Sym × SExpr) (hp : p ∈ propagateSS o ss eqs vars n) (hk : p.1 ∉ dkeys ss) :
    ∃ e ∈ eqs, p.1 ∈ e.syms ∧ ∀ P : RealPath, P.Meets (propagateSS o ss eqs vars n) → e.val P 0 = 0 := by
  rcases reach_identity ho hs (reach_result o ss eqs vars n) p hp with h | h
  · exact absurd (List.mem_map_of_mem h) hk
  · exact h

/-- **C45** only implied values are added: wherever the user's values and the model's equations hold, the whole result holds. -/
theorem C45_implied (o : SSOracle) (ho : o.Lawful) (hc : o.Complete) (ss : List (Sym × SExpr)) (eqs : List SExpr) (vars : List TSym)
    (n : Nat) (P : RealPath) (hP : P.Meets ss) (he : ∀ e ∈ eqs, e.val P 0 = 0) : P.Meets (propagateSS o ss eqs vars n) :=
  reach_implied ho hc (reach_result o ss eqs vars n) P hP he

/-- **C45** an added value is a closed form: it mentions no steady-state variable of the model. -/
theorem C45_closed_form (o : SSOracle) (ho : o.Lawful) (hcl : o.Closed) (ss : List (Sym × SExpr)) (eqs : List SExpr) (vars : List TSym)
    (n : Nat) (p : Sym × SExpr) (hp : p ∈ propagateSS o ss eqs vars n) (hk : p.1 ∉ dkeys ss) :
    ∀ v ∈ vars, Sym.tv (toSS v) ∉ p.2.syms := by
  rcases reach_closed ho hcl (reach_result o ss eqs vars n) p hp with h | h
  · exact absurd (List.mem_map_of_mem h) hk
  · exact fun v hv => h _ (List.mem_map_of_mem hv)

namespace SSt

/-- number of variables without a value -/
def missing (ssv : List TSym) (d : List (Sym × SExpr)) : Nat := (ssv.filter fun x => Sym.tv x ∉ dkeys d).length

theorem missing_lt {d} {x : TSym} {v} (hx : x ∈ ssv) (hn : Sym.tv x ∉ dkeys d) : missing ssv (d ++ [(.tv x, v)]) < missing ssv d := by
  unfold missing
  have hk : dkeys (d ++ [(Sym.tv x, v)]) = dkeys d ++ [.tv x] := by simp [dkeys]
  rw [hk]
  have : (ssv.filter fun y => Sym.tv y ∉ dkeys d ++ [Sym.tv x]) =
      (ssv.filter fun y => Sym.tv y ∉ dkeys d).filter fun y => decide (y ≠ x) := by
    rw [List.filter_filter]
    apply List.filter_congr
    intro y _
    simp [not_or, and_comm]
  rw [this]
  apply List.length_filter_lt_length_iff_exists.mpr
  exact ⟨x, by simp [hx, hn], by simp⟩

theorem fold_measure : ∀ (l : List SExpr) (st : List (Sym × SExpr) × Bool),
    missing ssv (l.foldl (propEq o ssv) st).1 ≤ missing ssv st.1 ∧
    ((l.foldl (propEq o ssv) st).2 = true → st.2 = true ∨ missing ssv (l.foldl (propEq o ssv) st).1 < missing ssv st.1)
  | [], st => ⟨le_refl _, fun h => Or.inl h⟩
  | e :: l, st => by
    rw [List.foldl_cons]
    obtain ⟨h1, h2⟩ := fold_measure l (propEq o ssv st e)
    rcases propEq_cases (o := o) (ssv := ssv) st e with h | ⟨x, s, hx, _, hn, _, h⟩
    · rw [h] at h1 h2 ⊢; exact ⟨h1, h2⟩
    · have hl := missing_lt (ssv := ssv) (v := storeValue o s) hx hn
      rw [h] at h1 h2 ⊢
      exact ⟨le_trans h1 hl.le, fun _ => Or.inr (lt_of_le_of_lt h1 hl)⟩

/-- without progress nothing changed and no equation could be solved -/
theorem fold_stuck : ∀ (l : List SExpr) (st : List (Sym × SExpr) × Bool), (l.foldl (propEq o ssv) st).2 = false →
    l.foldl (propEq o ssv) st = st ∧ ∀ e ∈ l, ∀ x, ((ssIn ssv e).filter fun s => Sym.tv s ∉ dkeys st.1) = [x] → trySolve o ssv st.1 e x = none
  | [], st, _ => ⟨rfl, by simp⟩
  | e :: l, st, h => by
    rw [List.foldl_cons] at h ⊢
    have mono : ∀ (l : List SExpr) (st : List (Sym × SExpr) × Bool), st.2 = true → (l.foldl (propEq o ssv) st).2 = true := by
      intro l
      induction l with
      | nil => intro st h; exact h
      | cons e l ih =>
        intro st h
        rw [List.foldl_cons]
        apply ih
        rcases propEq_cases (o := o) (ssv := ssv) st e with h1 | ⟨_, _, _, _, _, _, h1⟩
        · rw [h1]; exact h
        · rw [h1]
    rcases propEq_cases (o := o) (ssv := ssv) st e with h1 | ⟨x, s, _, _, _, _, h1⟩
    · rw [h1] at h ⊢
      obtain ⟨h2, h3⟩ := fold_stuck l st h
      refine ⟨h2, fun e' he' => ?_⟩
      rcases List.mem_cons.mp he' with rfl | he'
      · intro x hx
        cases ht : trySolve o ssv st.1 e' x with
        | none => rfl
        | some s =>
          exfalso
          unfold propEq at h1
          rw [hx] at h1
          simp only [ht] at h1
          have : st.2 = true := by rw [← h1]
          have h4 := mono l st this
          rw [h] at h4
          exact absurd h4 (by simp)
      · exact h3 e' he'
    · rw [h1] at h
      have := mono l _ (rfl : ((st.1 ++ [(Sym.tv x, storeValue o s)], true) : List (Sym × SExpr) × Bool).2 = true)
      rw [h] at this
      exact absurd this (by simp)

theorem loop_fixed : ∀ n d, missing ssv d < n → ∃ d', propLoop o ssv eqs n d = d' ∧ (propPass o ssv eqs d').2 = false
  | 0, d, h => by omega
  | n + 1, d, h => by
    unfold propLoop
    split
    · rename_i hp
      have := (fold_measure (o := o) (ssv := ssv) eqs (d, false)).2 hp
      rcases this with h1 | h1
      · exact absurd h1 (by simp)
      · exact loop_fixed n _ (by unfold propPass at *; simp only at h1; omega)
    · rename_i hp
      refine ⟨_, rfl, ?_⟩
      have hp' : (propPass o ssv eqs d).2 = false := by simpa using hp
      have := (fold_stuck eqs (d, false) hp').1
      unfold propPass at *
      rw [this]
      rw [this]

end SSt

namespace SSt

theorem eq_single {α : Type} {l : List α} (hn : l.Nodup) {x : α} (h : ∀ y, y ∈ l ↔ y = x) : l = [x] := by
  match l, hn, h with
  | [], _, h => exact absurd ((h x).mpr rfl) (by simp)
  | [a], _, h => rw [(h a).mp (by simp)]
  | a :: b :: l, hn, h =>
    have h1 := (h a).mp (by simp)
    have h2 := (h b).mp (by simp)
    rw [h1, h2] at hn
    simp at hn

theorem eraseDups_nodup {α : Type} [DecidableEq α] : ∀ (k : Nat) (l : List α), l.length ≤ k → l.eraseDups.Nodup
  | _, [], _ => by simp
  | 0, a :: l, h => by simp at h
  | k + 1, a :: l, h => by
    rw [List.eraseDups_cons, List.nodup_cons]
    refine ⟨by simp, eraseDups_nodup k _ ?_⟩
    have := List.length_filter_le (fun b => !b == a) l
    simp only [List.length_cons] at h
    omega

theorem ssIn_nodup (ssv : List TSym) (e : SExpr) : (ssIn ssv e).Nodup := List.Nodup.filter _ (eraseDups_nodup _ _ (Nat.le_refl _))

end SSt

/-- specification: `x` is the only steady-state variable of the equation that has no value yet -/
def OnlyUnknown (vars : List TSym) (d : List (Sym × SExpr)) (e : SExpr) (x : TSym) : Prop :=
  ∀ y, (y ∈ vars.map toSS ∧ Sym.tv y ∈ e.syms ∧ Sym.tv y ∉ dkeys d) ↔ y = x

/-- **C45** nothing is left undone: when the number of iterations exceeds the number of variables, an equation that still has exactly one
variable `x` without a value after the call is one that, with the known values substituted, does not have `x` as its only variable, or
has no unique simple solution for it. -/
theorem C45_exhaustive (o : SSOracle) (ss : List (Sym × SExpr)) (eqs : List SExpr) (vars : List TSym) (n : Nat)
    (hn : vars.length < n) (e : SExpr) (he : e ∈ eqs) (x : TSym) (hone : OnlyUnknown vars (propagateSS o ss eqs vars n) e x) :
    let e' := o.norm (e.subsSeq (o.ord (propagateSS o ss eqs vars n)))
    ¬ ((∀ y, (y ∈ vars.map toSS ∧ Sym.tv y ∈ e'.syms) ↔ y = x) ∧ ∃ s, o.solve e' x = some [s] ∧ o.simple s = true) := by
  intro e' hc
  have hm : missing (ssVariables vars) ss < n := by
    unfold missing
    have h2 := List.length_filter_le (fun x => decide (Sym.tv x ∉ dkeys ss)) (ssVariables vars)
    have h3 : (ssVariables vars).length = vars.length := by simp [ssVariables]
    omega
  obtain ⟨d', h1, h2⟩ := loop_fixed (o := o) (eqs := eqs) n ss hm
  have h3 : propagateSS o ss eqs vars n = d' := h1
  have hf : ((ssIn (ssVariables vars) e).filter fun s => Sym.tv s ∉ dkeys (propagateSS o ss eqs vars n)) = [x] := by
    refine eq_single ((ssIn_nodup _ _).filter _) fun y => ?_
    rw [← hone y, List.mem_filter, mem_ssIn]
    simp only [ssVariables, decide_eq_true_eq]
    tauto
  have hr : trySolve o (ssVariables vars) (propagateSS o ss eqs vars n) e x = none := by
    rw [h3] at hf ⊢
    exact (fold_stuck eqs (d', false) h2).2 e he x hf
  obtain ⟨h4, s, h5, h6⟩ := hc
  have h7 : ssIn (ssVariables vars) e' = [x] := by
    refine eq_single (ssIn_nodup _ _) fun y => ?_
    rw [← h4 y, mem_ssIn]
    simp only [ssVariables]
    tauto
  unfold trySolve at hr
  simp only at hr
  rw [if_pos h7, h5] at hr
  simp [h6] at hr

/-- **C45 violated** (what is not checked): an equation all of whose variables have user values is never looked at, so that
contradictory user values pass through: here `x = 1` is given although the model says `x - 2 = 0`. -/
theorem C45_contradiction_unnoticed (o : SSOracle) (n : Nat) :
    let x : TSym := ⟨['x'], .t 0, []⟩
    let ss : List (Sym × SExpr) := [(.tv (toSS x), .num 1)]
    let e : SExpr := .sub (.sym (.tv (toSS x))) (.num 2)
    propagateSS o ss [e] [x] n = ss ∧ ∀ P : RealPath, P.Meets ss → e.val P 0 ≠ 0 := by
  intro x ss e
  constructor
  · have h : ((ssIn (ssVariables [x]) e).filter fun s => Sym.tv s ∉ dkeys ss) = [] := by decide +kernel
    have hp : propPass o (ssVariables [x]) [e] ss = (ss, false) := by
      simp only [propPass, List.foldl_cons, List.foldl_nil, propEq]
      rw [h]
    unfold propagateSS
    cases n with
    | zero => rfl
    | succ n => unfold propLoop; rw [hp]; rfl
  · intro P hP
    have := hP (.tv (toSS x), .num 1) (by simp [ss])
    simp only [SExpr.val, SExpr.at, e, SExpr.sub] at this ⊢
    rw [this]
    simp only [RealPath.val]
    norm_num

/-! ## C70: the steady-state system -/

/-- the constant path: every variable stays at the steady-state value given by `P`, shocks are zero -/
noncomputable def RealPath.constant (P : RealPath) (shocks : List TSym) : RealPath where
  par := P.par
  path := fun b a _ => if (⟨b, .ss, a⟩ : TSym) ∈ shocks.map toSS then 0 else P.ss b a
  ss := fun b a => if (⟨b, .ss, a⟩ : TSym) ∈ shocks.map toSS then 0 else P.ss b a

/-- **C70** there is one steady-state equation for each model equation, in the same order, and at any parameters and steady-state values it
has (at every date) the value of the model equation along the constant path with shocks switched off. -/
theorem C70_system (simp : SExpr → SExpr) (hs : SameValues simp) (order : SExpr → List TSym) (ho : ∀ e s, s ∈ order e ↔ s ∈ e.tsyms)
    (eqs : List SExpr) (shocks : List TSym) :
    (systemToSS simp order eqs shocks).length = eqs.length ∧
    ∀ (i : Nat) (e : SExpr), eqs[i]? = some e → ∃ e' : SExpr, (systemToSS simp order eqs shocks)[i]? = some e' ∧
      ∀ (P : RealPath) (t : Int), e'.val P 0 = e.val (P.constant shocks) t := by
  refine ⟨by simp [systemToSS], fun i e he => ?_⟩
  refine ⟨simp (eqToSSIn (order e) shocks e), by simp [systemToSS, he], fun P t => ?_⟩
  rw [hs]
  have h := (C13_steady_state e shocks (order e) (ho e)).2 ℝ P.val 0 t
  have hc : P.val.stationary shocks = (P.constant shocks).val := by
    simp [Valuation.stationary, RealPath.constant, RealPath.val]
  rw [hc] at h
  exact h

/-- **C70** the steady-state system holds exactly when the constant path, with shocks switched off, solves the model at every date. -/
theorem C70_solves_iff (simp : SExpr → SExpr) (hs : SameValues simp) (order : SExpr → List TSym) (ho : ∀ e s, s ∈ order e ↔ s ∈ e.tsyms)
    (eqs : List SExpr) (shocks : List TSym) (P : RealPath) :
    (∀ e ∈ systemToSS simp order eqs shocks, e.val P 0 = 0) ↔ ∀ e ∈ eqs, ∀ t, e.val (P.constant shocks) t = 0 := by
  obtain ⟨_, h⟩ := C70_system simp hs order ho eqs shocks
  constructor
  · intro hp e he t
    obtain ⟨i, hi⟩ := List.mem_iff_getElem?.mp he
    obtain ⟨e', he', hv⟩ := h i e hi
    rw [← hv P t]
    exact hp e' (List.mem_of_getElem? he')
  · intro hp e' he'
    simp only [systemToSS, List.mem_map] at he'
    obtain ⟨e, he, rfl⟩ := he'
    obtain ⟨i, hi⟩ := List.mem_iff_getElem?.mp he
    obtain ⟨e', he', hv⟩ := h i e hi
    simp only [systemToSS, List.getElem?_map, hi, Option.map_some, Option.some.injEq] at he'
    rw [he', hv P 0]
    exact hp e he 0

/-- **C70** no dated variable and no shock is left -/
theorem C70_undated (simp : SExpr → SExpr) (hn : ∀ e, ∀ s ∈ (simp e).syms, s ∈ e.syms) (order : SExpr → List TSym)
    (ho : ∀ e s, s ∈ order e ↔ s ∈ e.tsyms) (eqs : List SExpr) (shocks : List TSym) :
    ∀ e ∈ systemToSS simp order eqs shocks, ∀ s ∈ e.tsyms, s.idx = .ss ∧ s ∉ shocks.map toSS := by
  intro e' he' s hs
  simp only [systemToSS, List.mem_map] at he'
  obtain ⟨e, he, rfl⟩ := he'
  exact (C13_steady_state e shocks (order e) (ho e)).1 s (mem_tsyms.mpr (hn _ _ (mem_tsyms.mp hs)))

/-! ## C71: error functions -/

namespace SSt

theorem sum_nonneg_eq_zero : ∀ (l : List ℝ), (∀ r ∈ l, 0 ≤ r) → 0 ≤ l.sum ∧ (l.sum = 0 ↔ ∀ r ∈ l, r = 0)
  | [], _ => by simp
  | a :: l, h => by
    obtain ⟨h1, h2⟩ := sum_nonneg_eq_zero l fun r hr => h r (List.mem_cons_of_mem _ hr)
    have ha := h a (List.mem_cons_self ..)
    rw [List.sum_cons]
    refine ⟨by linarith, ?_⟩
    rw [add_eq_zero_iff_of_nonneg ha h1, h2]
    simp

end SSt

/-- **C71** every documented error function is defined, non-negative, and zero exactly when all residuals are zero (for the mean: of at
least one residual). -/
theorem C71_error (resid : List ℝ) (f : ErrFn) (hf : f ≠ .other) (hm : f = .meanSquared → resid ≠ []) :
    ∃ v, errorFromResid resid f = some v ∧ 0 ≤ v ∧ (v = 0 ↔ ∀ r ∈ resid, r = 0) := by
  have hsq := sum_nonneg_eq_zero (resid.map fun r => r ^ 2) (by intro r hr; obtain ⟨a, _, rfl⟩ := List.mem_map.mp hr; positivity)
  have hz : (∀ r ∈ resid.map fun r => r ^ 2, r = 0) ↔ ∀ r ∈ resid, r = 0 := by simp
  cases f with
  | squared => exact ⟨_, rfl, hsq.1, hsq.2.trans hz⟩
  | meanSquared =>
    have hl : (0 : ℝ) < resid.length := by
      have := List.length_pos_iff.mpr (hm rfl)
      exact_mod_cast this
    refine ⟨_, rfl, div_nonneg hsq.1 hl.le, ?_⟩
    rw [div_eq_zero_iff, or_iff_left hl.ne']
    exact hsq.2.trans hz
  | abs =>
    have ha := sum_nonneg_eq_zero (resid.map fun r => |r|) (by intro r hr; obtain ⟨a, _, rfl⟩ := List.mem_map.mp hr; positivity)
    exact ⟨_, rfl, ha.1, ha.2.trans (by simp)⟩
  | l2norm =>
    refine ⟨_, rfl, Real.sqrt_nonneg _, ?_⟩
    rw [Real.sqrt_eq_zero hsq.1]
    exact hsq.2.trans hz
  | other => exact absurd rfl hf

/-- **C71** an unknown name is rejected, and the four names measure what they say -/
theorem C71_values (resid : List ℝ) :
    errorFromResid resid .other = none ∧
    errorFromResid resid .squared = some (resid.map fun r => r * r).sum ∧
    errorFromResid resid .meanSquared = some ((resid.map fun r => r * r).sum / resid.length) ∧
    errorFromResid resid .abs = some (resid.map fun r => |r|).sum ∧
    (∃ v, errorFromResid resid .l2norm = some v ∧ 0 ≤ v ∧ v * v = (resid.map fun r => r * r).sum) := by
  refine ⟨rfl, by simp [errorFromResid, sq], by simp [errorFromResid, sq], rfl, _, rfl, Real.sqrt_nonneg _, ?_⟩
  have hsq := sum_nonneg_eq_zero (resid.map fun r => r ^ 2) (by intro r hr; obtain ⟨a, _, rfl⟩ := List.mem_map.mp hr; positivity)
  rw [Real.mul_self_sqrt hsq.1]
  simp [sq]

/-! ## C72: substituting known steady-state values -/

namespace SSt

/-- keys already in the steady state: the known dictionary is the part of the given one about the model's variables -/
theorem knownOf_eq {ss : List (Sym × SExpr)} {V : List Sym} (hn : (dkeys ss).Nodup) (hss : ∀ k ∈ dkeys ss, safeToSS k = k) :
    knownOf ss V = ss.filter fun p => p.1 ∈ V := by
  unfold knownOf
  have h1 : ((ss.filter fun p => safeToSS p.1 ∈ V).map fun p => (safeToSS p.1, p.2)) = ss.filter fun p => p.1 ∈ V := by
    have h2 : (ss.filter fun p => safeToSS p.1 ∈ V) = ss.filter fun p => p.1 ∈ V :=
      List.filter_congr fun p hp => by rw [hss p.1 (List.mem_map_of_mem hp)]
    rw [h2]
    conv_rhs => rw [← List.map_id (ss.filter fun p => p.1 ∈ V)]
    apply List.map_congr_left
    intro p hp
    rw [hss p.1 (List.mem_map_of_mem (List.mem_filter.mp hp).1)]
    rfl
  rw [h1]
  have h3 := dupdate_fresh [] (ss.filter fun p => p.1 ∈ V) (by
    simp only [List.nil_append]
    exact List.Nodup.sublist (List.Sublist.map _ List.filter_sublist) hn)
  simpa using h3

end SSt

/-- **C72** the known values are the given ones (under steady-state keys) that are about variables of the system, in the given order -/
theorem C72_known (ss : List (Sym × SExpr)) (V : List Sym) (hn : (dkeys ss).Nodup) (hss : ∀ k ∈ dkeys ss, safeToSS k = k) :
    knownOf ss V = ss.filter fun p => p.1 ∈ V := SSt.knownOf_eq hn hss

/-- specification: the equation, with the known values put in, mentions some variable without a value -/
def StillUnknown (known : List (Sym × SExpr)) (V : List Sym) (e : SExpr) : Prop :=
  ∃ s ∈ (e.graphReplace known).syms, s ∈ V ∧ s ∉ dkeys known

namespace SSt

theorem filter_mem (eqs : List SExpr) (ss : List (Sym × SExpr)) (V : List Sym) (h : knownOf ss V ≠ []) (e' : SExpr) :
    e' ∈ substituteAndFilter eqs ss V ↔
      ∃ e ∈ eqs, StillUnknown (knownOf ss V) V e ∧ e' = e.graphReplace (knownOf ss V) := by
  unfold substituteAndFilter
  rw [if_neg (by simpa using h), List.mem_filter, List.mem_map]
  simp only [List.any_eq_true, decide_eq_true_eq]
  constructor
  · rintro ⟨⟨e, he, rfl⟩, h2⟩
    exact ⟨e, he, h2, rfl⟩
  · rintro ⟨e, he, h2, rfl⟩
    exact ⟨⟨e, he, rfl⟩, h2⟩

theorem subst_same {known} {P : RealPath} (hP : P.Meets known) (e : SExpr) : (e.graphReplace known).val P 0 = e.val P 0 := by
  refine replace_at P.val P.val 0 0 e _ ⟨rfl, rfl, rfl, rfl, rfl, rfl⟩ fun s _ => ?_
  cases h : dget known s with
  | none => rfl
  | some v => exact (hP (s, v) (mem_of_dget _ _ _ h)).symm

end SSt

/-- **C72** at values where the known entries hold, the reduced system holds exactly when those equations hold which, with the known values
put in, still mention a variable without a value. -/
theorem C72_same_solutions (eqs : List SExpr) (ss : List (Sym × SExpr)) (V : List Sym) (hne : knownOf ss V ≠ []) (P : RealPath)
    (hP : P.Meets (knownOf ss V)) :
    (∀ e ∈ substituteAndFilter eqs ss V, e.val P 0 = 0) ↔
      ∀ e ∈ eqs, StillUnknown (knownOf ss V) V e → e.val P 0 = 0 := by
  constructor
  · intro h e he hu
    rw [← subst_same hP e]
    exact h _ ((filter_mem eqs ss V hne _).mpr ⟨e, he, hu, rfl⟩)
  · intro h e' he'
    obtain ⟨e, he, hu, rfl⟩ := (filter_mem eqs ss V hne _).mp he'
    rw [subst_same hP]
    exact h e he hu

/-- **C72** every equation of the reduced system mentions a variable without a value -/
theorem C72_has_unknown (eqs : List SExpr) (ss : List (Sym × SExpr)) (V : List Sym) (hne : knownOf ss V ≠ []) :
    ∀ e ∈ substituteAndFilter eqs ss V, ∃ s ∈ e.syms, s ∈ V ∧ s ∉ dkeys (knownOf ss V) := by
  intro e' he'
  obtain ⟨e, _, hu, rfl⟩ := (filter_mem eqs ss V hne _).mp he'
  exact hu

/-- **C72** without known values of model variables the system is left as it is -/
theorem C72_nothing_known (eqs : List SExpr) (ss : List (Sym × SExpr)) (V : List Sym) (h : ∀ p ∈ ss, safeToSS p.1 ∉ V) :
    substituteAndFilter eqs ss V = eqs := by
  have : ss.filter (fun p => safeToSS p.1 ∈ V) = [] := by
    rw [List.filter_eq_nil_iff]
    intro p hp
    simpa using h p hp
  simp [substituteAndFilter, knownOf, this, dupdate]

/-- **C72** the system consists of the model's steady-state equations and the calibrating equations: both as they are when nothing is
known, both with the known values substituted otherwise. -/
theorem C72_system (ssEqs : List SExpr) (ss : List (Sym × SExpr)) (vars : List TSym) (calib : List (Sym × SExpr)) :
    (ss = [] → ssResidual ssEqs ss vars calib = ssEqs ++ calib.map Prod.snd) ∧
    (ss ≠ [] → ssResidual ssEqs ss vars calib =
      substituteAndFilter (ssEqs ++ calib.map Prod.snd) ss ((vars.map fun v => Sym.tv (toSS v)) ++ (dkeys calib).map safeToSS)) := by
  constructor
  · rintro rfl; simp [ssResidual]
  · intro h
    simp [ssResidual, h, ssVariables, Function.comp_def]

/-- a value in the dictionary mentions only variables whose own entry comes later (if any) -/
def Forward (d : List (Sym × SExpr)) : Prop := ∀ l1 p l2, d = l1 ++ p :: l2 → ∀ s ∈ p.2.syms, s ∉ dkeys (l1 ++ [p])

/-- **C72** when no known value mentions a known variable, no known variable is left in the reduced system: what remains are equations in
the unknowns and the parameters. -/
theorem C72_known_gone (eqs : List SExpr) (ss : List (Sym × SExpr)) (V : List Sym) (hne : knownOf ss V ≠ [])
    (hc : ∀ p ∈ knownOf ss V, ∀ s ∈ p.2.syms, s ∉ dkeys (knownOf ss V)) :
    ∀ e ∈ substituteAndFilter eqs ss V, ∀ s ∈ e.syms, s ∉ dkeys (knownOf ss V) := by
  intro e' he' s hs
  obtain ⟨e, _, _, rfl⟩ := (filter_mem eqs ss V hne _).mp he'
  rw [SExpr.graphReplace, syms_replace] at hs
  obtain ⟨q, _, hq⟩ := hs
  cases h : dget (knownOf ss V) q with
  | none =>
    rw [h] at hq
    simp only [Option.getD_none, SExpr.syms, List.mem_singleton] at hq
    subst hq
    exact (dget_eq_none _ _).1 h
  | some v =>
    rw [h] at hq
    exact hc (q, v) (mem_of_dget _ _ _ h) s hq

/-- **C72** after propagation this is the case when the user's values are about model variables and mention no model variable: then no value in
the propagated dictionary mentions a variable that has a value. -/
theorem C72_after_propagation (o : SSOracle) (ho : o.Lawful) (hcl : o.Closed) (ss : List (Sym × SExpr)) (eqs : List SExpr) (vars : List TSym)
    (n : Nat) (hv : ∀ k ∈ dkeys ss, ∃ v ∈ vars, k = .tv (toSS v)) (hc : ∀ p ∈ ss, ∀ v ∈ vars, Sym.tv (toSS v) ∉ p.2.syms) :
    ∀ p ∈ propagateSS o ss eqs vars n, ∀ s ∈ p.2.syms, s ∉ dkeys (propagateSS o ss eqs vars n) := by
  obtain ⟨added, h1, _, h3⟩ := C45_kept o ss eqs vars n
  intro p hp s hs hk
  obtain ⟨v, hvv, rfl⟩ : ∃ v ∈ vars, s = .tv (toSS v) := by
    rw [h1] at hk
    simp only [dkeys, List.map_append, List.mem_append] at hk
    rcases hk with hk | hk
    · exact hv s hk
    · obtain ⟨q, hq, rfl⟩ := List.mem_map.mp hk
      exact (h3 q hq).2
  have hpa := hp
  rw [h1] at hp
  rcases List.mem_append.mp hp with hp | hp
  · exact hc p hp v hvv hs
  · exact C45_closed_form o ho hcl ss eqs vars n p hpa (h3 p hp).1 v hvv hs

/-- **C45** if the user's values are about model variables and mention no variable that has a value itself, then in the propagated dictionary
values mention only variables whose own entries come later: the entries can be worked out from the last to the first. -/
theorem C45_order (o : SSOracle) (ho : o.Lawful) (hcl : o.Closed) (ss : List (Sym × SExpr)) (eqs : List SExpr) (vars : List TSym)
    (n : Nat) (hv : ∀ k ∈ dkeys ss, ∃ v ∈ vars, k = .tv (toSS v)) (hc : ∀ p ∈ ss, ∀ s ∈ p.2.syms, s ∉ dkeys ss) :
    Forward (propagateSS o ss eqs vars n) := by
  obtain ⟨added, h1, _, h3⟩ := C45_kept o ss eqs vars n
  have hadd : ∀ p ∈ added, ∀ v ∈ vars, Sym.tv (toSS v) ∉ p.2.syms := fun p hp =>
    C45_closed_form o ho hcl ss eqs vars n p (by rw [h1]; exact List.mem_append_right _ hp) (h3 p hp).1
  have hkeys : ∀ k ∈ dkeys (propagateSS o ss eqs vars n), ∃ v ∈ vars, k = .tv (toSS v) := by
    rw [h1]
    intro k hk
    simp only [dkeys, List.map_append, List.mem_append] at hk
    rcases hk with hk | hk
    · exact hv k hk
    · obtain ⟨p, hp, rfl⟩ := List.mem_map.mp hk
      exact (h3 p hp).2
  intro l1 p l2 he s hs hm
  rw [h1] at he
  rcases List.append_eq_append_iff.mp he with ⟨a, ha, hb⟩ | ⟨a, ha, hb⟩
  · -- the entry was added
    have hp : p ∈ added := by rw [hb]; simp
    obtain ⟨v, hv', rfl⟩ := hkeys s (by
      rw [h1, he]
      simp only [dkeys, List.map_append, List.mem_append, List.map_cons, List.mem_cons, List.map_nil, List.not_mem_nil, or_false] at hm ⊢
      tauto)
    exact hadd p hp v hv' hs
  · cases a with
    | nil =>
      have hp : p ∈ added := by
        simp only [List.nil_append] at hb
        rw [← hb]; simp
      obtain ⟨v, hv', rfl⟩ := hkeys s (by
        rw [h1, he]
        simp only [dkeys, List.map_append, List.mem_append, List.map_cons, List.mem_cons, List.map_nil, List.not_mem_nil, or_false] at hm ⊢
        tauto)
      exact hadd p hp v hv' hs
    | cons q a =>
      simp only [List.cons_append, List.cons.injEq] at hb
      obtain ⟨rfl, _⟩ := hb
      refine hc p (by rw [ha]; simp) s hs ?_
      rw [ha]
      simp only [dkeys, List.map_append, List.mem_append, List.map_cons, List.mem_cons, List.map_nil, List.not_mem_nil, or_false] at hm ⊢
      tauto

namespace SSt

def setSS (P : RealPath) (v : TSym) (y : ℝ) : RealPath := { P with ss := fun b a => if b = v.base ∧ a = v.asm then y else P.ss b a }

theorem setSS_other (P : RealPath) (v : TSym) (y : ℝ) (s : Sym) (h : s ≠ .tv (toSS v)) : (setSS P v y).val.symAt 0 s = P.val.symAt 0 s := by
  cases s with
  | par n => rfl
  | tv s =>
    obtain ⟨b, i, a⟩ := s
    cases i with
    | t k => rfl
    | ss =>
      have : ¬ (b = v.base ∧ a = v.asm) := by
        rintro ⟨rfl, rfl⟩
        exact h rfl
      simp [Valuation.symAt, RealPath.val, setSS, this]

theorem setSS_self (P : RealPath) (v : TSym) (y : ℝ) : (setSS P v y).val.symAt 0 (.tv (toSS v)) = y := by
  simp [Valuation.symAt, RealPath.val, setSS, toSS]

theorem setSS_val (P : RealPath) (v : TSym) (y : ℝ) (e : SExpr) (h : Sym.tv (toSS v) ∉ e.syms) : e.val (setSS P v y) 0 = e.val P 0 := by
  have := replace_at (setSS P v y).val P.val 0 0 e .sym ⟨rfl, rfl, rfl, rfl, rfl, rfl⟩
    (fun s hs => setSS_other P v y s (by rintro rfl; exact h hs))
  rw [replace_id] at this
  exact this

/-- a dictionary in which values mention only later entries can be met -/
theorem forward_met : ∀ (d : List (Sym × SExpr)), Forward d → (dkeys d).Nodup → (∀ k ∈ dkeys d, ∃ v : TSym, k = .tv (toSS v)) →
    ∀ P0 : RealPath, ∃ P : RealPath, P.par = P0.par ∧ P.Meets d
  | [], _, _, _, P0 => ⟨P0, rfl, by intro p hp; simp at hp⟩
  | p :: l, hf, hn, hk, P0 => by
    have hl : Forward l := by
      intro l1 q l2 h y hy hm
      refine hf (p :: l1) q l2 (by rw [h]; rfl) y hy ?_
      simp only [dkeys, List.cons_append, List.map_cons, List.mem_cons] at hm ⊢
      exact Or.inr hm
    simp only [dkeys, List.map_cons, List.nodup_cons] at hn
    obtain ⟨P, h1, h2⟩ := forward_met l hl hn.2 (fun k hk' => hk k (by simp only [dkeys, List.map_cons, List.mem_cons]; exact Or.inr hk')) P0
    obtain ⟨v, hv⟩ := hk p.1 (by simp [dkeys])
    refine ⟨setSS P v (p.2.val P 0), h1, ?_⟩
    intro q hq
    rcases List.mem_cons.mp hq with rfl | hq
    · rw [hv, setSS_self, setSS_val]
      intro hm
      exact hf [] q l rfl _ hm (by simp [dkeys, hv])
    · rw [setSS_other P v _ q.1 (by
        intro h
        apply hn.1
        rw [hv, ← h]
        exact List.mem_map_of_mem hq), setSS_val]
      · exact h2 q hq
      · intro hm
        obtain ⟨l1, l2, rfl⟩ := List.append_of_mem hq
        exact hf (p :: l1) q l2 rfl _ hm (by simp [dkeys, hv])

end SSt

/-- **C45** the result is consistent: if the user's values are about distinct model variables and mention no variable that has a value itself, then
for every choice of the parameters there are steady-state values at which all entries of the result, and hence all equations that were
used, hold at once. -/
theorem C45_consistent (o : SSOracle) (ho : o.Lawful) (hs : o.Sound) (hcl : o.Closed) (ss : List (Sym × SExpr)) (eqs : List SExpr)
    (vars : List TSym) (n : Nat) (hn : (dkeys ss).Nodup) (hv : ∀ k ∈ dkeys ss, ∃ v ∈ vars, k = .tv (toSS v))
    (hc : ∀ p ∈ ss, ∀ s ∈ p.2.syms, s ∉ dkeys ss) (P0 : RealPath) :
    ∃ P : RealPath, P.par = P0.par ∧ P.Meets (propagateSS o ss eqs vars n) ∧
      ∀ p ∈ propagateSS o ss eqs vars n, p.1 ∉ dkeys ss → ∃ e ∈ eqs, p.1 ∈ e.syms ∧ e.val P 0 = 0 := by
  obtain ⟨added, h1, h2, h3⟩ := C45_kept o ss eqs vars n
  have hkeys : dkeys (propagateSS o ss eqs vars n) = dkeys ss ++ dkeys added := by rw [h1]; simp [dkeys]
  obtain ⟨P, h4, h5⟩ := forward_met _ (C45_order o ho hcl ss eqs vars n hv hc)
    (by
      rw [hkeys, List.nodup_append]
      refine ⟨hn, h2, ?_⟩
      rintro a ha b hb rfl
      obtain ⟨p, hp, rfl⟩ := List.mem_map.mp hb
      exact (h3 p hp).1 ha)
    (by
      rw [hkeys]
      intro k hk
      rcases List.mem_append.mp hk with hk | hk
      · obtain ⟨v, _, h⟩ := hv k hk; exact ⟨v, h⟩
      · obtain ⟨p, hp, rfl⟩ := List.mem_map.mp hk
        obtain ⟨_, v, _, h⟩ := h3 p hp
        exact ⟨v, h⟩) P0
  refine ⟨P, h4, h5, fun p hp hk => ?_⟩
  obtain ⟨e, he, h6, h7⟩ := C45_identity_holds o ho hs ss eqs vars n p hp hk
  exact ⟨e, he, h6, h7 P h5⟩

/-- **C72 violated** (the full system): equations without unknowns are dropped, whether or not they hold. With `x = 1` given, the system
`x - 2 = 0, y - x = 0` is reduced to `y - 1 = 0`, whose solution does not solve the system. -/
theorem C72_dropped_violated :
    let x : Sym := .tv ⟨['x'], .ss, []⟩
    let y : Sym := .tv ⟨['y'], .ss, []⟩
    let eqs : List SExpr := [.sub (.sym x) (.num 2), .sub (.sym y) (.sym x)]
    substituteAndFilter eqs [(x, .num 1)] [x, y] = [.sub (.sym y) (.num 1)] ∧
      ∃ P : RealPath, P.Meets [(x, .num 1)] ∧ (∀ e ∈ substituteAndFilter eqs [(x, .num 1)] [x, y], e.val P 0 = 0) ∧ ¬ ∀ e ∈ eqs, e.val P 0 = 0 := by
  intro x y eqs
  have h : substituteAndFilter eqs [(x, .num 1)] [x, y] = [.sub (.sym y) (.num 1)] := by decide +kernel
  refine ⟨h, ⟨fun _ => 0, fun _ _ _ => 1, fun _ _ => 1⟩, ?_, ?_, ?_⟩
  · intro p hp
    rw [List.mem_singleton] at hp
    subst hp
    simp [x, Valuation.symAt, RealPath.val, SExpr.val, SExpr.at]
  · rw [h]
    intro e he
    rw [List.mem_singleton] at he
    subst he
    simp [y, Valuation.symAt, RealPath.val, SExpr.val, SExpr.at, SExpr.sub]
  · intro h
    have := h _ (List.mem_cons_self ..)
    simp [x, Valuation.symAt, RealPath.val, SExpr.val, SExpr.at, SExpr.sub] at this
    norm_num at this

/-! ## C73: known steady-state values under their names -/

theorem SSt.safe_idem (s : Sym) : safeToSS (safeToSS s) = safeToSS s := by cases s <;> rfl

/-- **C73** the compiled known values are listed in the order of the variables, each under its own name with the value given for it;
variables without a value are left out. -/
theorem C73_known (ss : List (Sym × SExpr)) (vars : List Sym) (hne : ss ≠ []) (hn : (vars.map safeToSS).Nodup) :
    ∃ out, knownSS ss vars = some out ∧ dkeys out = (vars.map safeToSS).filter (fun k => k ∈ dkeys ss) ∧
      ∀ p ∈ out, dget ss p.1 = some p.2 := by
  have hk : dkeys (((vars.map safeToSS).filter fun k => k ∈ dkeys ss).map fun k => (safeToSS k, (dget ss (safeToSS k)).getD (.num 0))) =
      (vars.map safeToSS).filter fun k => k ∈ dkeys ss := by
    rw [dkeys, List.map_map]
    conv_rhs => rw [← List.map_id ((vars.map safeToSS).filter fun k => k ∈ dkeys ss)]
    apply List.map_congr_left
    intro k hk
    obtain ⟨v, hv, rfl⟩ := List.mem_map.mp (List.mem_filter.mp hk).1
    exact safe_idem v
  have hd := dupdate_fresh ([] : List (Sym × SExpr))
    (((vars.map safeToSS).filter fun k => k ∈ dkeys ss).map fun k => (safeToSS k, (dget ss (safeToSS k)).getD (.num 0)))
    (by simp only [List.nil_append]; rw [hk]; exact hn.filter _)
  rw [List.nil_append] at hd
  unfold knownSS
  rw [if_neg (by simpa using hne), hd]
  refine ⟨_, rfl, hk, ?_⟩
  intro p hp
  obtain ⟨k, hk', rfl⟩ := List.mem_map.mp hp
  obtain ⟨h1, h2⟩ := List.mem_filter.mp hk'
  obtain ⟨v, hv, rfl⟩ := List.mem_map.mp h1
  have h3 : safeToSS v ∈ dkeys ss := by simpa using h2
  obtain ⟨w, hw⟩ := Option.isSome_iff_exists.mp ((dget_isSome ss _).mpr h3)
  simp only [safe_idem v, hw, Option.getD_some]

/-- **C73** in symbolic form, when every variable has a value, the same holds -/
theorem C73_symbolic_partial (ss : List (Sym × SExpr)) (vars : List Sym) (hne : ss ≠ []) (hn : (vars.map safeToSS).Nodup)
    (hall : ∀ s ∈ vars, safeToSS s ∈ dkeys ss) :
    ∃ out, knownSSSymbolic ss vars = some out ∧ dkeys out = vars.map safeToSS ∧ ∀ p ∈ out, dget ss p.1 = some p.2 := by
  obtain ⟨out, h1, h2, h3⟩ := C73_known ss vars hne hn
  have hf : (vars.map safeToSS).filter (fun k => k ∈ dkeys ss) = vars.map safeToSS := by
    rw [List.filter_eq_self]
    intro k hk
    obtain ⟨v, hv, rfl⟩ := List.mem_map.mp hk
    simpa using hall v hv
  rw [hf] at h2
  have hz : (vars.map safeToSS).zip (out.map Prod.snd) = out := by
    rw [← h2, dkeys]
    clear h1 h2 h3 hf
    induction out with
    | nil => rfl
    | cons p out ih => simp only [List.map_cons, List.zip_cons_cons]; rw [ih]
  have hd : dupdate ([] : List (Sym × SExpr)) out = out := by
    have := dupdate_fresh ([] : List (Sym × SExpr)) out (by rw [List.nil_append, h2]; exact hn)
    simpa using this
  exact ⟨out, by simp [knownSSSymbolic, h1, hz, hd], h2, h3⟩

/-- **C73 violated**: in symbolic form with a variable left out, the values are zipped with the wrong names: of the variables `x, y` only
`y` has a value (5), which is returned as that of `x`. -/
theorem C73_symbolic_violated :
    let x : Sym := .tv ⟨['x'], .t 0, []⟩
    let y : Sym := .tv ⟨['y'], .t 0, []⟩
    knownSSSymbolic [(safeToSS y, .num 5)] [x, y] = some [(safeToSS x, .num 5)] ∧ safeToSS x ≠ safeToSS y := by
  decide +kernel

/-! ## C74: quantities defined only for the steady-state block -/

/-- **C74** `simplify_provided_ss_equations` keeps one entry for each model variable the user gave a value for, in the same order, with
the same value wherever the user's equations hold; it fails exactly when the other definitions are circular. -/
theorem C74_simplified (ss : List (Sym × SExpr)) (vars : List TSym) :
    (simplifyProvided ss vars = none ↔ Circular (ss.filter fun p => p.1 ∉ (ssVariables vars).map Sym.tv)) ∧
    ∀ d, simplifyProvided ss vars = some d →
      dkeys d = (dkeys ss).filter (fun k => k ∈ vars.map fun v => Sym.tv (toSS v)) ∧
      ∀ P : RealPath, P.Meets ss → P.Meets d := by
  have hextra : ∀ k v, dget (ss.filter fun p => p.1 ∉ (ssVariables vars).map Sym.tv) k = some v → (k, v) ∈ ss :=
    fun k v h => (List.mem_filter.mp (mem_of_dget _ _ _ h)).1
  have hV : (ssVariables vars).map Sym.tv = vars.map fun v => Sym.tv (toSS v) := by simp [ssVariables]
  unfold simplifyProvided
  simp only
  split
  · rename_i he
    have he' : ss.filter (fun p => p.1 ∉ (ssVariables vars).map Sym.tv) = [] := by simpa using he
    constructor
    · rw [he']
      refine ⟨fun h => by simp at h, fun h => ?_⟩
      obtain ⟨k, hk⟩ := h
      have : ∀ a b, Relation.TransGen (DependsOn []) a b → False := by
        intro a b h
        induction h with
        | single h => simp [DependsOn, dkeys] at h
        | tail _ h _ => simp [DependsOn, dkeys] at h
      exact (this _ _ hk).elim
    · intro d hd
      simp only [Option.some.injEq] at hd
      subst hd
      refine ⟨?_, fun P hP => hP⟩
      symm
      rw [List.filter_eq_self]
      intro k hk
      obtain ⟨p, hp, rfl⟩ := List.mem_map.mp hk
      rw [List.filter_eq_nil_iff] at he'
      have := he' p hp
      rw [← hV]
      simpa using this
  · have ht := flatten_total (ss.filter fun p => p.1 ∉ (ssVariables vars).map Sym.tv)
    have hc := C15_cycle_iff (ss.filter fun p => p.1 ∉ (ssVariables vars).map Sym.tv)
    cases hfl : flattenSubs (ss.filter fun p => p.1 ∉ (ssVariables vars).map Sym.tv) with
    | none => exact absurd hfl ht
    | some o =>
      cases o with
      | none => exact ⟨⟨fun _ => hc.mp hfl, fun _ => rfl⟩, by simp⟩
      | some flat =>
        refine ⟨⟨fun h => by simp at h, fun h => ?_⟩, ?_⟩
        · have := hc.mpr h
          rw [hfl] at this
          simp at this
        · intro d hd
          simp only [Option.some.injEq] at hd
          subst hd
          constructor
          · rw [dkeys, List.map_map, dkeys, List.filter_map, hV]
            rfl
          · intro P hP p hp
            obtain ⟨q, hq, rfl⟩ := List.mem_map.mp hp
            have hq' := (List.mem_filter.mp hq).1
            simp only
            rw [hP q hq']
            symm
            refine subsSeq_same_value P.val 0 q.2 flat fun r hr => ?_
            exact C15_same_values _ hfl P.val 0 (fun k v hkv => hP (k, v) (hextra k v hkv)) r.1 r.2 hr

/-- **C74** when no auxiliary definition mentions its own symbol, the auxiliary symbols are gone from the values -/
theorem C74_auxiliaries_gone (ss : List (Sym × SExpr)) (vars : List TSym)
    (hself : ∀ p ∈ ss, p.1 ∉ p.2.syms) (d : List (Sym × SExpr)) (h : simplifyProvided ss vars = some d) :
    ∀ p ∈ d, ∀ k ∈ dkeys ss, (∀ v ∈ vars, k ≠ .tv (toSS v)) → k ∉ p.2.syms := by
  intro p hp k hk hkv hks
  have hV : (ssVariables vars).map Sym.tv = vars.map fun v => Sym.tv (toSS v) := by simp [ssVariables]
  have hkx : k ∈ dkeys (ss.filter fun p => p.1 ∉ (ssVariables vars).map Sym.tv) := by
    obtain ⟨q, hq, rfl⟩ := List.mem_map.mp hk
    refine List.mem_map_of_mem (List.mem_filter.mpr ⟨hq, ?_⟩)
    rw [hV]
    simp only [List.mem_map, not_exists, not_and]
    rw [decide_eq_true_eq]
    intro v hv h
    exact hkv v hv h.symm
  unfold simplifyProvided at h
  simp only at h
  split at h
  · rename_i he
    have he' : ss.filter (fun p => p.1 ∉ (ssVariables vars).map Sym.tv) = [] := by simpa using he
    rw [he'] at hkx
    simp [dkeys] at hkx
  · split at h
    · rename_i flat hfl
      simp only [Option.some.injEq] at h
      subst h
      obtain ⟨q, hq, rfl⟩ := List.mem_map.mp hp
      have hkeys := C15_keys _ hfl
      rcases syms_subsSeq q.2 flat k hks with ⟨_, h2⟩ | ⟨r, hr, h2⟩
      · exact h2 ((hkeys.2 k).mpr hkx)
      · exact C15_resolved_partial _ hfl (fun j v hjv => hself (j, v) (List.mem_filter.mp (mem_of_dget _ _ _ hjv)).1) r.1 r.2 hr k h2 hkx
    · exact absurd h (by simp)

/-! ## examples -/

namespace SSt

/-- an oracle that solves `x - r = 0` for `x` when `r` has no symbols -/
def linSolve (e : SExpr) (x : TSym) : Option (List SExpr) :=
  match e with
  | .add (.sym y) (.mul (.num q) r) => if y = .tv x ∧ q = -1 ∧ r.syms = [] then some [r] else none
  | _ => none

def linOracle : SSOracle := ⟨id, id, linSolve, fun _ => true, id⟩

theorem linSolve_some {e x l} (h : linSolve e x = some l) : ∃ r, e = .sub (.sym (.tv x)) r ∧ r.syms = [] ∧ l = [r] := by
  unfold linSolve at h
  split at h
  · rename_i y q r
    split at h
    · rename_i hc
      obtain ⟨rfl, rfl, h3⟩ := hc
      exact ⟨r, rfl, h3, by simpa using h.symm⟩
    · exact absurd h (by simp)
  · exact absurd h (by simp)

theorem lin_lawful : linOracle.Lawful :=
  ⟨fun _ => List.Perm.refl _, fun _ _ _ => rfl, fun _ _ _ => rfl, fun _ _ h => h, fun _ _ h => h⟩

theorem lin_val (P : RealPath) (x : TSym) (r : SExpr) :
    (SExpr.sub (.sym (.tv x)) r).val P 0 = 0 ↔ P.val.symAt 0 (.tv x) = r.val P 0 := by
  simp only [SExpr.val, SExpr.sub, SExpr.at]
  show P.val.symAt 0 (.tv x) + ((-1 : ℚ) : ℝ) * (r.at P.val 0) = 0 ↔ _
  push_cast
  constructor <;> intro h <;> linarith

theorem lin_sound : linOracle.Sound := by
  intro e x l h s hs P hP
  obtain ⟨r, rfl, _, rfl⟩ := linSolve_some h
  rw [List.mem_singleton] at hs; subst hs
  exact (lin_val P x s).mpr hP

theorem lin_complete : linOracle.Complete := by
  intro e x l h P hP
  obtain ⟨r, rfl, _, rfl⟩ := linSolve_some h
  exact ⟨r, by simp, (lin_val P x r).mp hP⟩

theorem lin_closed : linOracle.Closed := by
  intro e x l h s hs y hy
  obtain ⟨r, rfl, h2, rfl⟩ := linSolve_some h
  rw [List.mem_singleton] at hs; subst hs
  rw [h2] at hy
  simp at hy

/-- the variables of a chain -/
def X (i : Nat) : TSym := ⟨List.replicate i 'x', .ss, []⟩
/-- `x_{i+1} - x_i = 0` -/
def E (i : Nat) : SExpr := .sub (.sym (.tv (X (i + 1)))) (.sym (.tv (X i)))
/-- `x_0 = ... = x_k = 1` -/
def D (k : Nat) : List (Sym × SExpr) := (List.range (k + 1)).map fun i => (.tv (X i), .num 1)

theorem X_inj {i j : Nat} : X i = X j ↔ i = j := by
  constructor
  · intro h
    have := congrArg (fun s : TSym => s.base.length) h
    simpa [X] using this
  · rintro rfl; rfl

theorem mem_D {j k : Nat} : Sym.tv (X j) ∈ dkeys (D k) ↔ j ≤ k := by
  simp only [dkeys, D, List.map_map, List.mem_map, List.mem_range, Function.comp, Sym.tv.injEq, X_inj]
  constructor
  · rintro ⟨i, hi, rfl⟩; omega
  · intro h; exact ⟨j, by omega, rfl⟩

theorem subs_D (e : SExpr) (l : List Nat) : e.subsSeq (l.map fun i => (.tv (X i), .num 1)) =
    e.replace fun s => if s ∈ l.map (fun i => Sym.tv (X i)) then .num 1 else .sym s := by
  unfold SExpr.subsSeq
  induction l generalizing e with
  | nil => exact (replace_id e).symm.trans (replace_congr _ _ _ fun s _ => by simp)
  | cons z zs ih =>
    rw [List.map_cons, List.foldl_cons, ih, SExpr.subs1, replace_replace]
    apply replace_congr
    intro s _
    by_cases hs : s = .tv (X z)
    · simp [hs, SExpr.replace]
    · simp [hs, SExpr.replace]

theorem ssIn_E {ssv : List TSym} {i : Nat} (h1 : X i ∈ ssv) (h2 : X (i + 1) ∈ ssv) : ssIn ssv (E i) = [X (i + 1), X i] := by
  have hne : X i ≠ X (i + 1) := by rw [Ne, X_inj]; omega
  have ht : (E i).tsyms = [X (i + 1), X i] := rfl
  have : [X (i + 1), X i].eraseDups = [X (i + 1), X i] := by
    rw [List.eraseDups_cons]
    simp [hne, List.eraseDups_cons]
  simp [ssIn, ht, this, h1, h2]

theorem D_succ (k : Nat) : D (k + 1) = D k ++ [(.tv (X (k + 1)), .num 1)] := by
  unfold D
  rw [List.range_succ (n := k + 1)]
  simp

/-- the effect of one equation of the chain -/
theorem propEq_E {ssv : List TSym} {i k : Nat} {b : Bool} (h1 : X i ∈ ssv) (h2 : X (i + 1) ∈ ssv) :
    propEq linOracle ssv (D k, b) (E i) = if i = k then (D (k + 1), true) else (D k, b) := by
  unfold propEq
  rw [ssIn_E h1 h2]
  have hf : [X (i + 1), X i].filter (fun s => Sym.tv s ∉ dkeys (D k)) =
      if i < k then [] else if i = k then [X (i + 1)] else [X (i + 1), X i] := by
    simp only [List.filter_cons, List.filter_nil, mem_D, decide_eq_true_eq]
    split_ifs <;> first | omega | rfl
  rw [hf]
  by_cases hlt : i < k
  · rw [if_pos hlt, if_neg (by omega)]
  · rw [if_neg hlt]
    by_cases he : i = k
    · subst he
      rw [if_pos rfl, if_pos rfl]
      have hs : (E i).subsSeq (D i) = .sub (.sym (.tv (X (i + 1)))) (.num 1) := by
        unfold D
        rw [subs_D]
        simp [E, SExpr.sub, SExpr.replace, X_inj]
      have ht : trySolve linOracle ssv (D i) (E i) (X (i + 1)) = some (.num 1) := by
        unfold trySolve
        have hs' : linOracle.norm ((E i).subsSeq (linOracle.ord (D i))) = .sub (.sym (.tv (X (i + 1)))) (.num 1) := hs
        have hi : ssIn ssv (.sub (.sym (.tv (X (i + 1)))) (.num 1)) = [X (i + 1)] := by
          have ht : (SExpr.sub (.sym (.tv (X (i + 1)))) (.num 1)).tsyms = [X (i + 1)] := rfl
          simp [ssIn, ht, h2, List.eraseDups_cons]
        simp only [hs', hi, if_true]
        simp [linOracle, linSolve, SExpr.sub, SExpr.syms]
      simp only [ht]
      rw [dset_new _ _ _ (by rw [mem_D]; omega), D_succ]
      rfl
    · rw [if_neg he, if_neg he]

/-- a pass over the chain in the wrong order finds one value -/
theorem pass_chain {ssv : List TSym} (k : Nat) : ∀ (n : Nat), k < n → (∀ i ≤ n, X i ∈ ssv) →
    ((List.range n).reverse.map E).foldl (propEq linOracle ssv) (D k, false) = (D (k + 1), true) := by
  intro n
  have low : ∀ m, m ≤ k + 1 → (∀ i ≤ m, X i ∈ ssv) → ∀ b, ((List.range m).reverse.map E).foldl (propEq linOracle ssv) (D (k + 1), b) = (D (k + 1), b) := by
    intro m
    induction m with
    | zero => intro _ _ b; rfl
    | succ m ih =>
      intro hm hv b
      rw [List.range_succ, List.reverse_append, List.reverse_singleton, List.singleton_append, List.map_cons, List.foldl_cons,
        propEq_E (hv m (by omega)) (hv (m + 1) (by omega)), if_neg (by omega)]
      exact ih (by omega) (fun i hi => hv i (by omega)) b
  induction n with
  | zero => intro h; omega
  | succ n ih =>
    intro h hv
    rw [List.range_succ, List.reverse_append, List.reverse_singleton, List.singleton_append, List.map_cons, List.foldl_cons,
      propEq_E (hv n (by omega)) (hv (n + 1) (by omega))]
    by_cases hk : n = k
    · subst hk
      rw [if_pos rfl]
      exact low n (by omega) (fun i hi => hv i (by omega)) true
    · rw [if_neg hk]
      exact ih (by omega) fun i hi => hv i (by omega)

theorem loop_chain {ssv : List TSym} (n : Nat) (hv : ∀ i ≤ n, X i ∈ ssv) : ∀ m k, k + m ≤ n →
    propLoop linOracle ssv ((List.range n).reverse.map E) m (D k) = D (k + m) := by
  intro m
  induction m with
  | zero => intro k _; rfl
  | succ m ih =>
    intro k h
    unfold propLoop propPass
    rw [pass_chain k n (by omega) hv]
    simp only [if_true]
    rw [ih (k + 1) (by omega)]
    congr 1; omega

end SSt

/-- **C45 violated** (the limit on iterations): with `n` iterations (100 by default) a chain of `n + 1` identities listed in the wrong order is
left unfinished, although its last equation then has a single unknown with an evident solution. -/
theorem C45_iteration_limit_violated (n : Nat) :
    ∃ (o : SSOracle) (vars : List TSym) (ss : List (Sym × SExpr)) (eqs : List SExpr) (e : SExpr) (x : TSym),
      o.Lawful ∧ o.Sound ∧ o.Complete ∧ o.Closed ∧ e ∈ eqs ∧ OnlyUnknown vars (propagateSS o ss eqs vars n) e x ∧
      o.solve (o.norm (e.subsSeq (o.ord (propagateSS o ss eqs vars n)))) x = some [.num 1] ∧ o.simple (.num 1) = true := by
  have hss : ∀ i, toSS (X i) = X i := fun _ => rfl
  have hv : ∀ i ≤ n + 1, X i ∈ ssVariables ((List.range (n + 2)).map X) := by
    intro i hi
    simp only [ssVariables, List.mem_map, List.mem_range]
    exact ⟨X i, ⟨i, by omega, rfl⟩, rfl⟩
  have hr : propagateSS linOracle (D 0) ((List.range (n + 1)).reverse.map E) ((List.range (n + 2)).map X) n = D n := by
    have := loop_chain (n + 1) hv n 0 (by omega)
    rw [Nat.zero_add] at this
    exact this
  refine ⟨linOracle, (List.range (n + 2)).map X, D 0, (List.range (n + 1)).reverse.map E, E n, X (n + 1), lin_lawful, lin_sound,
    lin_complete, lin_closed, ?_, ?_, ?_, rfl⟩
  · exact List.mem_map_of_mem (by simp)
  · rw [hr]
    intro y
    constructor
    · rintro ⟨_, h2, h3⟩
      have h4 : y = X (n + 1) ∨ y = X n := by simpa [E, SExpr.sub, SExpr.syms] using h2
      rcases h4 with rfl | rfl
      · rfl
      · rw [mem_D] at h3; omega
    · rintro rfl
      refine ⟨?_, by simp [E, SExpr.sub, SExpr.syms], by rw [mem_D]; omega⟩
      simp only [List.mem_map, List.mem_range]
      exact ⟨X (n + 1), ⟨n + 1, by omega, rfl⟩, rfl⟩
  · rw [hr]
    have hs : (E n).subsSeq (D n) = .sub (.sym (.tv (X (n + 1)))) (.num 1) := by
      unfold D
      rw [subs_D]
      simp [E, SExpr.sub, SExpr.replace, X_inj]
    have : linOracle.norm ((E n).subsSeq (linOracle.ord (D n))) = .sub (.sym (.tv (X (n + 1)))) (.num 1) := hs
    rw [this]
    simp [linOracle, linSolve, SExpr.sub, SExpr.syms]

/-- the hypotheses of the C45 theorems are met by a chain of two identities given in the wrong order: both values are found -/
example : linOracle.Lawful ∧ linOracle.Sound ∧ linOracle.Complete ∧ linOracle.Closed ∧
    propagateSS linOracle [(.tv (X 0), .num 1)] [E 1, E 0] [X 0, X 1, X 2] =
      [(.tv (X 0), .num 1), (.tv (X 1), .num 1), (.tv (X 2), .num 1)] :=
  ⟨lin_lawful, lin_sound, lin_complete, lin_closed, by decide +kernel⟩

/-- and there are values at which all entries hold -/
example : ∃ P : RealPath, P.Meets [(.tv (X 0), .num 1), (.tv (X 1), .num 1), (.tv (X 2), .num 1)] :=
  ⟨⟨fun _ => 0, fun _ _ _ => 1, fun _ _ => 1⟩, by
    intro p hp
    simp only [List.mem_cons, List.not_mem_nil, or_false] at hp
    rcases hp with rfl | rfl | rfl <;> simp [X, Valuation.symAt, RealPath.val, SExpr.val, SExpr.at]⟩

/-- C72: `x = 2 a`, `y = 3` given; the equations become an equation in `z` and the parameter `a` -/
example :
    let x : Sym := .tv ⟨['x'], .ss, []⟩
    let y : Sym := .tv ⟨['y'], .ss, []⟩
    let z : Sym := .tv ⟨['z'], .ss, []⟩
    let ss : List (Sym × SExpr) := [(x, .mul (.num 2) (.sym (.par ['a']))), (y, .num 3)]
    knownOf ss [x, y, z] = ss ∧ (∀ p ∈ knownOf ss [x, y, z], ∀ s ∈ p.2.syms, s ∉ dkeys (knownOf ss [x, y, z])) ∧
    substituteAndFilter [.sub (.sym x) (.sym z), .sub (.sym y) (.num 3)] ss [x, y, z] = [.sub (.mul (.num 2) (.sym (.par ['a']))) (.sym z)] := by
  decide +kernel

/-- **C72 violated** (known variables remain): a given value which mentions another known variable brings that variable back. With `x = 2 y`
and `y = 3` given, the equation `x = z` becomes `2 y = z`, although `y` is known. -/
theorem C72_remains_violated :
    let x : Sym := .tv ⟨['x'], .ss, []⟩
    let y : Sym := .tv ⟨['y'], .ss, []⟩
    let z : Sym := .tv ⟨['z'], .ss, []⟩
    let ss : List (Sym × SExpr) := [(x, .mul (.num 2) (.sym y)), (y, .num 3)]
    y ∈ dkeys (knownOf ss [x, y, z]) ∧
    substituteAndFilter [.sub (.sym x) (.sym z), .sub (.sym y) (.num 3)] ss [x, y, z] = [.sub (.mul (.num 2) (.sym y)) (.sym z)] := by
  decide +kernel

example : Forward [(Sym.tv ⟨['x'], .ss, []⟩, .mul (.num 2) (.sym (.tv ⟨['y'], .ss, []⟩))), (Sym.tv ⟨['y'], .ss, []⟩, .num 3)] := by
  intro l1 p l2 h s hs
  match l1, h with
  | [], h =>
    simp only [List.nil_append, List.cons.injEq] at h
    obtain ⟨rfl, _⟩ := h
    simp [SExpr.syms] at hs
    subst hs
    simp [dkeys]
  | [q], h =>
    simp only [List.cons_append, List.nil_append, List.cons.injEq] at h
    obtain ⟨_, rfl, _⟩ := h
    simp [SExpr.syms] at hs
  | q :: r :: l1, h => simp at h

/-- C73, C74: concrete cases -/
example :
    let x : Sym := .tv ⟨['x'], .t 0, []⟩
    let y : Sym := .tv ⟨['y'], .t 0, []⟩
    knownSS [(safeToSS y, .num 5), (safeToSS x, .num 7)] [x, y] = some [(safeToSS x, .num 7), (safeToSS y, .num 5)] := by
  decide +kernel

example :
    let x : Sym := .tv ⟨['x'], .t 0, []⟩
    simplifyProvided [(.par ['q'], .num 4), (safeToSS x, .mul (.num 2) (.sym (.par ['q'])))] [⟨['x'], .t 0, []⟩] =
      some [(safeToSS x, .mul (.num 2) (.num 4))] := by
  intro x
  simp [x, simplifyProvided, flattenSubs, resolve, resolveLoop, flatDeps, dkeys, dget, dset, SExpr.syms, SExpr.subsSeq, SExpr.subs1,
    SExpr.replace, ssVariables, safeToSS, toSS]

end GE
