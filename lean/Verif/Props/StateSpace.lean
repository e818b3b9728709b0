import Verif.Model.StateSpace
import Mathlib.Algebra.BigOperators.Group.Finset.Basic
import Mathlib.Tactic.Linarith
import Mathlib.Tactic.Ring
/-! # C92, C93: mixed-frequency and observation-equation state space

A trajectory of the estimated model is a sequence of augmented state vectors moved by `ssm["transition"]` and `ssm["selection"]`. What the
user asked to observe (a sum, a mean, a value, a linear observation equation with lags) is stated on the original variables only. -/

namespace GE

/-- the state vector follows the estimated state equation with shocks `eps` -/
def SSCfg.Follows (c : SSCfg) (m : ℕ) (T R : NMat) (x : ℕ → ℕ → ℝ) (eps : ℕ → ℕ → ℝ) : Prop :=
  ∀ t i, i < c.kAug → x (t + 1) i =
    ∑ j ∈ Finset.range c.kAug, c.transition T i j * x t j + ∑ s ∈ Finset.range m, c.selection R i s * eps (t + 1) s

/-- row `i` of the design matrix applied to the state of date `t` -/
noncomputable def SSCfg.observe (c : SSCfg) (x : ℕ → ℕ → ℝ) (t i : ℕ) : ℝ := ∑ j ∈ Finset.range c.kAug, c.design i j * x t j

/-- the series reported at date `t` for a per-period series `g`: the sum or mean of the last `s` periods, else the current value -/
noncomputable def aggregate (a : Option Agg) (s : ℕ) (g : ℕ → ℝ) (t : ℕ) : ℝ :=
  match a with
  | some .sum => ∑ d ∈ Finset.range s, g (t - d)
  | some .mean => (∑ d ∈ Finset.range s, g (t - d)) / s
  | _ => g t

/-- what a user may pass to `configure` -/
structure SSCfg.Ok (c : SSCfg) : Prop where
  varsNodup : c.vars.Nodup
  aggNodup : (dkeys c.agg).Nodup
  eqNodup : (dkeys c.obsEqs).Nodup
  aggObserved : ∀ v ∈ dkeys c.agg, v ∈ c.observed
  observedKnown : ∀ v ∈ c.observed, v ∈ c.vars ∨ v ∈ dkeys c.obsEqs
  period : (∃ p ∈ c.agg, p.2.cumulates = true) → 2 ≤ c.period
  coeffs : ∀ p ∈ c.obsEqs, ∀ kc ∈ p.2.coeffs, kc.1.1 ∈ c.vars ∧ kc.1.2 ≤ 0

namespace SSp

/-! ### entries of built matrices -/

theorem foldl_setAt {ι : Type} (l : List ι) (r cc : ι → ℕ) (v : ℝ) (M : NMat) (a b : ℕ) :
    (l.foldl (fun M p => M.setAt (r p) (cc p) v) M) a b = open Classical in if ∃ p ∈ l, r p = a ∧ cc p = b then v else M a b := by
  induction l generalizing M with
  | nil => simp
  | cons p l ih =>
    rw [List.foldl_cons, ih]
    by_cases h : ∃ q ∈ l, r q = a ∧ cc q = b
    · rw [if_pos h, if_pos]
      obtain ⟨q, hq, h1⟩ := h
      exact ⟨q, by simp [hq], h1⟩
    · rw [if_neg h]
      by_cases h2 : r p = a ∧ cc p = b
      · rw [if_pos ⟨p, by simp, h2⟩]
        simp [NMat.setAt, h2.1, h2.2]
      · rw [if_neg]
        · unfold NMat.setAt
          rw [if_neg]
          rintro ⟨rfl, rfl⟩
          exact h2 ⟨rfl, rfl⟩
        · rintro ⟨q, hq, h1⟩
          rcases List.mem_cons.1 hq with rfl | hq
          · exact h2 h1
          · exact h ⟨q, hq, h1⟩

/-! ### layout of the lag chains -/

theorem keys_startsFrom (off : ℕ) (ds : List (Str × ℕ)) : dkeys (SSCfg.startsFrom off ds) = dkeys ds := by
  induction ds generalizing off with
  | nil => rfl
  | cons p ds ih =>
    obtain ⟨v, d⟩ := p
    simp only [SSCfg.startsFrom, dkeys, List.map_cons] at *
    rw [← ih (off + d)]

/-- start of a chain -/
def startOf (off : ℕ) (ds : List (Str × ℕ)) (v : Str) : ℕ := (dget (SSCfg.startsFrom off ds) v).getD 0

theorem startOf_cons (off : ℕ) (w : Str) (d : ℕ) (ds : List (Str × ℕ)) (v : Str) :
    startOf off ((w, d) :: ds) v = if w = v then off else startOf (off + d) ds v := by
  unfold startOf
  simp only [SSCfg.startsFrom, dget]
  split <;> simp

theorem startOf_bounds (off : ℕ) (ds : List (Str × ℕ)) (hn : (dkeys ds).Nodup) (p : Str × ℕ) (hp : p ∈ ds) :
    off ≤ startOf off ds p.1 ∧ startOf off ds p.1 + p.2 ≤ off + (ds.map Prod.snd).sum := by
  induction ds generalizing off with
  | nil => simp at hp
  | cons q ds ih =>
    obtain ⟨w, d⟩ := q
    rw [startOf_cons]
    simp only [dkeys, List.map_cons, List.nodup_cons] at hn
    rcases List.mem_cons.1 hp with rfl | hp
    · simp
    · have hne : w ≠ p.1 := fun h => hn.1 (h ▸ List.mem_map_of_mem hp)
      rw [if_neg hne]
      have := ih (off + d) hn.2 hp
      simp only [List.map_cons, List.sum_cons]
      omega

theorem startOf_inj (off : ℕ) (ds : List (Str × ℕ)) (hn : (dkeys ds).Nodup) (p q : Str × ℕ) (hp : p ∈ ds) (hq : q ∈ ds)
    (a b : ℕ) (ha : a < p.2) (hb : b < q.2) (h : startOf off ds p.1 + a = startOf off ds q.1 + b) : p = q ∧ a = b := by
  induction ds generalizing off with
  | nil => simp at hp
  | cons r ds ih =>
    obtain ⟨w, d⟩ := r
    rw [startOf_cons, startOf_cons] at h
    have hn' := hn
    simp only [dkeys, List.map_cons, List.nodup_cons] at hn
    rcases List.mem_cons.1 hp with rfl | hp <;> rcases List.mem_cons.1 hq with rfl | hq
    · refine ⟨rfl, ?_⟩
      simp only [if_true] at h
      omega
    · have hne : w ≠ q.1 := fun h => hn.1 (h ▸ List.mem_map_of_mem hq)
      rw [if_pos rfl, if_neg hne] at h
      have := startOf_bounds (off + d) ds hn.2 q hq
      simp only at ha
      omega
    · have hne : w ≠ p.1 := fun h => hn.1 (h ▸ List.mem_map_of_mem hp)
      rw [if_neg hne, if_pos rfl] at h
      have := startOf_bounds (off + d) ds hn.2 p hp
      simp only at hb
      omega
    · have hne : w ≠ p.1 := fun h => hn.1 (h ▸ List.mem_map_of_mem hp)
      have hne2 : w ≠ q.1 := fun h => hn.1 (h ▸ List.mem_map_of_mem hq)
      rw [if_neg hne, if_neg hne2] at h
      exact ih (off + d) hn.2 hp hq h

/-! ### depths -/

theorem depthStep_nodup (br : ℕ) (d : List (Str × ℕ)) (k : Str × Int) (h : (dkeys d).Nodup) : (dkeys (SSCfg.depthStep br d k)).Nodup := by
  unfold SSCfg.depthStep
  dsimp only
  split
  · exact dset_nodup _ _ _ h
  · exact h

theorem foldl_depth_nodup (br : ℕ) (ks : List (Str × Int)) (d : List (Str × ℕ)) (h : (dkeys d).Nodup) :
    (dkeys (ks.foldl (SSCfg.depthStep br) d)).Nodup := by
  induction ks generalizing d with
  | nil => exact h
  | cons k ks ih => exact ih _ (depthStep_nodup br d k h)

theorem depths_nodup (c : SSCfg) : (dkeys c.depths).Nodup := by
  unfold SSCfg.depths
  have key : ∀ (l : List (Str × ObsEq)) (d : List (Str × ℕ)), (dkeys d).Nodup →
      (dkeys (l.foldl (fun d p => (p.2.coeffs.map Prod.fst).foldl (SSCfg.depthStep (if c.cumulates p.1 then c.period - 1 else 0)) d) d)).Nodup := by
    intro l
    induction l with
    | nil => exact fun d h => h
    | cons p l ih => exact fun d h => ih _ (foldl_depth_nodup _ _ _ h)
  exact key _ _ (by simp [dkeys])

/-- the value recorded for a name, zero when there is none -/
def depthOf (d : List (Str × ℕ)) (v : Str) : ℕ := (dget d v).getD 0

theorem depthOf_step (br : ℕ) (d : List (Str × ℕ)) (k : Str × Int) (v : Str) :
    depthOf (SSCfg.depthStep br d k) v = if k.1 = v then max (depthOf d v) ((-k.2 + br).toNat) else depthOf d v := by
  unfold SSCfg.depthStep depthOf
  dsimp only
  split
  · rw [dget_dset]
    split
    · rename_i h; subst h; simp
    · rfl
  · split
    · rename_i h h2
      have : (-k.2 + (br : Int)).toNat = 0 := by omega
      rw [this]; simp
    · rfl

theorem depthOf_mono (br : ℕ) (ks : List (Str × Int)) (d : List (Str × ℕ)) (v : Str) :
    depthOf d v ≤ depthOf (ks.foldl (SSCfg.depthStep br) d) v := by
  induction ks generalizing d with
  | nil => exact le_rfl
  | cons k ks ih =>
    refine le_trans ?_ (ih _)
    rw [depthOf_step]
    split
    · exact le_max_left _ _
    · exact le_rfl

theorem depthOf_ge (br : ℕ) (ks : List (Str × Int)) (d : List (Str × ℕ)) (k : Str × Int) (hk : k ∈ ks) :
    (-k.2 + br).toNat ≤ depthOf (ks.foldl (SSCfg.depthStep br) d) k.1 := by
  induction ks generalizing d with
  | nil => simp at hk
  | cons a ks ih =>
    rcases List.mem_cons.1 hk with rfl | hk
    · refine le_trans ?_ (depthOf_mono br ks _ _)
      rw [depthOf_step, if_pos rfl]
      exact le_max_right _ _
    · exact ih _ hk

theorem depths_ge (c : SSCfg) (p : Str × ObsEq) (hp : p ∈ c.obsEqs) (kc : (Str × Int) × ℝ) (hk : kc ∈ p.2.coeffs) :
    (-kc.1.2 + ((if c.cumulates p.1 then c.period - 1 else 0 : ℕ) : Int)).toNat ≤ depthOf c.depths kc.1.1 := by
  unfold SSCfg.depths
  have mono : ∀ (l : List (Str × ObsEq)) (d : List (Str × ℕ)) (v : Str), depthOf d v ≤
      depthOf (l.foldl (fun d p => (p.2.coeffs.map Prod.fst).foldl (SSCfg.depthStep (if c.cumulates p.1 then c.period - 1 else 0)) d) d) v := by
    intro l
    induction l with
    | nil => exact fun d v => le_rfl
    | cons p l ih => exact fun d v => le_trans (depthOf_mono _ _ _ _) (ih _ v)
  have key : ∀ (l : List (Str × ObsEq)) (d : List (Str × ℕ)), p ∈ l →
      (-kc.1.2 + ((if c.cumulates p.1 then c.period - 1 else 0 : ℕ) : Int)).toNat ≤
      depthOf (l.foldl (fun d p => (p.2.coeffs.map Prod.fst).foldl (SSCfg.depthStep (if c.cumulates p.1 then c.period - 1 else 0)) d) d) kc.1.1 := by
    intro l
    induction l with
    | nil => intro d h; simp at h
    | cons q l ih =>
      intro d h
      rcases List.mem_cons.1 h with rfl | h
      · refine le_trans ?_ (mono l _ _)
        exact depthOf_ge _ _ _ _ (List.mem_map_of_mem hk)
      · exact ih _ h
  exact key _ _ hp

theorem depth_pos (c : SSCfg) (q : Str × ℕ) (hq : q ∈ c.depths) : 0 < q.2 := by
  have step : ∀ (br : ℕ) (ks : List (Str × Int)) (d : List (Str × ℕ)), (∀ p ∈ d, 0 < p.2) → ∀ p ∈ ks.foldl (SSCfg.depthStep br) d, 0 < p.2 := by
    intro br ks
    induction ks with
    | nil => exact fun d h => h
    | cons k ks ih =>
      intro d hd
      refine ih _ ?_
      unfold SSCfg.depthStep
      dsimp only
      split
      · rename_i hpos
        have aux : ∀ (d : List (Str × ℕ)), (∀ p ∈ d, 0 < p.2) → ∀ (v : Str) (n : ℕ), 0 < n → ∀ p ∈ dset d v n, 0 < p.2 := by
          intro d
          induction d with
          | nil => intro _ v n hn p hp; simp only [dset, List.mem_singleton] at hp; subst hp; exact hn
          | cons r d ih2 =>
            obtain ⟨w, m⟩ := r
            intro hd v n hn p hp
            simp only [dset] at hp
            split at hp
            · rcases List.mem_cons.1 hp with rfl | hp
              · exact hn
              · exact hd p (by simp [hp])
            · rcases List.mem_cons.1 hp with rfl | hp
              · exact hd _ (by simp)
              · exact ih2 (fun p hp => hd p (by simp [hp])) v n hn p hp
        exact aux d hd _ _ (by omega)
      · exact hd
  have key : ∀ (l : List (Str × ObsEq)) (d : List (Str × ℕ)), (∀ p ∈ d, 0 < p.2) → ∀ p ∈
      l.foldl (fun d p => (p.2.coeffs.map Prod.fst).foldl (SSCfg.depthStep (if c.cumulates p.1 then c.period - 1 else 0)) d) d, 0 < p.2 := by
    intro l
    induction l with
    | nil => exact fun d h => h
    | cons p l ih => exact fun d h => ih _ (step _ _ _ h)
  exact key c.obsEqs [] (by simp) q hq

theorem depthOf_mem (d : List (Str × ℕ)) (v : Str) (h : 0 < depthOf d v) : (v, depthOf d v) ∈ d := by
  induction d with
  | nil => simp [depthOf, dget] at h
  | cons p d ih =>
    obtain ⟨w, k⟩ := p
    unfold depthOf at *
    simp only [dget] at *
    split at h
    · rename_i e; subst e; simp
    · rename_i e; rw [if_neg e]; exact List.mem_cons_of_mem _ (ih h)

/-- every name with a recorded depth is a variable of some coefficient -/
theorem depths_vars (c : SSCfg) (hc : c.Ok) (v : Str) (h : v ∈ dkeys c.depths) : v ∈ c.vars := by
  have step : ∀ (br : ℕ) (ks : List (Str × Int)), (∀ k ∈ ks, k.1 ∈ c.vars) → ∀ d : List (Str × ℕ), (∀ v ∈ dkeys d, v ∈ c.vars) →
      ∀ v ∈ dkeys (ks.foldl (SSCfg.depthStep br) d), v ∈ c.vars := by
    intro br ks
    induction ks with
    | nil => exact fun _ d h => h
    | cons k ks ih =>
      intro hk d hd
      refine ih (fun k' h' => hk k' (by simp [h'])) _ ?_
      unfold SSCfg.depthStep
      dsimp only
      split
      · intro v hv
        rcases (mem_dkeys_dset _ _ _ _).1 hv with rfl | hv
        · exact hk k (by simp)
        · exact hd v hv
      · exact hd
  have key : ∀ (l : List (Str × ObsEq)), (∀ p ∈ l, p ∈ c.obsEqs) → ∀ (d : List (Str × ℕ)), (∀ v ∈ dkeys d, v ∈ c.vars) → ∀ v ∈
      dkeys (l.foldl (fun d p => (p.2.coeffs.map Prod.fst).foldl (SSCfg.depthStep (if c.cumulates p.1 then c.period - 1 else 0)) d) d), v ∈ c.vars := by
    intro l
    induction l with
    | nil => exact fun _ d h => h
    | cons p l ih =>
      intro hl d hd
      refine ih (fun q hq => hl q (by simp [hq])) _ (step _ _ ?_ _ hd)
      intro k hk
      obtain ⟨kc, hkc, rfl⟩ := List.mem_map.1 hk
      exact (hc.coeffs p (hl p (by simp)) kc hkc).1
  exact key c.obsEqs (fun _ h => h) [] (by simp [dkeys]) v h

/-! ### cumulators -/

theorem cumVars_nodup (c : SSCfg) (hc : c.Ok) : c.cumVars.Nodup := by
  unfold SSCfg.cumVars
  exact (hc.aggNodup).sublist (List.filter_sublist.map _)

theorem mem_cumVars (c : SSCfg) (hc : c.Ok) (v : Str) : v ∈ c.cumVars ↔ c.cumulates v = true ∧ v ∉ dkeys c.obsEqs := by
  unfold SSCfg.cumVars SSCfg.cumulates
  constructor
  · intro h
    obtain ⟨p, hp, rfl⟩ := List.mem_map.1 h
    obtain ⟨h1, h2⟩ := List.mem_filter.1 hp
    simp only [Bool.and_eq_true, decide_eq_true_eq] at h2
    have : dget c.agg p.1 = some p.2 := by
      clear h h2 hp
      have hn := hc.aggNodup
      revert h1 hn
      generalize c.agg = l
      induction l with
      | nil => simp
      | cons q l ih =>
        obtain ⟨w, k⟩ := q
        intro h1 hn
        simp only [dkeys, List.map_cons, List.nodup_cons] at hn
        rcases List.mem_cons.1 h1 with rfl | h1
        · simp [dget]
        · have hne : w ≠ p.1 := fun h => hn.1 (h ▸ List.mem_map_of_mem h1)
          simp only [dget, if_neg hne]
          exact ih h1 hn.2
    rw [this]
    exact ⟨by simpa using h2.1, h2.2⟩
  · rintro ⟨h1, h2⟩
    cases h : dget c.agg v with
    | none => rw [h] at h1; simp at h1
    | some a =>
      rw [h] at h1
      simp only [Option.map_some, Option.getD_some] at h1
      refine List.mem_map.2 ⟨(v, a), List.mem_filter.2 ⟨?_, by simp [h1, h2]⟩, rfl⟩
      clear h1 h2
      revert h
      generalize c.agg = l
      induction l with
      | nil => simp [dget]
      | cons q l ih =>
        obtain ⟨w, k⟩ := q
        simp only [dget]
        split
        · rename_i e; subst e
          intro h; cases h; simp
        · exact fun h => List.mem_cons_of_mem _ (ih h)

theorem cumVars_vars (c : SSCfg) (hc : c.Ok) (v : Str) (h : v ∈ c.cumVars) : v ∈ c.vars := by
  have h2 := ((mem_cumVars c hc v).1 h).2
  have h1 : v ∈ dkeys c.agg := by
    unfold SSCfg.cumVars at h
    obtain ⟨p, hp, rfl⟩ := List.mem_map.1 h
    exact List.mem_map_of_mem (List.mem_filter.1 hp).1
  exact (hc.observedKnown v (hc.aggObserved v h1)).resolve_right h2

theorem period_of_cum (c : SSCfg) (hc : c.Ok) (v : Str) (h : c.cumulates v = true) : 2 ≤ c.period := by
  refine hc.period ?_
  unfold SSCfg.cumulates at h
  cases h' : dget c.agg v with
  | none => rw [h'] at h; simp at h
  | some a =>
    rw [h'] at h
    refine ⟨(v, a), ?_, by simpa using h⟩
    revert h'
    generalize c.agg = l
    induction l with
    | nil => simp [dget]
    | cons q l ih =>
      obtain ⟨w, k⟩ := q
      simp only [dget]
      split
      · rename_i e; subst e
        intro h; cases h; simp
      · exact fun h => List.mem_cons_of_mem _ (ih h)

/-! ### rows of the transition matrix -/

theorem cumF (c : SSCfg) (a b : ℕ) :
    (c.cumVars.zipIdx.foldl c.loadCum NMat.zeros) a b =
      open Classical in if ∃ pos, ∃ h : pos < c.cumVars.length, pos * (c.period - 1) = a ∧ c.vars.idxOf (c.cumVars[pos]) = b then 1 else 0 := by
  have := foldl_setAt c.cumVars.zipIdx (fun p => p.2 * (c.period - 1)) (fun p => c.vars.idxOf p.1) 1 NMat.zeros a b
  unfold SSCfg.loadCum
  rw [this]
  have : (∃ p ∈ c.cumVars.zipIdx, p.2 * (c.period - 1) = a ∧ c.vars.idxOf p.1 = b) ↔
      ∃ pos, ∃ h : pos < c.cumVars.length, pos * (c.period - 1) = a ∧ c.vars.idxOf (c.cumVars[pos]) = b := by
    constructor
    · rintro ⟨⟨v, pos⟩, hp, h1, h2⟩
      have := List.mem_zipIdx hp
      simp only [Nat.zero_le, Nat.zero_add, Nat.sub_zero, true_and] at this
      obtain ⟨h3, h4⟩ := this
      exact ⟨pos, h3, h1, by rw [← h4]; exact h2⟩
    · rintro ⟨pos, h, h1, h2⟩
      exact ⟨(c.cumVars[pos], pos), by simp [List.mem_zipIdx_iff_getElem?, h], h1, h2⟩
  simp only [this, NMat.zeros]

theorem nCum_slot (c : SSCfg) (pos l : ℕ) (hpos : pos < c.cumVars.length) (hl : l < c.period - 1) :
    pos * (c.period - 1) + l < c.nCum := by
  unfold SSCfg.nCum
  calc pos * (c.period - 1) + l < pos * (c.period - 1) + (c.period - 1) := by omega
    _ = (pos + 1) * (c.period - 1) := by ring
    _ ≤ c.cumVars.length * (c.period - 1) := Nat.mul_le_mul_right _ hpos

/-- the rows of the original variables -/
theorem aug_orig (c : SSCfg) (T : NMat) (i j : ℕ) (hi : i < c.vars.length) (hj : j < c.vars.length + c.nCum) :
    c.augTransition T i j = if j < c.vars.length then T i j else 0 := by
  unfold SSCfg.augTransition
  split
  · rename_i h
    have : c.nCum = 0 := by simp [SSCfg.nCum, h]
    rw [if_pos (by omega)]
  · simp only [NMat.block, if_pos hi, NMat.zeros]

/-- the rows of the cumulators -/
theorem aug_cum (c : SSCfg) (hc : c.Ok) (T : NMat) (pos l j : ℕ) (hpos : pos < c.cumVars.length) (hl : l < c.period - 1) :
    c.augTransition T (c.vars.length + (pos * (c.period - 1) + l)) j =
      if j = (if l = 0 then c.vars.idxOf (c.cumVars[pos]) else c.vars.length + (pos * (c.period - 1) + l) - 1) then 1 else 0 := by
  have hidx : c.vars.idxOf (c.cumVars[pos]) < c.vars.length :=
    List.idxOf_lt_length_iff.2 (cumVars_vars c hc _ (List.getElem_mem hpos))
  have hm : 0 < c.period - 1 := by omega
  unfold SSCfg.augTransition
  rw [if_neg (by intro h; rw [h] at hpos; simp at hpos)]
  unfold NMat.block
  rw [if_neg (by omega)]
  have hsub : c.vars.length + (pos * (c.period - 1) + l) - c.vars.length = pos * (c.period - 1) + l := by omega
  rw [hsub]
  by_cases hjk : j < c.vars.length
  · rw [if_pos hjk, cumF c]
    by_cases hl0 : l = 0
    · rw [if_pos hl0]
      subst hl0
      by_cases e : j = c.vars.idxOf (c.cumVars[pos])
      · rw [if_pos e, if_pos ⟨pos, hpos, by omega, e.symm⟩]
      · rw [if_neg e, if_neg]
        rintro ⟨p2, h2, h3, h4⟩
        have : p2 = pos := Nat.eq_of_mul_eq_mul_right hm (by omega)
        subst this
        exact e h4.symm
    · rw [if_neg hl0, if_neg (show ¬ j = c.vars.length + (pos * (c.period - 1) + l) - 1 by omega), if_neg]
      rintro ⟨p2, h2, h3, h4⟩
      have h5 : (p2 * (c.period - 1)) % (c.period - 1) = (pos * (c.period - 1) + l) % (c.period - 1) := by rw [h3]
      rw [Nat.mul_mod_left, Nat.mul_comm, Nat.mul_add_mod, Nat.mod_eq_of_lt hl] at h5
      omega
  · rw [if_neg hjk]
    unfold NMat.kronEye SSCfg.shiftMat
    have hd : (pos * (c.period - 1) + l) / (c.period - 1) = pos := by
      rw [Nat.mul_comm, Nat.mul_add_div hm, Nat.div_eq_of_lt hl]; omega
    have hmod : (pos * (c.period - 1) + l) % (c.period - 1) = l := by
      rw [Nat.mul_comm, Nat.mul_add_mod, Nat.mod_eq_of_lt hl]
    rw [hd, hmod]
    have hq := Nat.div_add_mod (j - c.vars.length) (c.period - 1)
    by_cases e : j = (if l = 0 then c.vars.idxOf (c.cumVars[pos]) else c.vars.length + (pos * (c.period - 1) + l) - 1)
    · rw [if_pos e]
      have hl0 : l ≠ 0 := by
        intro h0; rw [if_pos h0] at e; omega
      rw [if_neg hl0] at e
      have hj' : j - c.vars.length = pos * (c.period - 1) + (l - 1) := by omega
      have hd2 : (j - c.vars.length) / (c.period - 1) = pos := by
        rw [hj', Nat.mul_comm, Nat.mul_add_div hm, Nat.div_eq_of_lt (by omega)]; omega
      have hm2 : (j - c.vars.length) % (c.period - 1) = l - 1 := by
        rw [hj', Nat.mul_comm, Nat.mul_add_mod, Nat.mod_eq_of_lt (by omega)]
      rw [if_pos hd2.symm, if_pos (by omega)]
    · rw [if_neg e]
      split
      · rename_i h1
        rw [if_neg]
        intro h2
        apply e
        rw [if_neg (by omega)]
        rw [← h1, Nat.mul_comm] at hq
        omega
      · rfl

/-- the chains as two matrices -/
theorem chains (c : SSCfg) (a b : ℕ) :
    ((c.depths.foldl (c.chainStep (c.vars.length + c.nCum)) (NMat.zeros, NMat.zeros)).1 a b =
      open Classical in if ∃ p ∈ c.depths, startOf (c.vars.length + c.nCum) c.depths p.1 - (c.vars.length + c.nCum) = a ∧ c.vars.idxOf p.1 = b then 1 else 0) ∧
    ((c.depths.foldl (c.chainStep (c.vars.length + c.nCum)) (NMat.zeros, NMat.zeros)).2 a b =
      open Classical in if ∃ p ∈ c.depths, ∃ k, 1 ≤ k ∧ k < p.2 ∧
        startOf (c.vars.length + c.nCum) c.depths p.1 - (c.vars.length + c.nCum) + k = a ∧
        startOf (c.vars.length + c.nCum) c.depths p.1 - (c.vars.length + c.nCum) + k - 1 = b then 1 else 0) := by
  have key : ∀ (l : List (Str × ℕ)) (s : NMat × NMat),
      ((l.foldl (c.chainStep (c.vars.length + c.nCum)) s).1 a b =
        open Classical in if ∃ p ∈ l, startOf (c.vars.length + c.nCum) c.depths p.1 - (c.vars.length + c.nCum) = a ∧ c.vars.idxOf p.1 = b then 1 else s.1 a b) ∧
      ((l.foldl (c.chainStep (c.vars.length + c.nCum)) s).2 a b =
        open Classical in if ∃ p ∈ l, ∃ k, 1 ≤ k ∧ k < p.2 ∧
          startOf (c.vars.length + c.nCum) c.depths p.1 - (c.vars.length + c.nCum) + k = a ∧
          startOf (c.vars.length + c.nCum) c.depths p.1 - (c.vars.length + c.nCum) + k - 1 = b then 1 else s.2 a b) := by
    intro l
    induction l with
    | nil => intro s; simp
    | cons p l ih =>
      intro s
      rw [List.foldl_cons]
      obtain ⟨h1, h2⟩ := ih (c.chainStep (c.vars.length + c.nCum) s p)
      rw [h1, h2]
      constructor
      · by_cases h : ∃ q ∈ l, startOf (c.vars.length + c.nCum) c.depths q.1 - (c.vars.length + c.nCum) = a ∧ c.vars.idxOf q.1 = b
        · rw [if_pos h, if_pos]
          obtain ⟨q, hq, h'⟩ := h
          exact ⟨q, by simp [hq], h'⟩
        · rw [if_neg h]
          unfold SSCfg.chainStep
          change (NMat.setAt s.1 (startOf (c.vars.length + c.nCum) c.depths p.1 - (c.vars.length + c.nCum)) (c.vars.idxOf p.1) 1) a b = _
          unfold NMat.setAt
          by_cases h3 : a = startOf (c.vars.length + c.nCum) c.depths p.1 - (c.vars.length + c.nCum) ∧ b = c.vars.idxOf p.1
          · rw [if_pos h3, if_pos ⟨p, by simp, h3.1.symm, h3.2.symm⟩]
          · rw [if_neg h3, if_neg]
            rintro ⟨q, hq, h4⟩
            rcases List.mem_cons.1 hq with rfl | hq
            · exact h3 ⟨h4.1.symm, h4.2.symm⟩
            · exact h ⟨q, hq, h4⟩
      · have hfold := foldl_setAt (List.range' 1 (p.2 - 1)) (fun k => startOf (c.vars.length + c.nCum) c.depths p.1 - (c.vars.length + c.nCum) + k)
          (fun k => startOf (c.vars.length + c.nCum) c.depths p.1 - (c.vars.length + c.nCum) + k - 1) 1 s.2 a b
        have hs : (c.chainStep (c.vars.length + c.nCum) s p).2 = (List.range' 1 (p.2 - 1)).foldl (fun C k =>
          NMat.setAt C (startOf (c.vars.length + c.nCum) c.depths p.1 - (c.vars.length + c.nCum) + k)
            (startOf (c.vars.length + c.nCum) c.depths p.1 - (c.vars.length + c.nCum) + k - 1) 1) s.2 := rfl
        rw [hs, hfold]
        by_cases h : ∃ q ∈ l, ∃ k, 1 ≤ k ∧ k < q.2 ∧
          startOf (c.vars.length + c.nCum) c.depths q.1 - (c.vars.length + c.nCum) + k = a ∧
          startOf (c.vars.length + c.nCum) c.depths q.1 - (c.vars.length + c.nCum) + k - 1 = b
        · rw [if_pos h, if_pos]
          obtain ⟨q, hq, h'⟩ := h
          exact ⟨q, by simp [hq], h'⟩
        · rw [if_neg h]
          by_cases h3 : ∃ k ∈ List.range' 1 (p.2 - 1), startOf (c.vars.length + c.nCum) c.depths p.1 - (c.vars.length + c.nCum) + k = a ∧
              startOf (c.vars.length + c.nCum) c.depths p.1 - (c.vars.length + c.nCum) + k - 1 = b
          · rw [if_pos h3, if_pos]
            obtain ⟨k, hk, h4, h5⟩ := h3
            rw [List.mem_range'_1] at hk
            exact ⟨p, by simp, k, hk.1, by omega, h4, h5⟩
          · rw [if_neg h3, if_neg]
            rintro ⟨q, hq, k, h4, h5, h6⟩
            rcases List.mem_cons.1 hq with rfl | hq
            · exact h3 ⟨k, List.mem_range'_1.2 ⟨h4, by omega⟩, h6⟩
            · exact h ⟨q, hq, k, h4, h5, h6⟩
  have := key c.depths (NMat.zeros, NMat.zeros)
  simpa [NMat.zeros] using this

theorem trans_prev (c : SSCfg) (T : NMat) (i j : ℕ) (hi : i < c.vars.length + c.nCum) (hj : j < c.kAug) :
    c.transition T i j = if j < c.vars.length + c.nCum then c.augTransition T i j else 0 := by
  unfold SSCfg.transition SSCfg.appendLags
  split
  · rename_i h
    rw [if_pos (by unfold SSCfg.kAug at hj; omega)]
  · simp only [NMat.block, if_pos hi, NMat.zeros]

/-- the rows of the original variables -/
theorem trans_orig (c : SSCfg) (T : NMat) (i j : ℕ) (hi : i < c.vars.length) (hj : j < c.kAug) :
    c.transition T i j = if j < c.vars.length then T i j else 0 := by
  rw [trans_prev c T i j (by omega) hj]
  split
  · rename_i h; exact aug_orig c T i j hi h
  · rw [if_neg (by omega)]

theorem trans_cum (c : SSCfg) (hc : c.Ok) (T : NMat) (pos l j : ℕ) (hpos : pos < c.cumVars.length) (hl : l < c.period - 1) (hj : j < c.kAug) :
    c.transition T (c.vars.length + (pos * (c.period - 1) + l)) j =
      if j = (if l = 0 then c.vars.idxOf (c.cumVars[pos]) else c.vars.length + (pos * (c.period - 1) + l) - 1) then 1 else 0 := by
  have hs := nCum_slot c pos l hpos hl
  have hidx : c.vars.idxOf (c.cumVars[pos]) < c.vars.length :=
    List.idxOf_lt_length_iff.2 (cumVars_vars c hc _ (List.getElem_mem hpos))
  rw [trans_prev c T _ j (by omega) hj]
  split
  · exact aug_cum c hc T pos l j hpos hl
  · rw [if_neg]
    split <;> omega

theorem trans_lag (c : SSCfg) (hc : c.Ok) (T : NMat) (p : Str × ℕ) (hp : p ∈ c.depths) (l j : ℕ) (hl : l < p.2) :
    c.transition T (startOf (c.vars.length + c.nCum) c.depths p.1 + l) j =
      if j = (if l = 0 then c.vars.idxOf p.1 else startOf (c.vars.length + c.nCum) c.depths p.1 + l - 1) then 1 else 0 := by
  have hn := depths_nodup c
  have hb := startOf_bounds (c.vars.length + c.nCum) c.depths hn p hp
  have hidx : c.vars.idxOf p.1 < c.vars.length := List.idxOf_lt_length_iff.2 (depths_vars c hc _ (List.mem_map_of_mem hp))
  unfold SSCfg.transition SSCfg.appendLags
  have hne : c.nObsLag ≠ 0 := by unfold SSCfg.nObsLag; omega
  rw [if_neg hne]
  unfold NMat.block
  rw [if_neg (by omega)]
  have hch := chains c
  by_cases hj : j < c.vars.length + c.nCum
  · rw [if_pos hj, (hch _ _).1]
    by_cases hl0 : l = 0
    · subst hl0
      rw [if_pos rfl]
      by_cases e : j = c.vars.idxOf p.1
      · rw [if_pos e, if_pos ⟨p, hp, by omega, e.symm⟩]
      · rw [if_neg e, if_neg]
        rintro ⟨q, hq, h1, h2⟩
        have hbq := startOf_bounds (c.vars.length + c.nCum) c.depths hn q hq
        by_cases hq0 : 0 < q.2
        · have := startOf_inj (c.vars.length + c.nCum) c.depths hn p q hp hq 0 0 hl hq0 (by omega)
          rw [this.1] at e
          exact e h2.symm
        · exact absurd (depth_pos c q hq) hq0
    · rw [if_neg hl0, if_neg (show ¬ j = startOf (c.vars.length + c.nCum) c.depths p.1 + l - 1 by omega), if_neg]
      rintro ⟨q, hq, h1, h2⟩
      have hbq := startOf_bounds (c.vars.length + c.nCum) c.depths hn q hq
      have := startOf_inj (c.vars.length + c.nCum) c.depths hn p q hp hq l 0 hl (depth_pos c q hq) (by omega)
      exact hl0 this.2
  · rw [if_neg hj, (hch _ _).2]
    by_cases e : j = (if l = 0 then c.vars.idxOf p.1 else startOf (c.vars.length + c.nCum) c.depths p.1 + l - 1)
    · have hl0 : l ≠ 0 := by
        intro h0; rw [if_pos h0] at e; omega
      rw [if_pos e]
      rw [if_neg hl0] at e
      rw [if_pos ⟨p, hp, l, by omega, hl, by omega, by omega⟩]
    · rw [if_neg e, if_neg]
      rintro ⟨q, hq, k, h1, h2, h3, h4⟩
      have hbq := startOf_bounds (c.vars.length + c.nCum) c.depths hn q hq
      have := startOf_inj (c.vars.length + c.nCum) c.depths hn p q hp hq l k hl h2 (by omega)
      obtain ⟨rfl, rfl⟩ := this
      apply e
      rw [if_neg (by omega)]
      omega

/-! ### trajectories -/

theorem sum_unit (N a : ℕ) (f : ℕ → ℝ) (ha : a < N) : ∑ j ∈ Finset.range N, (if j = a then (1 : ℝ) else 0) * f j = f a := by
  rw [Finset.sum_eq_single a]
  · simp
  · intro b _ hb; simp [hb]
  · intro h; exact absurd (Finset.mem_range.2 ha) h

theorem selection_extra (c : SSCfg) (R : NMat) (i s : ℕ) (hi : c.vars.length ≤ i) (hk : i < c.kAug) : c.selection R i s = 0 := by
  unfold SSCfg.selection
  rw [if_neg (by unfold SSCfg.kAug at hk; omega)]
  simp only [if_neg (show ¬ i < c.vars.length by omega)]

theorem selection_orig (c : SSCfg) (R : NMat) (i s : ℕ) (hi : i < c.vars.length) : c.selection R i s = R i s := by
  unfold SSCfg.selection
  split
  · rfl
  · simp only [if_pos hi]

variable {c : SSCfg} {m : ℕ} {T R : NMat} {x eps : ℕ → ℕ → ℝ}

theorem lag_slot (hc : c.Ok) (hf : c.Follows m T R x eps) (p : Str × ℕ) (hp : p ∈ c.depths) (l : ℕ) (hl : l < p.2) (t : ℕ) (ht : l + 1 ≤ t) :
    x t (startOf (c.vars.length + c.nCum) c.depths p.1 + l) = x (t - 1 - l) (c.vars.idxOf p.1) := by
  have hb := startOf_bounds (c.vars.length + c.nCum) c.depths (depths_nodup c) p hp
  have hidx : c.vars.idxOf p.1 < c.vars.length := List.idxOf_lt_length_iff.2 (depths_vars c hc _ (List.mem_map_of_mem hp))
  have hk : c.kAug = c.vars.length + c.nCum + (c.depths.map Prod.snd).sum := rfl
  induction l generalizing t with
  | zero =>
    obtain ⟨t, rfl⟩ : ∃ u, t = u + 1 := ⟨t - 1, by omega⟩
    rw [hf t _ (by omega)]
    have h0 : ∑ s ∈ Finset.range m, c.selection R (startOf (c.vars.length + c.nCum) c.depths p.1 + 0) s * eps (t + 1) s = 0 :=
      Finset.sum_eq_zero fun s _ => by rw [selection_extra c R _ s (by omega) (by omega), zero_mul]
    rw [h0, add_zero]
    simp only [trans_lag c hc T p hp 0 _ hl, if_true]
    rw [sum_unit _ _ _ (by omega)]
    rfl
  | succ l ih =>
    obtain ⟨t, rfl⟩ : ∃ u, t = u + 1 := ⟨t - 1, by omega⟩
    rw [hf t _ (by omega)]
    have h0 : ∑ s ∈ Finset.range m, c.selection R (startOf (c.vars.length + c.nCum) c.depths p.1 + (l + 1)) s * eps (t + 1) s = 0 :=
      Finset.sum_eq_zero fun s _ => by rw [selection_extra c R _ s (by omega) (by omega), zero_mul]
    rw [h0, add_zero]
    simp only [trans_lag c hc T p hp (l + 1) _ hl, Nat.succ_ne_zero, if_false]
    rw [sum_unit _ _ _ (by omega)]
    have := ih (by omega) t (by omega)
    have e1 : startOf (c.vars.length + c.nCum) c.depths p.1 + (l + 1) - 1 = startOf (c.vars.length + c.nCum) c.depths p.1 + l := by omega
    have e2 : t + 1 - 1 - (l + 1) = t - 1 - l := by omega
    rw [e1, e2, this]

theorem cum_slot (hc : c.Ok) (hf : c.Follows m T R x eps) (pos : ℕ) (hpos : pos < c.cumVars.length) (l : ℕ) (hl : l < c.period - 1)
    (t : ℕ) (ht : l + 1 ≤ t) :
    x t (c.vars.length + (pos * (c.period - 1) + l)) = x (t - 1 - l) (c.vars.idxOf (c.cumVars[pos])) := by
  have hidx : c.vars.idxOf (c.cumVars[pos]) < c.vars.length :=
    List.idxOf_lt_length_iff.2 (cumVars_vars c hc _ (List.getElem_mem hpos))
  have hk : c.kAug = c.vars.length + c.nCum + c.nObsLag := rfl
  induction l generalizing t with
  | zero =>
    have hs := nCum_slot c pos 0 hpos hl
    obtain ⟨t, rfl⟩ : ∃ u, t = u + 1 := ⟨t - 1, by omega⟩
    rw [hf t _ (by omega)]
    have h0 : ∑ s ∈ Finset.range m, c.selection R (c.vars.length + (pos * (c.period - 1) + 0)) s * eps (t + 1) s = 0 :=
      Finset.sum_eq_zero fun s _ => by rw [selection_extra c R _ s (by omega) (by omega), zero_mul]
    rw [h0, add_zero]
    have : ∀ j ∈ Finset.range c.kAug, c.transition T (c.vars.length + (pos * (c.period - 1) + 0)) j * x t j =
        (if j = c.vars.idxOf (c.cumVars[pos]) then 1 else 0) * x t j := by
      intro j hj
      rw [trans_cum c hc T pos 0 j hpos hl (Finset.mem_range.1 hj), if_pos rfl]
    rw [Finset.sum_congr rfl this, sum_unit _ _ _ (by omega)]
    rfl
  | succ l ih =>
    have hs := nCum_slot c pos (l + 1) hpos hl
    obtain ⟨t, rfl⟩ : ∃ u, t = u + 1 := ⟨t - 1, by omega⟩
    rw [hf t _ (by omega)]
    have h0 : ∑ s ∈ Finset.range m, c.selection R (c.vars.length + (pos * (c.period - 1) + (l + 1))) s * eps (t + 1) s = 0 :=
      Finset.sum_eq_zero fun s _ => by rw [selection_extra c R _ s (by omega) (by omega), zero_mul]
    rw [h0, add_zero]
    have : ∀ j ∈ Finset.range c.kAug, c.transition T (c.vars.length + (pos * (c.period - 1) + (l + 1))) j * x t j =
        (if j = c.vars.length + (pos * (c.period - 1) + l) then 1 else 0) * x t j := by
      intro j hj
      rw [trans_cum c hc T pos (l + 1) j hpos hl (Finset.mem_range.1 hj), if_neg (Nat.succ_ne_zero l)]
      have e : c.vars.length + (pos * (c.period - 1) + (l + 1)) - 1 = c.vars.length + (pos * (c.period - 1) + l) := by omega
      rw [e]
    rw [Finset.sum_congr rfl this, sum_unit _ _ _ (by omega)]
    have := ih (by omega) t (by omega)
    have e2 : t + 1 - 1 - (l + 1) = t - 1 - l := by omega
    rw [e2, this]

/-! ### rows of the design matrix -/

/-- a step that touches only its own row, and sees only its own row -/
structure RowLocal (f : NMat → Str × ℕ → NMat) : Prop where
  other : ∀ M p a b, a ≠ p.2 → f M p a b = M a b
  own : ∀ M M' p b, (∀ b, M p.2 b = M' p.2 b) → f M p p.2 b = f M' p p.2 b

theorem fold_rows (f : NMat → Str × ℕ → NMat) (hf : RowLocal f) (l : List Str) (M : NMat) (i b : ℕ) (hi : i < l.length) :
    (l.zipIdx.foldl f M) i b = f M (l[i], i) i b := by
  have keep : ∀ (l : List Str) (o : ℕ) (M : NMat) (a b : ℕ), a < o → ((l.zipIdx o).foldl f M) a b = M a b := by
    intro l
    induction l with
    | nil => intros; rfl
    | cons v l ih =>
      intro o M a b h
      rw [List.zipIdx_cons, List.foldl_cons, ih (o + 1) _ a b (by omega)]
      exact hf.other _ _ _ _ (by simp only; omega)
  have key : ∀ (l : List Str) (o : ℕ) (M : NMat) (i : ℕ) (hi : i < l.length), ((l.zipIdx o).foldl f M) (o + i) b = f M (l[i], o + i) (o + i) b := by
    intro l
    induction l with
    | nil => intro o M i hi; simp at hi
    | cons v l ih =>
      intro o M i hi
      rw [List.zipIdx_cons, List.foldl_cons]
      cases i with
      | zero =>
        rw [keep l (o + 1) _ _ b (by omega)]
        rfl
      | succ i =>
        have e : o + (i + 1) = o + 1 + i := by omega
        have hi' : i < l.length := by simpa using hi
        rw [e, ih (o + 1) _ i hi']
        simp only [List.getElem_cons_succ]
        refine hf.own _ _ (l[i], o + 1 + i) b fun b => ?_
        exact hf.other _ _ _ _ (by simp only; omega)
  have := key l 0 M i hi
  simpa using this

theorem setAt_other (M : NMat) (i j a b : ℕ) (v : ℝ) (h : a ≠ i) : M.setAt i j v a b = M a b := by simp [NMat.setAt, h]
theorem incAt_other (M : NMat) (i j a b : ℕ) (v : ℝ) (h : a ≠ i) : M.incAt i j v a b = M a b := by simp [NMat.incAt, h]

theorem foldSet_other {ι : Type} (l : List ι) (i : ℕ) (col : ι → ℕ) (v : ℝ) (M : NMat) (a b : ℕ) (h : a ≠ i) :
    (l.foldl (fun Z k => Z.setAt i (col k) v) M) a b = M a b := by
  induction l generalizing M with
  | nil => rfl
  | cons k l ih => rw [List.foldl_cons, ih, setAt_other _ _ _ _ _ _ h]

theorem foldSet_own {ι : Type} (l : List ι) (i : ℕ) (col : ι → ℕ) (v : ℝ) (M M' : NMat) (h : ∀ b, M i b = M' i b) (b : ℕ) :
    (l.foldl (fun Z k => Z.setAt i (col k) v) M) i b = (l.foldl (fun Z k => Z.setAt i (col k) v) M') i b := by
  induction l generalizing M M' with
  | nil => exact h b
  | cons k l ih =>
    rw [List.foldl_cons, List.foldl_cons]
    exact ih _ _ fun b => by simp [NMat.setAt, h]

theorem setAt_own (M M' : NMat) (i j : ℕ) (v : ℝ) (h : ∀ b, M i b = M' i b) (b : ℕ) : M.setAt i j v i b = M'.setAt i j v i b := by
  simp [NMat.setAt, h]

theorem selectorRow_local (c : SSCfg) : RowLocal c.selectorRow := by
  constructor
  · intro M p a b h
    unfold SSCfg.selectorRow
    split
    · rw [foldSet_other _ _ _ _ _ _ _ h, setAt_other _ _ _ _ _ _ h]
    · rw [setAt_other _ _ _ _ _ _ h]
  · intro M M' p b h
    unfold SSCfg.selectorRow
    split
    · exact foldSet_own _ _ _ _ _ _ (fun b => setAt_own _ _ _ _ _ h b) b
    · exact setAt_own _ _ _ _ _ h b

theorem obsFold_other {κ : Type} (i : ℕ) (cs : List κ) (n : ℕ) (col : κ → ℕ → ℕ) (v : κ → ℝ) (M : NMat) (a b : ℕ) (h : a ≠ i) :
    (cs.foldl (fun Z kc => (List.range n).foldl (fun Z d => Z.incAt i (col kc d) (v kc)) Z) M) a b = M a b := by
  have inner : ∀ (l : List ℕ) (kc : κ) (M : NMat), (l.foldl (fun Z d => Z.incAt i (col kc d) (v kc)) M) a b = M a b := by
    intro l kc
    induction l with
    | nil => intro M; rfl
    | cons d l ih => intro M; rw [List.foldl_cons, ih, incAt_other _ _ _ _ _ _ h]
  induction cs generalizing M with
  | nil => rfl
  | cons kc cs ih => rw [List.foldl_cons, ih, inner]

theorem obsFold_own {κ : Type} (i : ℕ) (cs : List κ) (n : ℕ) (col : κ → ℕ → ℕ) (v : κ → ℝ) (M M' : NMat) (h : ∀ b, M i b = M' i b) (b : ℕ) :
    (cs.foldl (fun Z kc => (List.range n).foldl (fun Z d => Z.incAt i (col kc d) (v kc)) Z) M) i b =
    (cs.foldl (fun Z kc => (List.range n).foldl (fun Z d => Z.incAt i (col kc d) (v kc)) Z) M') i b := by
  have inner : ∀ (l : List ℕ) (kc : κ) (M M' : NMat), (∀ b, M i b = M' i b) → ∀ b,
      (l.foldl (fun Z d => Z.incAt i (col kc d) (v kc)) M) i b = (l.foldl (fun Z d => Z.incAt i (col kc d) (v kc)) M') i b := by
    intro l kc
    induction l with
    | nil => intro M M' h b; exact h b
    | cons d l ih =>
      intro M M' h b
      rw [List.foldl_cons, List.foldl_cons]
      exact ih _ _ (fun b => by simp [NMat.incAt, h]) b
  induction cs generalizing M M' with
  | nil => exact h b
  | cons kc cs ih =>
    rw [List.foldl_cons, List.foldl_cons]
    exact ih _ _ fun b => inner _ _ _ _ h b

theorem symRow_local (c : SSCfg) : RowLocal c.symRow := by
  constructor
  · intro M p a b h
    unfold SSCfg.symRow
    cases dget c.obsEqs p.1
    case some eq => exact obsFold_other _ _ _ (fun (kc : (Str × Int) × ℝ) (d : ℕ) => c.obsColumn kc.1.1 (kc.1.2 - d)) _ _ _ _ h
    case none =>
      unfold SSCfg.symSelectorRow
      dsimp only
      split
      · rw [foldSet_other _ _ _ _ _ _ _ h, setAt_other _ _ _ _ _ _ h]
      · rw [setAt_other _ _ _ _ _ _ h]
  · intro M M' p b h
    unfold SSCfg.symRow
    cases dget c.obsEqs p.1
    case some eq => exact obsFold_own _ _ _ (fun (kc : (Str × Int) × ℝ) (d : ℕ) => c.obsColumn kc.1.1 (kc.1.2 - d)) _ _ _ h b
    case none =>
      unfold SSCfg.symSelectorRow
      dsimp only
      split
      · exact foldSet_own _ _ _ _ _ _ (fun b => setAt_own _ _ _ _ _ h b) b
      · exact setAt_own _ _ _ _ _ h b

/-! ### a row applied to a vector -/

/-- row `i` of `M` applied to `y` -/
noncomputable def app (N : ℕ) (M : NMat) (i : ℕ) (y : ℕ → ℝ) : ℝ := ∑ j ∈ Finset.range N, M i j * y j

theorem app_zeros (N i : ℕ) (y : ℕ → ℝ) : app N NMat.zeros i y = 0 := by simp [app, NMat.zeros]

theorem app_setAt (N : ℕ) (M : NMat) (i j : ℕ) (v : ℝ) (y : ℕ → ℝ) (hj : j < N) (h0 : M i j = 0) :
    app N (M.setAt i j v) i y = app N M i y + v * y j := by
  have : ∀ b ∈ Finset.range N, M.setAt i j v i b * y b = M i b * y b + (if b = j then 1 else 0) * (v * y b) := by
    intro b _
    by_cases h : b = j
    · subst h; simp [NMat.setAt, h0]
    · simp [NMat.setAt, h]
  unfold app
  rw [Finset.sum_congr rfl this, Finset.sum_add_distrib, sum_unit N j (fun b => v * y b) hj]

theorem app_incAt (N : ℕ) (M : NMat) (i j : ℕ) (v : ℝ) (y : ℕ → ℝ) (hj : j < N) :
    app N (M.incAt i j v) i y = app N M i y + v * y j := by
  have : ∀ b ∈ Finset.range N, M.incAt i j v i b * y b = M i b * y b + (if b = j then 1 else 0) * (v * y b) := by
    intro b _
    by_cases h : b = j
    · subst h; simp [NMat.incAt]; ring
    · simp [NMat.incAt, h]
  unfold app
  rw [Finset.sum_congr rfl this, Finset.sum_add_distrib, sum_unit N j (fun b => v * y b) hj]

theorem app_window (N : ℕ) (M : NMat) (i s n : ℕ) (v : ℝ) (y : ℕ → ℝ) (hn : s + n ≤ N) (h0 : ∀ k < n, M i (s + k) = 0) :
    app N ((List.range n).foldl (fun Z k => Z.setAt i (s + k) v) M) i y = app N M i y + v * ∑ k ∈ Finset.range n, y (s + k) ∧
    ∀ b, s + n ≤ b → ((List.range n).foldl (fun Z k => Z.setAt i (s + k) v) M) i b = M i b := by
  induction n with
  | zero => simp
  | succ n ih =>
    obtain ⟨h1, h2⟩ := ih (by omega) fun k hk => h0 k (by omega)
    rw [List.range_succ, List.foldl_append]
    simp only [List.foldl_cons, List.foldl_nil]
    constructor
    · rw [app_setAt _ _ _ _ _ _ (by omega) (by rw [h2 _ le_rfl]; exact h0 n (by omega)), h1, Finset.sum_range_succ]
      ring
    · intro b hb
      have : ∀ M : NMat, M.setAt i (s + n) v i b = M i b := fun M => by unfold NMat.setAt; rw [if_neg (by omega)]
      rw [this, h2 b (by omega)]

theorem app_obs {κ : Type} (N i : ℕ) (cs : List κ) (n : ℕ) (col : κ → ℕ → ℕ) (v : κ → ℝ) (y : ℕ → ℝ) (M : NMat)
    (hcol : ∀ kc ∈ cs, ∀ d < n, col kc d < N) :
    app N (cs.foldl (fun Z kc => (List.range n).foldl (fun Z d => Z.incAt i (col kc d) (v kc)) Z) M) i y =
      app N M i y + (cs.map fun kc => ∑ d ∈ Finset.range n, v kc * y (col kc d)).sum := by
  have inner : ∀ (n : ℕ) (kc : κ) (M : NMat), (∀ d < n, col kc d < N) →
      app N ((List.range n).foldl (fun Z d => Z.incAt i (col kc d) (v kc)) M) i y = app N M i y + ∑ d ∈ Finset.range n, v kc * y (col kc d) := by
    intro n kc M
    induction n with
    | zero => intro _; simp
    | succ n ih =>
      intro h
      rw [List.range_succ, List.foldl_append]
      simp only [List.foldl_cons, List.foldl_nil]
      rw [app_incAt _ _ _ _ _ _ (h n (by omega)), ih fun d hd => h d (by omega), Finset.sum_range_succ]
      ring
  induction cs generalizing M with
  | nil => simp
  | cons kc cs ih =>
    rw [List.foldl_cons, ih _ fun k hk => hcol k (by simp [hk]), inner n kc M (hcol kc (by simp)), List.map_cons, List.sum_cons]
    ring

theorem observe_eq (c : SSCfg) (x : ℕ → ℕ → ℝ) (t i : ℕ) (hi : i < c.observed.length) :
    c.observe x t i = app c.kAug (if c.obsEqs = [] then c.selectorRow NMat.zeros (c.observed[i], i) else c.symRow NMat.zeros (c.observed[i], i)) i (x t) := by
  unfold SSCfg.observe app SSCfg.design
  split
  · exact Finset.sum_congr rfl fun j _ => by rw [fold_rows _ (selectorRow_local c) _ _ _ _ hi]
  · exact Finset.sum_congr rfl fun j _ => by rw [fold_rows _ (symRow_local c) _ _ _ _ hi]

/-- both branches of the design matrix give a selected variable the same row -/
theorem observe_selector (c : SSCfg) (x : ℕ → ℕ → ℝ) (t i : ℕ) (hi : i < c.observed.length) (h : c.observed[i] ∉ dkeys c.obsEqs) :
    c.observe x t i = app c.kAug (c.selectorRow NMat.zeros (c.observed[i], i)) i (x t) := by
  rw [observe_eq c x t i hi]
  split
  · rfl
  · have : dget c.obsEqs (c.observed[i]) = none := (dget_eq_none _ _).2 h
    unfold SSCfg.symRow
    dsimp only
    rw [this]
    dsimp only
    unfold SSCfg.symSelectorRow SSCfg.selectorRow
    dsimp only
    split
    · rfl
    · rename_i h2
      have hw : c.selWeight (c.observed[i]) = 1 := by
        unfold SSCfg.selWeight
        rw [if_neg]
        intro h3
        apply h2
        unfold SSCfg.cumulates
        rw [h3]
        rfl
      rw [hw]

/-- the row of a selected variable -/
theorem selector_value (hc : c.Ok) (hf : c.Follows m T R x eps) (t i : ℕ) (hi : i < c.observed.length) (h : c.observed[i] ∉ dkeys c.obsEqs)
    (ht : c.cumulates (c.observed[i]) = true → c.period - 1 ≤ t) :
    c.observe x t i = aggregate (dget c.agg (c.observed[i])) c.period (fun u => x u (c.vars.idxOf (c.observed[i]))) t := by
  have hk : c.kAug = c.vars.length + c.nCum + c.nObsLag := rfl
  have hv : c.observed[i] ∈ c.vars := (hc.observedKnown _ (List.getElem_mem hi)).resolve_right h
  have hidx := List.idxOf_lt_length_iff.2 hv
  rw [observe_selector c x t i hi h]
  generalize hname : c.observed[i] = name at *
  unfold SSCfg.selectorRow
  dsimp only
  split
  · rename_i hcum
    have hp := period_of_cum c hc _ hcum
    have hmem : name ∈ c.cumVars := (mem_cumVars c hc _).2 ⟨hcum, h⟩
    have hpos := List.idxOf_lt_length_iff.2 hmem
    have hs := nCum_slot c (c.cumVars.idxOf name) (c.period - 1 - 1) hpos (by omega)
    have hstart : c.cumStart name + (c.period - 1) ≤ c.kAug := by unfold SSCfg.cumStart; omega
    rw [(app_window c.kAug _ i (c.cumStart name) (c.period - 1) _ _ hstart ?_).1]
    · rw [app_setAt _ _ _ _ _ _ (by omega) rfl, app_zeros, zero_add]
      have hsum : ∑ k ∈ Finset.range (c.period - 1), x t (c.cumStart name + k) =
          ∑ k ∈ Finset.range (c.period - 1), x (t - (k + 1)) (c.vars.idxOf name) := by
        refine Finset.sum_congr rfl fun k hk2 => ?_
        rw [Finset.mem_range] at hk2
        have := cum_slot hc hf (c.cumVars.idxOf name) hpos k hk2 t (by have := ht hcum; omega)
        rw [List.getElem_idxOf hpos] at this
        have e : t - (k + 1) = t - 1 - k := by omega
        rw [e, ← this]
        unfold SSCfg.cumStart
        congr 1
        omega
      rw [hsum]
      have htot : ∑ d ∈ Finset.range c.period, x (t - d) (c.vars.idxOf name) =
          x t (c.vars.idxOf name) + ∑ k ∈ Finset.range (c.period - 1), x (t - (k + 1)) (c.vars.idxOf name) := by
        obtain ⟨q, hq⟩ : ∃ q, c.period = q + 1 := ⟨c.period - 1, by omega⟩
        rw [hq, Finset.sum_range_succ', add_comm]
        simp
      unfold SSCfg.cumulates at hcum
      unfold SSCfg.selWeight aggregate
      cases ha : dget c.agg name with
      | none => rw [ha] at hcum; simp at hcum
      | some a =>
        rw [ha] at hcum
        cases a with
        | sum => simp only [htot, Option.some.injEq, reduceCtorEq, if_false]; ring
        | mean => simp only [htot, if_true]; ring
        | first => simp [Agg.cumulates] at hcum
        | last => simp [Agg.cumulates] at hcum
    · intro k hk2
      unfold NMat.setAt SSCfg.cumStart
      rw [if_neg (by omega)]
      rfl
  · rename_i hcum
    rw [app_setAt _ _ _ _ _ _ (by omega) rfl, app_zeros, zero_add, one_mul]
    unfold SSCfg.cumulates at hcum
    unfold aggregate
    cases ha : dget c.agg name with
    | none => rfl
    | some a =>
      rw [ha] at hcum
      cases a with
      | sum => simp [Agg.cumulates] at hcum
      | mean => simp [Agg.cumulates] at hcum
      | first => rfl
      | last => rfl

/-- the state column of a lagged reference holds the lagged value -/
theorem obsColumn_value (hc : c.Ok) (hf : c.Follows m T R x eps) (v : Str) (hv : v ∈ c.vars) (n : ℕ) (hd : n ≤ SSp.depthOf c.depths v) (t : ℕ) (ht : n ≤ t) :
    c.obsColumn v (-(n : Int)) < c.kAug ∧ x t (c.obsColumn v (-(n : Int))) = x (t - n) (c.vars.idxOf v) := by
  have hk : c.kAug = c.vars.length + c.nCum + (c.depths.map Prod.snd).sum := rfl
  have hidx := List.idxOf_lt_length_iff.2 hv
  unfold SSCfg.obsColumn
  by_cases h0 : n = 0
  · subst h0
    rw [if_pos (by simp)]
    exact ⟨by omega, rfl⟩
  · rw [if_neg (by omega)]
    have hp := depthOf_mem c.depths v (by omega)
    have hb := startOf_bounds (c.vars.length + c.nCum) c.depths (depths_nodup c) _ hp
    have e : c.lagColumn v (-(n : Int)) = startOf (c.vars.length + c.nCum) c.depths v + (n - 1) := by
      unfold SSCfg.lagColumn startOf SSCfg.starts
      have : (-(-(n : Int))).toNat - 1 = n - 1 := by omega
      rw [this]
    rw [e]
    dsimp only at hb
    refine ⟨by omega, ?_⟩
    have := lag_slot hc hf _ hp (n - 1) (by simp only; omega) t (by omega)
    rw [this]
    congr 1
    omega

end SSp

/-- the linear part of an observation equation at date `u`: coefficients times (lagged) deviations of the variables -/
noncomputable def ObsEq.linear (eq : ObsEq) (vars : List Str) (x : ℕ → ℕ → ℝ) (u : ℕ) : ℝ :=
  (eq.coeffs.map fun kc => kc.2 * x (u - (-kc.1.2).toNat) (vars.idxOf kc.1.1)).sum

open SSp

/-- **C92** augmenting the state never changes the model: the original variables move exactly by the policy matrices -/
theorem C92_dynamics (c : SSCfg) (m : ℕ) (T R : NMat) (x eps : ℕ → ℕ → ℝ) (hf : c.Follows m T R x eps) (t i : ℕ) (hi : i < c.vars.length) :
    x (t + 1) i = ∑ j ∈ Finset.range c.vars.length, T i j * x t j + ∑ s ∈ Finset.range m, R i s * eps (t + 1) s := by
  have hk : c.kAug = c.vars.length + (c.nCum + c.nObsLag) := by unfold SSCfg.kAug; omega
  rw [hf t i (by omega)]
  congr 1
  · rw [hk, Finset.sum_range_add]
    have h2 : ∑ j ∈ Finset.range (c.nCum + c.nObsLag), c.transition T i (c.vars.length + j) * x t (c.vars.length + j) = 0 := by
      refine Finset.sum_eq_zero fun j hj => ?_
      rw [Finset.mem_range] at hj
      rw [trans_orig c T i _ hi (by omega), if_neg (by omega), zero_mul]
    rw [h2, add_zero]
    refine Finset.sum_congr rfl fun j hj => ?_
    rw [Finset.mem_range] at hj
    rw [trans_orig c T i j hi (by omega), if_pos hj]
  · exact Finset.sum_congr rfl fun s _ => by rw [selection_orig c R i s hi]

/-- **C92** a variable observed with temporal aggregation is the sum (mean) of its last `aggregation_period` values; without aggregation, or
with `first`/`last`, it is its current value -/
theorem C92_aggregated (c : SSCfg) (hc : c.Ok) (m : ℕ) (T R : NMat) (x eps : ℕ → ℕ → ℝ) (hf : c.Follows m T R x eps) (t i : ℕ)
    (hi : i < c.observed.length) (h : c.observed[i] ∉ dkeys c.obsEqs)
    (ht : c.cumulates (c.observed[i]) = true → c.period - 1 ≤ t) :
    c.observe x t i = aggregate (dget c.agg (c.observed[i])) c.period (fun u => x u (c.vars.idxOf (c.observed[i]))) t :=
  selector_value hc hf t i hi h ht

/-- **C93** a series with an observation equation is the (aggregated) linear part of the equation, lags included, for every history long
enough to contain the lags -/
theorem C93_equation (c : SSCfg) (hc : c.Ok) (m : ℕ) (T R : NMat) (x eps : ℕ → ℕ → ℝ) (hf : c.Follows m T R x eps) (t i : ℕ)
    (hi : i < c.observed.length) (eq : ObsEq) (he : dget c.obsEqs (c.observed[i]) = some eq)
    (ht : ∀ kc ∈ eq.coeffs, (-kc.1.2).toNat + (if c.cumulates (c.observed[i]) then c.period - 1 else 0) ≤ t) :
    c.observe x t i = aggregate (dget c.agg (c.observed[i])) c.period (eq.linear c.vars x) t := by
  rw [observe_eq c x t i hi]
  have hne : c.obsEqs ≠ [] := by intro h; rw [h] at he; simp [dget] at he
  have hmem : (c.observed[i], eq) ∈ c.obsEqs := by
    revert he
    generalize c.obsEqs = l
    induction l with
    | nil => simp [dget]
    | cons q l ih =>
      obtain ⟨w, k⟩ := q
      simp only [dget]
      split
      · rename_i e; subst e
        intro h; cases h; simp
      · exact fun h => List.mem_cons_of_mem _ (ih h)
  rw [if_neg hne]
  unfold SSCfg.symRow
  dsimp only
  rw [he]
  dsimp only
  unfold SSCfg.obsRow
  dsimp only
  generalize hname : c.observed[i] = name at *
  have hwin : (c.obsWindow name).1 = 1 + (if c.cumulates name then c.period - 1 else 0) := by
    unfold SSCfg.obsWindow
    cases ha : dget c.agg name with
    | none => simp [SSCfg.cumulates, ha]
    | some a =>
      cases a with
      | sum =>
        have hcum : c.cumulates name = true := by simp [SSCfg.cumulates, ha, Agg.cumulates]
        have := period_of_cum c hc _ hcum
        simp only [hcum, if_true]; omega
      | mean =>
        have hcum : c.cumulates name = true := by simp [SSCfg.cumulates, ha, Agg.cumulates]
        have := period_of_cum c hc _ hcum
        simp only [hcum, if_true]; omega
      | first => simp [SSCfg.cumulates, ha, Agg.cumulates]
      | last => simp [SSCfg.cumulates, ha, Agg.cumulates]
  have hcol : ∀ kc ∈ eq.coeffs, ∀ d < (c.obsWindow name).1, c.obsColumn kc.1.1 (kc.1.2 - d) < c.kAug ∧
      x t (c.obsColumn kc.1.1 (kc.1.2 - d)) = x (t - d - (-kc.1.2).toNat) (c.vars.idxOf kc.1.1) := by
    intro kc hkc d hd
    obtain ⟨hv, hlag⟩ := hc.coeffs _ hmem kc hkc
    have hdep := depths_ge c _ hmem kc hkc
    dsimp only at hdep
    have e : kc.1.2 - (d : Int) = -(((-kc.1.2).toNat + d : ℕ) : Int) := by omega
    have hb := ht kc hkc
    rw [e]
    have := obsColumn_value hc hf kc.1.1 hv ((-kc.1.2).toNat + d) (by omega) t (by omega)
    refine ⟨this.1, ?_⟩
    rw [this.2]
    congr 1
    omega
  rw [app_obs c.kAug i eq.coeffs _ (fun (kc : (Str × Int) × ℝ) (d : ℕ) => c.obsColumn kc.1.1 (kc.1.2 - d)) (fun kc => (c.obsWindow name).2 * kc.2) (x t) NMat.zeros
    fun kc hkc d hd => (hcol kc hkc d hd).1, app_zeros, zero_add]
  have hterm : (eq.coeffs.map fun kc => ∑ d ∈ Finset.range (c.obsWindow name).1, (c.obsWindow name).2 * kc.2 * x t (c.obsColumn kc.1.1 (kc.1.2 - d))).sum =
      (c.obsWindow name).2 * ∑ d ∈ Finset.range (c.obsWindow name).1, eq.linear c.vars x (t - d) := by
    have : ∀ l : List ((Str × Int) × ℝ), (∀ kc ∈ l, kc ∈ eq.coeffs) →
        (l.map fun kc => ∑ d ∈ Finset.range (c.obsWindow name).1, (c.obsWindow name).2 * kc.2 * x t (c.obsColumn kc.1.1 (kc.1.2 - d))).sum =
        (c.obsWindow name).2 * ∑ d ∈ Finset.range (c.obsWindow name).1,
          (l.map fun kc => kc.2 * x (t - d - (-kc.1.2).toNat) (c.vars.idxOf kc.1.1)).sum := by
      intro l
      induction l with
      | nil => intro _; simp
      | cons kc l ih =>
        intro hl
        simp only [List.map_cons, List.sum_cons]
        rw [ih fun k hk => hl k (by simp [hk]), Finset.sum_add_distrib, mul_add]
        refine congrArg₂ (· + ·) ?_ rfl
        rw [Finset.mul_sum]
        refine Finset.sum_congr rfl fun d hd => ?_
        rw [(hcol kc (hl kc (by simp)) d (Finset.mem_range.1 hd)).2, mul_assoc]
    exact this eq.coeffs fun _ h => h
  rw [hterm]
  unfold SSCfg.obsWindow aggregate
  cases ha : dget c.agg name with
  | none => simp
  | some a =>
    cases a with
    | sum => simp
    | mean => simp only; ring
    | first => simp
    | last => simp

end GE
