import Verif.Model.ExpandTime
import Verif.Props.Time
/-!
# C07 – C10 — expansion of deep time indices
-/

namespace GE

/-! ## specification vocabulary -/

/-- the date is t-1, t, t+1 or the steady state -/
def TIdx.near : TIdx → Prop
  | .ss => True
  | .t k => -1 ≤ k ∧ k ≤ 1

/-- names of all variables of a block (equations and controls) -/
def Blk.varNames (b : Blk) : List Str :=
  (b.equations.flatMap Eqn.vars).map Prod.fst ++ b.controls.map VarRef.name

/-- no variable of the block is already called `y__lagK` / `y__leadK` for a variable `y` of the block -/
def Blk.fresh (b : Blk) : Prop :=
  ∀ n ∈ b.varNames, ∀ y ∈ b.varNames, ∀ k, n ≠ makeLagName y k ∧ n ≠ makeLeadName y k

/-! ## helper lemmas: names -/

/-- split at the last character satisfying `p` -/
def rsplitP (p : Char → Bool) : Str → Option (Str × Char) × Str
  | [] => (none, [])
  | c :: s =>
    match rsplitP p s with
    | (none, last) => if p c then (some ([], c), last) else (none, c :: last)
    | (some (pre, x), last) => (some (c :: pre, x), last)

theorem rsplitP_none (p : Char → Bool) (b : Str) (h : ∀ c ∈ b, p c = false) : rsplitP p b = (none, b) := by
  induction b with
  | nil => rfl
  | cons c b ih => simp [rsplitP, ih (fun x hx => h x (by simp [hx])), h c (by simp)]

theorem rsplitP_append (p : Char → Bool) (a b : Str) (c : Char) (hc : p c = true) (h : ∀ c ∈ b, p c = false) :
    rsplitP p (a ++ c :: b) = (some (a, c), b) := by
  induction a with
  | nil => simp [rsplitP, rsplitP_none p b h, hc]
  | cons x a ih => simp [rsplitP, ih]

theorem digits_split {a b d e : Str} {c c' : Char} (hc : c.isDigit = false) (hc' : c'.isDigit = false)
    (hd : ∀ x ∈ d, x.isDigit = true) (he : ∀ x ∈ e, x.isDigit = true)
    (h : a ++ c :: d = b ++ c' :: e) : a = b ∧ c = c' ∧ d = e := by
  have h2 := congrArg (rsplitP fun c => !c.isDigit) h
  rw [rsplitP_append _ _ _ _ (by simp [hc]) (fun x hx => by simp [hd x hx]),
    rsplitP_append _ _ _ _ (by simp [hc']) (fun x hx => by simp [he x hx])] at h2
  simp at h2
  exact ⟨h2.1.1, h2.1.2, h2.2⟩

theorem lagName_inj {x y : Str} {k j : Nat} (h : makeLagName x k = makeLagName y j) : x = y ∧ k = j := by
  have h' : (x ++ ['_','_','l','a']) ++ 'g' :: natStr k = (y ++ ['_','_','l','a']) ++ 'g' :: natStr j := by
    simpa [makeLagName] using h
  have := digits_split (by decide) (by decide) (fun _ => natStr_digit) (fun _ => natStr_digit) h'
  exact ⟨List.append_cancel_right this.1, natStr_inj this.2.2⟩

theorem leadName_inj {x y : Str} {k j : Nat} (h : makeLeadName x k = makeLeadName y j) : x = y ∧ k = j := by
  have h' : (x ++ ['_','_','l','e','a']) ++ 'd' :: natStr k = (y ++ ['_','_','l','e','a']) ++ 'd' :: natStr j := by
    simpa [makeLeadName] using h
  have := digits_split (by decide) (by decide) (fun _ => natStr_digit) (fun _ => natStr_digit) h'
  exact ⟨List.append_cancel_right this.1, natStr_inj this.2.2⟩

theorem lagName_ne_leadName (x y : Str) (k j : Nat) : makeLagName x k ≠ makeLeadName y j := by
  intro h
  have h' : (x ++ ['_','_','l','a']) ++ 'g' :: natStr k = (y ++ ['_','_','l','e','a']) ++ 'd' :: natStr j := by
    simpa [makeLagName, makeLeadName] using h
  have := digits_split (by decide) (by decide) (fun _ => natStr_digit) (fun _ => natStr_digit) h'
  exact absurd this.2.1 (by decide)

/-! ## helper lemmas: the collector -/

/-- the collector has recorded the occurrence -/
def Deep.covers (d : Deep) (o : Str × TIdx) : Prop :=
  ∀ k, o.2 = .t k → (k < -1 → ∃ v, dget d.lags o.1 = some v ∧ v ≤ k) ∧ (k > 1 → ∃ v, dget d.leads o.1 = some v ∧ k ≤ v)

structure Deep.ok (d : Deep) (names : List Str) : Prop where
  lag2 : ∀ p ∈ d.lags, p.2 < -1 ∧ p.1 ∈ names
  lead2 : ∀ p ∈ d.leads, p.2 > 1 ∧ p.1 ∈ names
  nd1 : (dkeys d.lags).Nodup
  nd2 : (dkeys d.leads).Nodup

def Deep.le (d d' : Deep) : Prop :=
  (∀ x v, dget d.lags x = some v → ∃ v', dget d'.lags x = some v' ∧ v' ≤ v) ∧
  (∀ x v, dget d.leads x = some v → ∃ v', dget d'.leads x = some v' ∧ v ≤ v')

theorem Deep.le_refl (d : Deep) : d.le d :=
  ⟨fun _ v h => ⟨v, h, Int.le_refl _⟩, fun _ v h => ⟨v, h, Int.le_refl _⟩⟩

theorem Deep.le_trans {a b c : Deep} (h1 : a.le b) (h2 : b.le c) : a.le c := by
  constructor
  · intro x v h
    obtain ⟨v1, e1, l1⟩ := h1.1 x v h
    obtain ⟨v2, e2, l2⟩ := h2.1 x v1 e1
    exact ⟨v2, e2, by omega⟩
  · intro x v h
    obtain ⟨v1, e1, l1⟩ := h1.2 x v h
    obtain ⟨v2, e2, l2⟩ := h2.2 x v1 e1
    exact ⟨v2, e2, by omega⟩

theorem Deep.covers_mono {d d' : Deep} (h : d.le d') {o : Str × TIdx} (hc : d.covers o) : d'.covers o := by
  intro k hk
  refine ⟨fun hl => ?_, fun hl => ?_⟩
  · obtain ⟨v, e, l⟩ := (hc k hk).1 hl
    obtain ⟨v1, e1, l1⟩ := h.1 _ v e
    exact ⟨v1, e1, by omega⟩
  · obtain ⟨v, e, l⟩ := (hc k hk).2 hl
    obtain ⟨v1, e1, l1⟩ := h.2 _ v e
    exact ⟨v1, e1, by omega⟩

theorem lags_set_le (l : List (Str × Int)) (x : Str) (k : Int) (y : Str) (v : Int) (h : dget l y = some v) :
    ∃ v', dget (dset l x (min ((dget l x).getD 0) k)) y = some v' ∧ v' ≤ v := by
  rw [dget_dset]
  split
  · rename_i e; subst e; exact ⟨_, rfl, by rw [h]; simp; omega⟩
  · exact ⟨v, h, Int.le_refl _⟩

theorem leads_set_le (l : List (Str × Int)) (x : Str) (k : Int) (y : Str) (v : Int) (h : dget l y = some v) :
    ∃ v', dget (dset l x (max ((dget l x).getD 0) k)) y = some v' ∧ v ≤ v' := by
  rw [dget_dset]
  split
  · rename_i e; subst e; exact ⟨_, rfl, by rw [h]; simp; omega⟩
  · exact ⟨v, h, Int.le_refl _⟩

theorem collectVar_spec (d : Deep) (x : Str) (t : TIdx) (names : List Str) (hx : x ∈ names) (hd : d.ok names) :
    (collectVar d x t).ok names ∧ d.le (collectVar d x t) ∧ (collectVar d x t).covers (x, t) := by
  cases t with
  | ss => exact ⟨hd, Deep.le_refl d, by intro k hk; cases hk⟩
  | t k =>
    simp only [collectVar]
    split
    · rename_i hk
      refine ⟨⟨?_, hd.lead2, dset_nodup _ _ _ hd.nd1, hd.nd2⟩, ⟨?_, (Deep.le_refl d).2⟩, ?_⟩
      · intro p hp
        have hp2 := dget_of_mem _ (dset_nodup _ _ _ hd.nd1) p.1 p.2 hp
        rw [dget_dset] at hp2
        split at hp2
        · rename_i e
          simp only [Option.some.injEq] at hp2
          exact ⟨by rw [← hp2]; omega, e ▸ hx⟩
        · exact hd.lag2 p (mem_of_dget _ _ _ hp2)
      · exact fun y v h => lags_set_le d.lags x k y v h
      · intro k' hk'
        simp only [TIdx.t.injEq] at hk'
        subst hk'
        exact ⟨fun _ => ⟨_, dget_dset_self _ _ _, by omega⟩, fun h => by omega⟩
    · split
      · rename_i hk hk2
        refine ⟨⟨hd.lag2, ?_, hd.nd1, dset_nodup _ _ _ hd.nd2⟩, ⟨(Deep.le_refl d).1, ?_⟩, ?_⟩
        · intro p hp
          have hp2 := dget_of_mem _ (dset_nodup _ _ _ hd.nd2) p.1 p.2 hp
          rw [dget_dset] at hp2
          split at hp2
          · rename_i e
            simp only [Option.some.injEq] at hp2
            exact ⟨by rw [← hp2]; omega, e ▸ hx⟩
          · exact hd.lead2 p (mem_of_dget _ _ _ hp2)
        · exact fun y v h => leads_set_le d.leads x k y v h
        · intro k' hk'
          simp only [TIdx.t.injEq] at hk'
          subst hk'
          exact ⟨fun h => by omega, fun _ => ⟨_, dget_dset_self _ _ _, by omega⟩⟩
      · rename_i hk hk2
        refine ⟨hd, Deep.le_refl d, ?_⟩
        intro k' hk'
        simp only [TIdx.t.injEq] at hk'
        subst hk'
        exact ⟨fun h => absurd h hk, fun h => absurd h hk2⟩

mutual
theorem collectExpr_eq (d : Deep) (e : Expr) :
    collectExpr d e = e.vars.foldl (fun d o => collectVar d o.1 o.2) d := by
  cases e with
  | num v => rfl
  | par n => rfl
  | var n t => rfl
  | bin op l r => simp only [collectExpr, Expr.vars, List.foldl_append]; rw [collectExpr_eq d l, collectExpr_eq _ r]
  | neg e => simp only [collectExpr, Expr.vars]; exact collectExpr_eq d e
  | call f as => simp only [collectExpr, Expr.vars]; exact collectArgs_eq d as
  | expect e => simp only [collectExpr, Expr.vars]; exact collectExpr_eq d e
theorem collectArgs_eq (d : Deep) (as : List Expr) :
    collectArgs d as = (Expr.varsArgs as).foldl (fun d o => collectVar d o.1 o.2) d := by
  cases as with
  | nil => rfl
  | cons a as =>
    simp only [collectArgs, Expr.varsArgs, List.foldl_append]; rw [collectExpr_eq d a, collectArgs_eq _ as]
end

theorem collectFrom_eq (es : List Eqn) :
    collectFromEquations es = (es.flatMap Eqn.vars).foldl (fun d o => collectVar d o.1 o.2) {} := by
  unfold collectFromEquations
  generalize ({} : Deep) = d0
  induction es generalizing d0 with
  | nil => rfl
  | cons e es ih =>
    simp only [List.foldl_cons, List.flatMap_cons, List.foldl_append, Eqn.vars]
    rw [ih, collectExpr_eq, collectExpr_eq]

theorem foldCollect_spec (os : List (Str × TIdx)) (d : Deep) (names : List Str)
    (hn : ∀ o ∈ os, o.1 ∈ names) (hd : d.ok names) :
    let d' := os.foldl (fun d o => collectVar d o.1 o.2) d
    d'.ok names ∧ d.le d' ∧ ∀ o ∈ os, d'.covers o := by
  induction os generalizing d with
  | nil => exact ⟨hd, Deep.le_refl d, by simp⟩
  | cons o os ih =>
    have h1 := collectVar_spec d o.1 o.2 names (hn o (by simp)) hd
    have h2 := ih (collectVar d o.1 o.2) (fun o ho => hn o (by simp [ho])) h1.1
    refine ⟨h2.1, Deep.le_trans h1.2.1 h2.2.1, ?_⟩
    intro o' ho'
    rcases List.mem_cons.mp ho' with rfl | ho'
    · exact Deep.covers_mono h2.2.1 h1.2.2
    · exact h2.2.2 o' ho'

theorem ok_empty (names : List Str) : ({} : Deep).ok names :=
  ⟨by simp, by simp, by simp [dkeys], by simp [dkeys]⟩

/-- merging the control collector keeps everything -/
theorem mergeLags_spec (c l : List (Str × Int)) (names : List Str) (hc : ∀ p ∈ c, p.2 < -1 ∧ p.1 ∈ names)
    (hl : ∀ p ∈ l, p.2 < -1 ∧ p.1 ∈ names) (nd : (dkeys l).Nodup) :
    let r := c.foldl (fun acc p => dset acc p.1 (min ((dget acc p.1).getD 0) p.2)) l
    (∀ p ∈ r, p.2 < -1 ∧ p.1 ∈ names) ∧ (dkeys r).Nodup ∧
    (∀ x v, dget l x = some v → ∃ v', dget r x = some v' ∧ v' ≤ v) ∧
    (∀ p ∈ c, ∃ v', dget r p.1 = some v' ∧ v' ≤ p.2) := by
  induction c generalizing l with
  | nil => exact ⟨hl, nd, fun x v h => ⟨v, h, Int.le_refl _⟩, by simp⟩
  | cons q c ih =>
    have hq := hc q (by simp)
    have hl' : ∀ p ∈ dset l q.1 (min ((dget l q.1).getD 0) q.2), p.2 < -1 ∧ p.1 ∈ names := by
      intro p hp
      have hp2 := dget_of_mem _ (dset_nodup _ _ _ nd) p.1 p.2 hp
      rw [dget_dset] at hp2
      split at hp2
      · rename_i e
        simp only [Option.some.injEq] at hp2
        exact ⟨by rw [← hp2]; omega, e ▸ hq.2⟩
      · exact hl p (mem_of_dget _ _ _ hp2)
    have := ih _ (fun p hp => hc p (by simp [hp])) hl' (dset_nodup _ _ _ nd)
    refine ⟨this.1, this.2.1, ?_, ?_⟩
    · intro x v h
      obtain ⟨v1, e1, l1⟩ := lags_set_le l q.1 q.2 x v h
      obtain ⟨v2, e2, l2⟩ := this.2.2.1 x v1 e1
      exact ⟨v2, e2, by omega⟩
    · intro p hp
      rcases List.mem_cons.mp hp with rfl | hp
      · obtain ⟨v2, e2, l2⟩ := this.2.2.1 p.1 _ (dget_dset_self _ _ _)
        exact ⟨v2, e2, by omega⟩
      · exact this.2.2.2 p hp

theorem mergeLeads_spec (c l : List (Str × Int)) (names : List Str) (hc : ∀ p ∈ c, p.2 > 1 ∧ p.1 ∈ names)
    (hl : ∀ p ∈ l, p.2 > 1 ∧ p.1 ∈ names) (nd : (dkeys l).Nodup) :
    let r := c.foldl (fun acc p => dset acc p.1 (max ((dget acc p.1).getD 0) p.2)) l
    (∀ p ∈ r, p.2 > 1 ∧ p.1 ∈ names) ∧ (dkeys r).Nodup ∧
    (∀ x v, dget l x = some v → ∃ v', dget r x = some v' ∧ v ≤ v') ∧
    (∀ p ∈ c, ∃ v', dget r p.1 = some v' ∧ p.2 ≤ v') := by
  induction c generalizing l with
  | nil => exact ⟨hl, nd, fun x v h => ⟨v, h, Int.le_refl _⟩, by simp⟩
  | cons q c ih =>
    have hq := hc q (by simp)
    have hl' : ∀ p ∈ dset l q.1 (max ((dget l q.1).getD 0) q.2), p.2 > 1 ∧ p.1 ∈ names := by
      intro p hp
      have hp2 := dget_of_mem _ (dset_nodup _ _ _ nd) p.1 p.2 hp
      rw [dget_dset] at hp2
      split at hp2
      · rename_i e
        simp only [Option.some.injEq] at hp2
        exact ⟨by rw [← hp2]; omega, e ▸ hq.2⟩
      · exact hl p (mem_of_dget _ _ _ hp2)
    have := ih _ (fun p hp => hc p (by simp [hp])) hl' (dset_nodup _ _ _ nd)
    refine ⟨this.1, this.2.1, ?_, ?_⟩
    · intro x v h
      obtain ⟨v1, e1, l1⟩ := leads_set_le l q.1 q.2 x v h
      obtain ⟨v2, e2, l2⟩ := this.2.2.1 x v1 e1
      exact ⟨v2, e2, by omega⟩
    · intro p hp
      rcases List.mem_cons.mp hp with rfl | hp
      · obtain ⟨v2, e2, l2⟩ := this.2.2.1 p.1 _ (dget_dset_self _ _ _)
        exact ⟨v2, e2, by omega⟩
      · exact this.2.2.2 p hp

/-- the deep indices of a block: well formed, and covering all its equations and controls -/
theorem blockDeep_spec (b : Blk) :
    (blockDeep b).ok b.varNames ∧ (∀ e ∈ b.equations, ∀ o ∈ e.vars, (blockDeep b).covers o) ∧
    (∀ v ∈ b.controls, (blockDeep b).covers (v.name, v.t)) := by
  have hc : b.controls.foldl (fun s v => collectVar s v.name v.t) ({} : Deep) =
      (b.controls.map fun v => (v.name, v.t)).foldl (fun d o => collectVar d o.1 o.2) {} := by
    rw [List.foldl_map]
  have h1 := foldCollect_spec (b.equations.flatMap Eqn.vars) {} b.varNames
    (fun o ho => by
      unfold Blk.varNames
      exact List.mem_append_left _ (List.mem_map.mpr ⟨o, ho, rfl⟩)) (ok_empty _)
  have h2 := foldCollect_spec (b.controls.map fun v => (v.name, v.t)) {} b.varNames
    (fun o ho => by
      unfold Blk.varNames
      obtain ⟨v, hv, rfl⟩ := List.mem_map.mp ho
      exact List.mem_append_right _ (List.mem_map.mpr ⟨v, hv, rfl⟩)) (ok_empty _)
  rw [← collectFrom_eq] at h1
  rw [← hc] at h2
  have m1 := mergeLags_spec _ _ b.varNames h2.1.lag2 h1.1.lag2 h1.1.nd1
  have m2 := mergeLeads_spec _ _ b.varNames h2.1.lead2 h1.1.lead2 h1.1.nd2
  have hle : (collectFromEquations b.equations).le (blockDeep b) := ⟨m1.2.2.1, m2.2.2.1⟩
  refine ⟨⟨m1.1, m2.1, m1.2.1, m2.2.1⟩, ?_, ?_⟩
  · intro e he o ho
    exact Deep.covers_mono hle (h1.2.2 o (List.mem_flatMap.mpr ⟨e, he, ho⟩))
  · intro v hv k hk
    have hcov := h2.2.2 (v.name, v.t) (List.mem_map.mpr ⟨v, hv, rfl⟩) k hk
    refine ⟨fun hl => ?_, fun hl => ?_⟩
    · obtain ⟨w, e, l⟩ := hcov.1 hl
      obtain ⟨w1, e1, l1⟩ := m1.2.2.2 _ (mem_of_dget _ _ _ e)
      exact ⟨w1, e1, Int.le_trans l1 l⟩
    · obtain ⟨w, e, l⟩ := hcov.2 hl
      obtain ⟨w1, e1, l1⟩ := m2.2.2.2 _ (mem_of_dget _ _ _ e)
      exact ⟨w1, e1, Int.le_trans l l1⟩

/-! ## helper lemmas: the replacer -/

mutual
theorem replaceExpr_vars (d : Deep) (e : Expr) :
    (replaceExpr d e).vars = e.vars.map fun o => replaceVar d o.1 o.2 := by
  cases e with
  | num v => rfl
  | par n => rfl
  | var n t => rfl
  | bin op l r => simp only [replaceExpr, Expr.vars, List.map_append]; rw [replaceExpr_vars d l, replaceExpr_vars d r]
  | neg e => simp only [replaceExpr, Expr.vars]; exact replaceExpr_vars d e
  | call f as => simp only [replaceExpr, Expr.vars]; exact replaceArgs_vars d as
  | expect e => simp only [replaceExpr, Expr.vars]; exact replaceExpr_vars d e
theorem replaceArgs_vars (d : Deep) (as : List Expr) :
    Expr.varsArgs (replaceArgs d as) = (Expr.varsArgs as).map fun o => replaceVar d o.1 o.2 := by
  cases as with
  | nil => rfl
  | cons a as =>
    simp only [replaceArgs, Expr.varsArgs, List.map_append]; rw [replaceExpr_vars d a, replaceArgs_vars d as]
end

theorem replaceEqn_vars (d : Deep) (e : Eqn) :
    (replaceEqn d e).vars = e.vars.map fun o => replaceVar d o.1 o.2 := by
  simp [Eqn.vars, replaceEqn, replaceExpr_vars]

theorem replaceVar_near (d : Deep) (o : Str × TIdx) (h : d.covers o) : (replaceVar d o.1 o.2).2.near := by
  obtain ⟨x, t⟩ := o
  cases t with
  | ss => trivial
  | t k =>
    simp only [replaceVar]
    split
    · simp [TIdx.near]
    · rename_i h1
      split
      · simp [TIdx.near]
      · rename_i h2
        have hc := h k rfl
        simp only [TIdx.near]
        constructor
        · apply Decidable.byContradiction; intro hk
          obtain ⟨v, e, _⟩ := hc.1 (by omega)
          exact h1 ⟨by rw [e]; rfl, by omega⟩
        · apply Decidable.byContradiction; intro hk
          obtain ⟨v, e, _⟩ := hc.2 (by omega)
          exact h2 ⟨by rw [e]; rfl, by omega⟩

theorem replaceVar_of_near (d : Deep) (x : Str) (t : TIdx) (h : t.near) : replaceVar d x t = (x, t) := by
  cases t with
  | ss => rfl
  | t k =>
    simp only [TIdx.near] at h
    simp only [replaceVar]
    rw [if_neg (by omega), if_neg (by omega)]

theorem lagLink_vars_near (x : Str) (l : Nat) : ∀ o ∈ (lagLink x l).vars, o.2.near := by
  intro o ho; simp [lagLink, Eqn.vars, Expr.vars] at ho
  rcases ho with rfl | rfl <;> simp [TIdx.near]

theorem leadLink_vars_near (x : Str) (l : Nat) : ∀ o ∈ (leadLink x l).vars, o.2.near := by
  intro o ho; simp [leadLink, Eqn.vars, Expr.vars] at ho
  rcases ho with rfl | rfl <;> simp [TIdx.near]

theorem mem_auxIdentities (d : Deep) (e : Eqn) : e ∈ auxIdentities d ↔
    (∃ p ∈ d.lags, ∃ l, 1 ≤ l ∧ l ≤ p.2.natAbs - 1 ∧ e = lagLink p.1 l) ∨
    (∃ p ∈ d.leads, ∃ l, 1 ≤ l ∧ l ≤ p.2.natAbs - 1 ∧ e = leadLink p.1 l) := by
  simp only [auxIdentities, List.mem_append, List.mem_flatMap, createLagChain, createLeadChain, List.mem_map,
    List.mem_range'_1]
  constructor
  · rintro (⟨p, hp, l, hl, rfl⟩ | ⟨p, hp, l, hl, rfl⟩)
    · exact Or.inl ⟨p, hp, l, hl.1, by omega, rfl⟩
    · exact Or.inr ⟨p, hp, l, hl.1, by omega, rfl⟩
  · rintro (⟨p, hp, l, h1, h2, rfl⟩ | ⟨p, hp, l, h1, h2, rfl⟩)
    · exact Or.inl ⟨p, hp, l, ⟨h1, by omega⟩, rfl⟩
    · exact Or.inr ⟨p, hp, l, ⟨h1, by omega⟩, rfl⟩

theorem aux_vars_near (d : Deep) (e : Eqn) (he : e ∈ auxIdentities d) : ∀ o ∈ e.vars, o.2.near := by
  rcases (mem_auxIdentities d e).mp he with ⟨p, _, l, _, _, rfl⟩ | ⟨p, _, l, _, _, rfl⟩
  · exact lagLink_vars_near p.1 l
  · exact leadLink_vars_near p.1 l

mutual
theorem replaceExpr_of_near (d : Deep) (e : Expr) (h : ∀ o ∈ e.vars, o.2.near) : replaceExpr d e = e := by
  cases e with
  | num v => rfl
  | par n => rfl
  | var n t => simp only [replaceExpr]; rw [replaceVar_of_near d n t (h (n, t) (by simp [Expr.vars]))]
  | bin op l r =>
    simp only [replaceExpr]
    rw [replaceExpr_of_near d l fun o ho => h o (by simp [Expr.vars, ho]),
      replaceExpr_of_near d r fun o ho => h o (by simp [Expr.vars, ho])]
  | neg e => simp only [replaceExpr]; rw [replaceExpr_of_near d e fun o ho => h o (by simpa [Expr.vars] using ho)]
  | call f as =>
    simp only [replaceExpr]; rw [replaceArgs_of_near d as fun o ho => h o (by simpa [Expr.vars] using ho)]
  | expect e => simp only [replaceExpr]; rw [replaceExpr_of_near d e fun o ho => h o (by simpa [Expr.vars] using ho)]
theorem replaceArgs_of_near (d : Deep) (as : List Expr) (h : ∀ o ∈ Expr.varsArgs as, o.2.near) :
    replaceArgs d as = as := by
  cases as with
  | nil => rfl
  | cons a as =>
    simp only [replaceArgs]
    rw [replaceExpr_of_near d a fun o ho => h o (by simp [Expr.varsArgs, ho]),
      replaceArgs_of_near d as fun o ho => h o (by simp [Expr.varsArgs, ho])]
end

theorem replaceEqn_of_near (d : Deep) (e : Eqn) (h : ∀ o ∈ e.vars, o.2.near) : replaceEqn d e = e := by
  unfold replaceEqn
  rw [replaceExpr_of_near d e.lhs fun o ho => h o (by simp [Eqn.vars, ho]),
    replaceExpr_of_near d e.rhs fun o ho => h o (by simp [Eqn.vars, ho])]

/-- the equations of an expanded block (when there is something to expand) -/
theorem expandBlock_equations (b : Blk) (h : ¬ ((blockDeep b).lags.isEmpty ∧ (blockDeep b).leads.isEmpty)) :
    (expandBlock b).equations = b.equations.map (replaceEqn (blockDeep b)) ++ auxIdentities (blockDeep b) := by
  have : (auxIdentities (blockDeep b)).map (replaceEqn (blockDeep b)) = auxIdentities (blockDeep b) := by
    conv => rhs; rw [← List.map_id (auxIdentities (blockDeep b))]
    exact List.map_congr_left fun e he => replaceEqn_of_near _ e (aux_vars_near _ e he)
  simp only [expandBlock]
  rw [if_neg h]
  simp [Blk.equations, List.map_append, this]

theorem deep_empty_near (b : Blk) (h : (blockDeep b).lags.isEmpty ∧ (blockDeep b).leads.isEmpty)
    (o : Str × TIdx) (hc : (blockDeep b).covers o) : o.2.near := by
  obtain ⟨x, t⟩ := o
  cases t with
  | ss => trivial
  | t k =>
    simp only [List.isEmpty_iff] at h
    have hc := hc k rfl
    rw [h.1, h.2] at hc
    simp only [dget] at hc
    simp only [TIdx.near]
    constructor
    · apply Decidable.byContradiction; intro hk
      obtain ⟨v, e, _⟩ := hc.1 (by omega); cases e
    · apply Decidable.byContradiction; intro hk
      obtain ⟨v, e, _⟩ := hc.2 (by omega); cases e

/-! ## C07 -/

/-- **C07 (partial: definitions, objective, constraints, identities and controls)** After expansion every
variable of every such equation of every block is dated t-1, t, t+1 or ss, whatever the model.
Missing: calibration equations, which the code leaves untouched (`C07_calibration_not_expanded`). -/
theorem C07_all_indices_near_partial (m : Mdl) (b : Blk) (hb : b ∈ (expandModel m).blocks) :
    (∀ e ∈ b.equations, ∀ o ∈ e.lhs.vars ++ e.rhs.vars, o.2 = .ss ∨ o.2 = .t (-1) ∨ o.2 = .t 0 ∨ o.2 = .t 1) ∧
    (∀ v ∈ b.controls, v.t = .ss ∨ v.t = .t (-1) ∨ v.t = .t 0 ∨ v.t = .t 1) := by
  have conv : ∀ t : TIdx, t.near → t = .ss ∨ t = .t (-1) ∨ t = .t 0 ∨ t = .t 1 := by
    intro t ht
    cases t with
    | ss => simp
    | t k =>
      simp only [TIdx.near] at ht
      have : k = -1 ∨ k = 0 ∨ k = 1 := by omega
      rcases this with rfl | rfl | rfl <;> simp
  obtain ⟨b0, _, rfl⟩ := List.mem_map.mp hb
  have hs := blockDeep_spec b0
  by_cases h : (blockDeep b0).lags.isEmpty ∧ (blockDeep b0).leads.isEmpty
  · have he : expandBlock b0 = b0 := by simp only [expandBlock]; rw [if_pos h]
    rw [he]
    exact ⟨fun e hee o ho => conv _ (deep_empty_near b0 h o (hs.2.1 e hee o ho)),
      fun v hv => conv _ (deep_empty_near b0 h _ (hs.2.2 v hv))⟩
  · constructor
    · intro e he o ho
      rw [expandBlock_equations b0 h, List.mem_append] at he
      rcases he with he | he
      · obtain ⟨e0, he0, rfl⟩ := List.mem_map.mp he
        have ho' : o ∈ (replaceEqn (blockDeep b0) e0).vars := ho
        rw [replaceEqn_vars] at ho'
        obtain ⟨o0, ho0, rfl⟩ := List.mem_map.mp ho'
        exact conv _ (replaceVar_near _ o0 (hs.2.1 e0 he0 o0 ho0))
      · exact conv _ (aux_vars_near _ e he o ho)
    · intro v hv
      simp only [expandBlock, if_neg h] at hv
      obtain ⟨v0, hv0, rfl⟩ := List.mem_map.mp hv
      exact conv _ (replaceVar_near _ (v0.name, v0.t) (hs.2.2 v0 hv0))

/-- **C07 is false** for calibration equations: a deep index there survives the expansion. -/
theorem C07_calibration_not_expanded :
    ∃ (m : Mdl) (b : Blk) (e : Eqn) (o : Str × TIdx), b ∈ (expandModel m).blocks ∧ Calib.eq e ∈ b.calibration ∧
      o ∈ e.vars ∧ ¬ o.2.near :=
  let b : Blk := { name := ['B'], calibration := [.eq ⟨.var ['x'] (.t (-3)), .num 1, none, some ['a'], []⟩] }
  ⟨{ blocks := [b] }, expandBlock b, ⟨.var ['x'] (.t (-3)), .num 1, none, some ['a'], []⟩, (['x'], .t (-3)),
    List.mem_map.mpr ⟨b, by simp, rfl⟩, List.mem_cons_self, by simp [Eqn.vars, Expr.vars], by simp [TIdx.near]⟩

/-! ## C08 -/

section sem
variable {K : Type} (I : Interp K)

/-- along `path`, the auxiliary variables are what they claim to be -/
def ChainHolds (path : Str → Int → K) (d : Deep) : Prop :=
  (∀ p ∈ d.lags, ∀ l, l ≤ p.2.natAbs - 1 → 1 ≤ l → ∀ t, path (makeLagName p.1 l) t = path p.1 (t - l)) ∧
  (∀ p ∈ d.leads, ∀ l, l ≤ p.2.natAbs - 1 → 1 ≤ l → ∀ t, path (makeLeadName p.1 l) t = path p.1 (t + l))

theorem replaceVar_eval (path : Str → Int → K) (d : Deep) (hch : ChainHolds path d) (x : Str) (s : TIdx)
    (hc : d.covers (x, s)) (t : Int) :
    (Expr.var (replaceVar d x s).1 (replaceVar d x s).2).eval I path t = (Expr.var x s).eval I path t := by
  cases s with
  | ss => rfl
  | t k =>
    simp only [replaceVar]
    split
    · rename_i h1
      obtain ⟨v, e, hv⟩ := (hc k rfl).1 h1.2
      simp only [Expr.eval]
      have := hch.1 _ (mem_of_dget _ _ _ e) (k.natAbs - 1) (by simp; omega)
      by_cases hk : 1 ≤ k.natAbs - 1
      · rw [this hk]; congr 1; omega
      · omega
    · split
      · rename_i h0 h1
        obtain ⟨v, e, hv⟩ := (hc k rfl).2 h1.2
        simp only [Expr.eval]
        have := hch.2 _ (mem_of_dget _ _ _ e) (k.natAbs - 1) (by simp; omega)
        by_cases hk : 1 ≤ k.natAbs - 1
        · rw [this hk]; congr 1; omega
        · omega
      · rfl

mutual
theorem replaceExpr_eval (path : Str → Int → K) (d : Deep) (hch : ChainHolds path d) (t : Int) (e : Expr)
    (hc : ∀ o ∈ e.vars, d.covers o) : (replaceExpr d e).eval I path t = e.eval I path t := by
  cases e with
  | num v => rfl
  | par n => rfl
  | var n s => exact replaceVar_eval I path d hch n s (hc (n, s) (by simp [Expr.vars])) t
  | bin op l r =>
    simp only [replaceExpr, Expr.eval]
    rw [replaceExpr_eval path d hch t l fun o ho => hc o (by simp [Expr.vars, ho]),
      replaceExpr_eval path d hch t r fun o ho => hc o (by simp [Expr.vars, ho])]
  | neg e =>
    simp only [replaceExpr, Expr.eval]
    rw [replaceExpr_eval path d hch t e fun o ho => hc o (by simpa [Expr.vars] using ho)]
  | call f as =>
    simp only [replaceExpr, Expr.eval]
    rw [replaceArgs_eval path d hch t as fun o ho => hc o (by simpa [Expr.vars] using ho)]
  | expect e =>
    simp only [replaceExpr, Expr.eval]
    rw [replaceExpr_eval path d hch t e fun o ho => hc o (by simpa [Expr.vars] using ho)]
theorem replaceArgs_eval (path : Str → Int → K) (d : Deep) (hch : ChainHolds path d) (t : Int) (as : List Expr)
    (hc : ∀ o ∈ Expr.varsArgs as, d.covers o) :
    Expr.evalArgs I path t (replaceArgs d as) = Expr.evalArgs I path t as := by
  cases as with
  | nil => rfl
  | cons a as =>
    simp only [replaceArgs, Expr.evalArgs]
    rw [replaceExpr_eval path d hch t a fun o ho => hc o (by simp [Expr.varsArgs, ho]),
      replaceArgs_eval path d hch t as fun o ho => hc o (by simp [Expr.varsArgs, ho])]
end

theorem replaceEqn_holds (path : Str → Int → K) (d : Deep) (hch : ChainHolds path d) (t : Int) (e : Eqn)
    (hc : ∀ o ∈ e.vars, d.covers o) : (replaceEqn d e).holds I path t ↔ e.holds I path t := by
  unfold Eqn.holds replaceEqn
  simp only
  rw [replaceExpr_eval I path d hch t e.lhs fun o ho => hc o (by simp [Eqn.vars, ho]),
    replaceExpr_eval I path d hch t e.rhs fun o ho => hc o (by simp [Eqn.vars, ho])]

theorem chain_of_aux (path : Str → Int → K) (d : Deep) (h : ∀ e ∈ auxIdentities d, ∀ t, e.holds I path t) :
    ChainHolds path d := by
  constructor
  · intro p hp l
    induction l with
    | zero => intro _ h1; omega
    | succ l ih =>
      intro hl h1 t
      have he := h (lagLink p.1 (l + 1)) ((mem_auxIdentities d _).mpr (Or.inl ⟨p, hp, l + 1, h1, hl, rfl⟩)) t
      simp only [lagLink, Eqn.holds, Expr.eval] at he
      by_cases hl0 : l = 0
      · subst hl0
        simp at he
        rw [he]; congr 1
      · simp only [show l + 1 ≠ 1 by omega, if_false, Nat.add_sub_cancel, Int.add_zero] at he
        rw [he, ih (by omega) (by omega)]; congr 1; omega
  · intro p hp l
    induction l with
    | zero => intro _ h1; omega
    | succ l ih =>
      intro hl h1 t
      have he := h (leadLink p.1 (l + 1)) ((mem_auxIdentities d _).mpr (Or.inr ⟨p, hp, l + 1, h1, hl, rfl⟩)) t
      simp only [leadLink, Eqn.holds, Expr.eval] at he
      by_cases hl0 : l = 0
      · subst hl0
        simp at he
        rw [he]; congr 1
      · simp only [show l + 1 ≠ 1 by omega, if_false, Nat.add_sub_cancel, Int.add_zero] at he
        rw [he, ih (by omega) (by omega)]; congr 1; omega

theorem aux_of_chain (path : Str → Int → K) (d : Deep) (hch : ChainHolds path d) :
    ∀ e ∈ auxIdentities d, ∀ t, e.holds I path t := by
  intro e he t
  rcases (mem_auxIdentities d e).mp he with ⟨p, hp, l, h1, h2, rfl⟩ | ⟨p, hp, l, h1, h2, rfl⟩
  · simp only [lagLink, Eqn.holds, Expr.eval, Int.add_zero]
    rw [hch.1 p hp l h2 h1]
    split
    · rename_i e; subst e; congr 1
    · rw [hch.1 p hp (l - 1) (by omega) (by omega)]; congr 1; omega
  · simp only [leadLink, Eqn.holds, Expr.eval, Int.add_zero]
    rw [hch.2 p hp l h2 h1]
    split
    · rename_i e; subst e; congr 1
    · rw [hch.2 p hp (l - 1) (by omega) (by omega)]; congr 1; omega

/-- the names introduced by the expansion, each with the variable and the shift it stands for -/
def auxTable (d : Deep) : List (Str × (Str × Int)) :=
  d.lags.flatMap (fun p => (List.range' 1 (p.2.natAbs - 1)).map fun l => (makeLagName p.1 l, (p.1, -(l : Int)))) ++
  d.leads.flatMap (fun p => (List.range' 1 (p.2.natAbs - 1)).map fun l => (makeLeadName p.1 l, (p.1, (l : Int))))

/-- the path of the auxiliary variables induced by a path of the original ones -/
def extend (path : Str → Int → K) (d : Deep) (n : Str) (t : Int) : K :=
  match dget (auxTable d) n with
  | some (x, off) => path x (t + off)
  | none => path n t

theorem mem_auxTable (d : Deep) (q : Str × (Str × Int)) : q ∈ auxTable d ↔
    (∃ p ∈ d.lags, ∃ l, 1 ≤ l ∧ l ≤ p.2.natAbs - 1 ∧ q = (makeLagName p.1 l, (p.1, -(l : Int)))) ∨
    (∃ p ∈ d.leads, ∃ l, 1 ≤ l ∧ l ≤ p.2.natAbs - 1 ∧ q = (makeLeadName p.1 l, (p.1, (l : Int)))) := by
  simp only [auxTable, List.mem_append, List.mem_flatMap, List.mem_map, List.mem_range'_1]
  constructor
  · rintro (⟨p, hp, l, hl, rfl⟩ | ⟨p, hp, l, hl, rfl⟩)
    · exact Or.inl ⟨p, hp, l, hl.1, by omega, rfl⟩
    · exact Or.inr ⟨p, hp, l, hl.1, by omega, rfl⟩
  · rintro (⟨p, hp, l, h1, h2, rfl⟩ | ⟨p, hp, l, h1, h2, rfl⟩)
    · exact Or.inl ⟨p, hp, l, ⟨h1, by omega⟩, rfl⟩
    · exact Or.inr ⟨p, hp, l, ⟨h1, by omega⟩, rfl⟩

theorem nodup_flatMap_names {ν : Type} (l : List (Str × Int)) (f : Str → Nat → Str) (g : Str × Int → Nat → Str × ν)
    (hg : ∀ p k, (g p k).1 = f p.1 k) (hf : ∀ x y k j, f x k = f y j → x = y ∧ k = j) (nd : (dkeys l).Nodup) :
    ((l.flatMap fun p => (List.range' 1 (p.2.natAbs - 1)).map (g p)).map Prod.fst).Nodup := by
  induction l with
  | nil => simp
  | cons p l ih =>
    simp only [dkeys, List.map_cons, List.nodup_cons] at nd
    simp only [List.flatMap_cons, List.map_append, List.map_map]
    rw [List.nodup_append]
    refine ⟨?_, ih nd.2, ?_⟩
    · have hrange : ∀ s n, (List.range' s n).Nodup := by
        intro s n
        induction n generalizing s with
        | zero => simp
        | succ n ihn =>
          rw [List.range'_succ, List.nodup_cons]
          exact ⟨by simp only [List.mem_range'_1]; omega, ihn (s + 1)⟩
      generalize hr : List.range' 1 (p.2.natAbs - 1) = r
      have hnd : r.Nodup := hr ▸ hrange _ _
      clear hr
      induction r with
      | nil => simp
      | cons a r ihr =>
        simp only [List.map_cons, List.nodup_cons] at hnd ⊢
        refine ⟨?_, ihr hnd.2⟩
        intro hm
        obtain ⟨k, hk, he⟩ := List.mem_map.mp hm
        simp only [Function.comp_apply, hg] at he
        exact hnd.1 ((hf _ _ _ _ he).2 ▸ hk)
    · intro a ha b hb hab
      obtain ⟨k, _, rfl⟩ := List.mem_map.mp ha
      obtain ⟨q, hq, rfl⟩ := List.mem_map.mp hb
      obtain ⟨p', hp', hq⟩ := List.mem_flatMap.mp hq
      obtain ⟨k', _, rfl⟩ := List.mem_map.mp hq
      simp only [Function.comp_apply, hg] at hab
      exact nd.1 ((hf _ _ _ _ hab).1 ▸ List.mem_map.mpr ⟨p', hp', rfl⟩)

theorem auxTable_nodup (d : Deep) (nd1 : (dkeys d.lags).Nodup) (nd2 : (dkeys d.leads).Nodup) :
    (dkeys (auxTable d)).Nodup := by
  unfold dkeys auxTable
  rw [List.map_append, List.nodup_append]
  refine ⟨nodup_flatMap_names d.lags makeLagName (fun p l => (makeLagName p.1 l, (p.1, -(l : Int))))
      (fun _ _ => rfl) (fun _ _ _ _ => lagName_inj) nd1,
    nodup_flatMap_names d.leads makeLeadName (fun p l => (makeLeadName p.1 l, (p.1, (l : Int))))
      (fun _ _ => rfl) (fun _ _ _ _ => leadName_inj) nd2, ?_⟩
  intro a ha b hb hab
  obtain ⟨q, hq, rfl⟩ := List.mem_map.mp ha
  obtain ⟨r, hr, rfl⟩ := List.mem_map.mp hb
  obtain ⟨p, _, hq⟩ := List.mem_flatMap.mp hq
  obtain ⟨p', _, hr⟩ := List.mem_flatMap.mp hr
  obtain ⟨l, _, rfl⟩ := List.mem_map.mp hq
  obtain ⟨l', _, rfl⟩ := List.mem_map.mp hr
  exact lagName_ne_leadName _ _ _ _ hab

mutual
theorem eval_congr (p q : Str → Int → K) (t : Int) (e : Expr) (h : ∀ o ∈ e.vars, p o.1 = q o.1) :
    e.eval I p t = e.eval I q t := by
  cases e with
  | num v => rfl
  | par n => rfl
  | var n s =>
    have := h (n, s) (by simp [Expr.vars])
    cases s with
    | ss => rfl
    | t k => simp only [Expr.eval]; simp only at this; rw [this]
  | bin op l r =>
    simp only [Expr.eval]
    rw [eval_congr p q t l fun o ho => h o (by simp [Expr.vars, ho]),
      eval_congr p q t r fun o ho => h o (by simp [Expr.vars, ho])]
  | neg e => simp only [Expr.eval]; rw [eval_congr p q t e fun o ho => h o (by simpa [Expr.vars] using ho)]
  | call f as => simp only [Expr.eval]; rw [evalArgs_congr p q t as fun o ho => h o (by simpa [Expr.vars] using ho)]
  | expect e => simp only [Expr.eval]; rw [eval_congr p q t e fun o ho => h o (by simpa [Expr.vars] using ho)]
theorem evalArgs_congr (p q : Str → Int → K) (t : Int) (as : List Expr)
    (h : ∀ o ∈ Expr.varsArgs as, p o.1 = q o.1) : Expr.evalArgs I p t as = Expr.evalArgs I q t as := by
  cases as with
  | nil => rfl
  | cons a as =>
    simp only [Expr.evalArgs]
    rw [eval_congr p q t a fun o ho => h o (by simp [Expr.varsArgs, ho]),
      evalArgs_congr p q t as fun o ho => h o (by simp [Expr.varsArgs, ho])]
end

/-- **C08** (⇐, and uniqueness) Any path solving the expanded block solves the original block, and on it the
auxiliary variables are exactly the lagged / led originals.  No hypothesis on names is needed. -/
theorem C08_expanded_solution_solves_original (b : Blk) (path : Str → Int → K)
    (h : (expandBlock b).solvedBy I path) :
    b.solvedBy I path ∧
    (∀ e ∈ b.equations, ∀ x k, (x, TIdx.t k) ∈ e.vars → k < -1 →
      ∀ l : Nat, 1 ≤ l → (l : Int) < -k → ∀ t, path (makeLagName x l) t = path x (t - l)) ∧
    (∀ e ∈ b.equations, ∀ x k, (x, TIdx.t k) ∈ e.vars → k > 1 →
      ∀ l : Nat, 1 ≤ l → (l : Int) < k → ∀ t, path (makeLeadName x l) t = path x (t + l)) := by
  have hs := blockDeep_spec b
  by_cases hd : (blockDeep b).lags.isEmpty ∧ (blockDeep b).leads.isEmpty
  · have he : expandBlock b = b := by simp only [expandBlock]; rw [if_pos hd]
    rw [he] at h
    refine ⟨h, ?_, ?_⟩
    · intro e hee x k ho hk
      have := deep_empty_near b hd _ (hs.2.1 e hee _ ho)
      simp only [TIdx.near] at this; omega
    · intro e hee x k ho hk
      have := deep_empty_near b hd _ (hs.2.1 e hee _ ho)
      simp only [TIdx.near] at this; omega
  · unfold Blk.solvedBy at h
    rw [expandBlock_equations b hd] at h
    have hch := chain_of_aux I path (blockDeep b) fun e he t => h e (List.mem_append_right _ he) t
    refine ⟨?_, ?_, ?_⟩
    · intro e he t
      rw [← replaceEqn_holds I path _ hch t e (hs.2.1 e he)]
      exact h _ (List.mem_append_left _ (List.mem_map.mpr ⟨e, he, rfl⟩)) t
    · intro e he x k ho hk l h1 hl t
      obtain ⟨v, hv, hle⟩ := (hs.2.1 e he _ ho k rfl).1 hk
      exact hch.1 _ (mem_of_dget _ _ _ hv) l (by simp; omega) h1 t
    · intro e he x k ho hk l h1 hl t
      obtain ⟨v, hv, hle⟩ := (hs.2.1 e he _ ho k rfl).2 hk
      exact hch.2 _ (mem_of_dget _ _ _ hv) l (by simp; omega) h1 t

/-- **C08** (⇒) If the block does not already use the auxiliary names, every path solving the original block
extends to one solving the expanded block, changing nothing but names of the form `y__lagK` / `y__leadK`. -/
theorem C08_original_solution_extends (b : Blk) (hf : b.fresh) (path : Str → Int → K) (h : b.solvedBy I path) :
    ∃ path' : Str → Int → K, (expandBlock b).solvedBy I path' ∧
      ∀ n, (∀ y ∈ b.varNames, ∀ k, n ≠ makeLagName y k ∧ n ≠ makeLeadName y k) → path' n = path n := by
  have hs := blockDeep_spec b
  have hok := hs.1
  have hkeep : ∀ n, (∀ y ∈ b.varNames, ∀ k, n ≠ makeLagName y k ∧ n ≠ makeLeadName y k) →
      extend path (blockDeep b) n = path n := by
    intro n hn
    funext t
    have : dget (auxTable (blockDeep b)) n = none := by
      rw [dget_eq_none]
      intro hm
      obtain ⟨q, hq, rfl⟩ := List.mem_map.mp hm
      rcases (mem_auxTable _ q).mp hq with ⟨p, hp, l, _, _, rfl⟩ | ⟨p, hp, l, _, _, rfl⟩
      · exact (hn p.1 (hok.lag2 p hp).2 l).1 rfl
      · exact (hn p.1 (hok.lead2 p hp).2 l).2 rfl
    simp [extend, this]
  have hnames : ∀ e ∈ b.equations, ∀ o ∈ e.vars, o.1 ∈ b.varNames := by
    intro e he o ho
    exact List.mem_append_left _ (List.mem_map.mpr ⟨o, List.mem_flatMap.mpr ⟨e, he, ho⟩, rfl⟩)
  refine ⟨extend path (blockDeep b), ?_, hkeep⟩
  by_cases hd : (blockDeep b).lags.isEmpty ∧ (blockDeep b).leads.isEmpty
  · have he : expandBlock b = b := by simp only [expandBlock]; rw [if_pos hd]
    rw [he]
    intro e hee t
    have := h e hee t
    unfold Eqn.holds at this ⊢
    rw [eval_congr I _ path t e.lhs fun o ho => hkeep _ (hf _ (hnames e hee o (by simp [Eqn.vars, ho]))),
      eval_congr I _ path t e.rhs fun o ho => hkeep _ (hf _ (hnames e hee o (by simp [Eqn.vars, ho])))]
    exact this
  · have hch : ChainHolds (extend path (blockDeep b)) (blockDeep b) := by
      have ndt := auxTable_nodup _ hok.nd1 hok.nd2
      constructor
      · intro p hp l h2 h1 t
        have hg := dget_of_mem _ ndt _ _ ((mem_auxTable _ _).mpr (Or.inl ⟨p, hp, l, h1, h2, rfl⟩))
        rw [hkeep p.1 (hf p.1 (hok.lag2 p hp).2)]
        simp only [extend, hg]
        rfl
      · intro p hp l h2 h1 t
        have hg := dget_of_mem _ ndt _ _ ((mem_auxTable _ _).mpr (Or.inr ⟨p, hp, l, h1, h2, rfl⟩))
        rw [hkeep p.1 (hf p.1 (hok.lead2 p hp).2)]
        simp only [extend, hg]
    unfold Blk.solvedBy
    rw [expandBlock_equations b hd]
    intro e he t
    rcases List.mem_append.mp he with he | he
    · obtain ⟨e0, he0, rfl⟩ := List.mem_map.mp he
      rw [replaceEqn_holds I _ _ hch t e0 (hs.2.1 e0 he0)]
      have := h e0 he0 t
      unfold Eqn.holds at this ⊢
      rw [eval_congr I _ path t e0.lhs fun o ho => hkeep _ (hf _ (hnames e0 he0 o (by simp [Eqn.vars, ho]))),
        eval_congr I _ path t e0.rhs fun o ho => hkeep _ (hf _ (hnames e0 he0 o (by simp [Eqn.vars, ho])))]
      exact this
    · exact aux_of_chain I _ _ hch e he t

end sem

/-- an AR(4)-like block used in the examples: `y[] = x[-4] + x[3]` -/
def exBlk : Blk :=
  { name := ['B'],
    identities := [{ lhs := .var ['y'] (.t 0), rhs := .bin .add (.var ['x'] (.t (-4))) (.var ['x'] (.t 3)) }] }

theorem fresh_of_no_underscore (b : Blk) (h : ∀ n ∈ b.varNames, '_' ∉ n) : b.fresh := by
  intro n hn y _ k
  constructor <;> intro e <;> apply h n hn <;> rw [e]
  · simp [makeLagName]
  · simp [makeLeadName]

-- non-vacuity: a genuinely deep, fresh block, and its expansion has five auxiliary identities
example : exBlk.fresh := fresh_of_no_underscore _ (by decide)
example : (expandBlock exBlk).identities.length = 6 := by decide

/-- **C08** freshness is necessary: if the user's block already has a variable called `x__lag1`, the expanded
block can have no solution agreeing with a solution of the original one. -/
theorem C08_clash_changes_meaning :
    ∃ (b : Blk) (I : Interp Int) (path : Str → Int → Int), b.solvedBy I path ∧
      ∀ path' : Str → Int → Int, (∀ n ∈ b.varNames, path' n = path n) → ¬ (expandBlock b).solvedBy I path' := by
  let b : Blk :=
    { name := ['B']
      identities := [{ lhs := .var ['x'] (.t (-2)), rhs := .num 0 },
                     { lhs := .var (makeLagName ['x'] 1) (.t 0), rhs := .num 1 }] }
  let I : Interp Int := ⟨fun q => q.num, fun _ => 0, fun _ a _ => a, fun a => a, fun _ _ => 0, fun _ => 0⟩
  refine ⟨b, I, fun n _ => if n = ['x'] then 0 else 1, ?_, ?_⟩
  · intro e he t
    simp only [b, Blk.equations, List.nil_append, List.mem_cons, List.not_mem_nil, or_false] at he
    rcases he with rfl | rfl
    · simp [Eqn.holds, Expr.eval, I]
    · simp only [Eqn.holds, Expr.eval, I]
      rw [if_neg (by decide)]; rfl
  · intro path' hp hsol
    have h1 := (C08_expanded_solution_solves_original I b path' hsol).2.1
      { lhs := .var ['x'] (.t (-2)), rhs := .num 0 } (by simp [b, Blk.equations]) ['x'] (-2)
      (by simp [Eqn.vars, Expr.vars]) (by omega) 1 (by omega) (by omega) 0
    have e1 := hp (makeLagName ['x'] 1) (by decide)
    have e2 := hp ['x'] (by decide)
    rw [e1, e2] at h1
    revert h1; decide

/-! ## C09 -/

/-- **C09** a block in which every variable is dated t-1, t, t+1 or ss is returned unchanged. -/
theorem C09_shallow_unchanged (b : Blk) (h1 : ∀ e ∈ b.equations, ∀ o ∈ e.vars, o.2.near)
    (h2 : ∀ v ∈ b.controls, v.t.near) : expandBlock b = b := by
  have key : ∀ (os : List (Str × TIdx)) (d : Deep), (∀ o ∈ os, o.2.near) →
      os.foldl (fun d o => collectVar d o.1 o.2) d = d := by
    intro os
    induction os with
    | nil => intros; rfl
    | cons o os ih =>
      intro d h
      have : collectVar d o.1 o.2 = d := by
        have := h o (by simp)
        obtain ⟨x, t⟩ := o
        cases t with
        | ss => rfl
        | t k => simp only [TIdx.near] at this; simp only [collectVar]; rw [if_neg (by omega), if_neg (by omega)]
      simp only [List.foldl_cons, this]
      exact ih d fun o ho => h o (by simp [ho])
  have e1 : collectFromEquations b.equations = {} := by
    rw [collectFrom_eq]
    exact key _ _ fun o ho => by
      obtain ⟨e, he, ho⟩ := List.mem_flatMap.mp ho
      exact h1 e he o ho
  have e2 : b.controls.foldl (fun s v => collectVar s v.name v.t) ({} : Deep) = {} := by
    have := key (b.controls.map fun v => (v.name, v.t)) {} fun o ho => by
      obtain ⟨v, hv, rfl⟩ := List.mem_map.mp ho
      exact h2 v hv
    rw [List.foldl_map] at this; exact this
  have : blockDeep b = {} := by simp only [blockDeep, e1, e2]; rfl
  simp [expandBlock, this]

/-- **C09** expansion is idempotent on every block and every model. -/
theorem C09_idempotent (b : Blk) (m : Mdl) :
    expandBlock (expandBlock b) = expandBlock b ∧ expandModel (expandModel m) = expandModel m := by
  have key : ∀ b, expandBlock (expandBlock b) = expandBlock b := by
    intro b
    have hs := blockDeep_spec b
    by_cases h : (blockDeep b).lags.isEmpty ∧ (blockDeep b).leads.isEmpty
    · have he : expandBlock b = b := by simp only [expandBlock]; rw [if_pos h]
      rw [he, he]
    · apply C09_shallow_unchanged
      · intro e he o ho
        rw [expandBlock_equations b h, List.mem_append] at he
        rcases he with he | he
        · obtain ⟨e0, he0, rfl⟩ := List.mem_map.mp he
          rw [replaceEqn_vars] at ho
          obtain ⟨o0, ho0, rfl⟩ := List.mem_map.mp ho
          exact replaceVar_near _ o0 (hs.2.1 e0 he0 o0 ho0)
        · exact aux_vars_near _ e he o ho
      · intro v hv
        simp only [expandBlock, if_neg h] at hv
        obtain ⟨v0, hv0, rfl⟩ := List.mem_map.mp hv
        exact replaceVar_near _ (v0.name, v0.t) (hs.2.2 v0 hv0)
  refine ⟨key b, ?_⟩
  simp only [expandModel, List.map_map]
  congr 1
  apply List.map_congr_left
  intro b _
  exact key b

/-- **C09** everything else about the block is carried over. -/
theorem C09_other_fields_kept (b : Blk) :
    (expandBlock b).name = b.name ∧ (expandBlock b).shocks = b.shocks ∧
    (expandBlock b).shockDists = b.shockDists ∧ (expandBlock b).calibration = b.calibration ∧
    (expandBlock b).constraints.map (fun e => (e.lagrange, e.calibrating, e.tags)) =
      b.constraints.map (fun e => (e.lagrange, e.calibrating, e.tags)) := by
  simp only [expandBlock]
  split <;> simp [replaceEqn, Function.comp_def]

example : ¬ ∀ e ∈ exBlk.equations, ∀ o ∈ e.vars, o.2.near := by
  intro h
  have := h _ (by simp [exBlk, Blk.equations]; rfl) (['x'], .t (-4)) (by simp [Eqn.vars, Expr.vars])
  simp [TIdx.near] at this

/-! ## C10 -/

theorem aux_lhs_names (d : Deep) (e : Eqn) (he : e ∈ auxIdentities d) (o : Str × TIdx) (ho : o ∈ e.vars) :
    o.1 ∈ dkeys (auxTable d) ∨ o.1 ∈ dkeys d.lags ∨ o.1 ∈ dkeys d.leads := by
  rcases (mem_auxIdentities d e).mp he with ⟨p, hp, l, h1, h2, rfl⟩ | ⟨p, hp, l, h1, h2, rfl⟩
  · simp only [lagLink, Eqn.vars, Expr.vars, List.mem_append, List.mem_cons, List.not_mem_nil, or_false] at ho
    rcases ho with rfl | rfl
    · exact Or.inl (List.mem_map.mpr ⟨_, (mem_auxTable _ _).mpr (Or.inl ⟨p, hp, l, h1, h2, rfl⟩), rfl⟩)
    · by_cases hl : l = 1
      · simp only [hl, if_true]; exact Or.inr (Or.inl (List.mem_map.mpr ⟨p, hp, rfl⟩))
      · simp only [hl, if_false]
        exact Or.inl (List.mem_map.mpr ⟨_, (mem_auxTable _ _).mpr (Or.inl ⟨p, hp, l - 1, by omega, by omega, rfl⟩), rfl⟩)
  · simp only [leadLink, Eqn.vars, Expr.vars, List.mem_append, List.mem_cons, List.not_mem_nil, or_false] at ho
    rcases ho with rfl | rfl
    · exact Or.inl (List.mem_map.mpr ⟨_, (mem_auxTable _ _).mpr (Or.inr ⟨p, hp, l, h1, h2, rfl⟩), rfl⟩)
    · by_cases hl : l = 1
      · simp only [hl, if_true]; exact Or.inr (Or.inr (List.mem_map.mpr ⟨p, hp, rfl⟩))
      · simp only [hl, if_false]
        exact Or.inl (List.mem_map.mpr ⟨_, (mem_auxTable _ _).mpr (Or.inr ⟨p, hp, l - 1, by omega, by omega, rfl⟩), rfl⟩)

theorem aux_length (d : Deep) : (auxIdentities d).length = (auxTable d).length := by
  simp [auxIdentities, auxTable, createLagChain, createLeadChain, List.length_flatMap]

/-- **C10 (partial: within one block)** the expansion of a block adds a duplicate-free list `A` of auxiliary
variables, exactly one identity per member of `A`, and the variables of the expanded block are exactly the old
ones and `A`; if the block is fresh, `A` is disjoint from the old variables.  So a square block stays square.
Missing: several blocks using the same deep lag, for which the claim is false
(`C10_shared_lag_duplicates_identities`). -/
theorem C10_block_stays_square_partial (b : Blk) :
    ∃ A : List Str, A.Nodup ∧ (expandBlock b).equations.length = b.equations.length + A.length ∧
      (∀ n, n ∈ (expandBlock b).varNames ↔ n ∈ b.varNames ∨ n ∈ A) ∧
      (b.fresh → ∀ n ∈ A, n ∉ b.varNames) := by
  have hs := blockDeep_spec b
  have hok := hs.1
  by_cases h : (blockDeep b).lags.isEmpty ∧ (blockDeep b).leads.isEmpty
  · have he : expandBlock b = b := by simp only [expandBlock]; rw [if_pos h]
    exact ⟨[], by simp, by simp [he], by simp [he], by simp⟩
  · refine ⟨dkeys (auxTable (blockDeep b)), auxTable_nodup _ hok.nd1 hok.nd2, ?_, ?_, ?_⟩
    · rw [expandBlock_equations b h]
      simp [aux_length, dkeys]
    · -- a replaced occurrence is an auxiliary name or the same name
      have hrep : ∀ o : Str × TIdx, (blockDeep b).covers o →
          (replaceVar (blockDeep b) o.1 o.2).1 = o.1 ∨
          (replaceVar (blockDeep b) o.1 o.2).1 ∈ dkeys (auxTable (blockDeep b)) := by
        rintro ⟨x, s⟩ hc
        cases s with
        | ss => left; rfl
        | t k =>
          simp only [replaceVar]
          split
          · rename_i h1
            obtain ⟨v, e, hv⟩ := (hc k rfl).1 h1.2
            right
            exact List.mem_map.mpr ⟨_, (mem_auxTable _ _).mpr (Or.inl ⟨_, mem_of_dget _ _ _ e, k.natAbs - 1,
              by omega, by simp; omega, rfl⟩), rfl⟩
          · split
            · rename_i h0 h1
              obtain ⟨v, e, hv⟩ := (hc k rfl).2 h1.2
              right
              exact List.mem_map.mpr ⟨_, (mem_auxTable _ _).mpr (Or.inr ⟨_, mem_of_dget _ _ _ e, k.natAbs - 1,
                by omega, by simp; omega, rfl⟩), rfl⟩
            · left; rfl
      have hctrl : (expandBlock b).controls =
          b.controls.map fun v => let r := replaceVar (blockDeep b) v.name v.t; ⟨r.1, r.2⟩ := by
        simp only [expandBlock]; rw [if_neg h]
      -- deep names appear in the first link of their chain, auxiliary names as its left-hand sides
      have hlagname : ∀ p ∈ (blockDeep b).lags, p.1 ∈ (expandBlock b).varNames := by
        intro p hp
        refine List.mem_append_left _ (List.mem_map.mpr ⟨(p.1, .t (-1)), List.mem_flatMap.mpr ⟨lagLink p.1 1, ?_, ?_⟩, rfl⟩)
        · rw [expandBlock_equations b h]
          exact List.mem_append_right _ ((mem_auxIdentities _ _).mpr (Or.inl ⟨p, hp, 1, by omega,
            by have := (hok.lag2 p hp).1; omega, rfl⟩))
        · simp [lagLink, Eqn.vars, Expr.vars]
      have hleadname : ∀ p ∈ (blockDeep b).leads, p.1 ∈ (expandBlock b).varNames := by
        intro p hp
        refine List.mem_append_left _ (List.mem_map.mpr ⟨(p.1, .t 1), List.mem_flatMap.mpr ⟨leadLink p.1 1, ?_, ?_⟩, rfl⟩)
        · rw [expandBlock_equations b h]
          exact List.mem_append_right _ ((mem_auxIdentities _ _).mpr (Or.inr ⟨p, hp, 1, by omega,
            by have := (hok.lead2 p hp).1; omega, rfl⟩))
        · simp [leadLink, Eqn.vars, Expr.vars]
      have hsame : ∀ o : Str × TIdx, (replaceVar (blockDeep b) o.1 o.2).1 = o.1 ∨ o.1 ∈ (expandBlock b).varNames := by
        rintro ⟨x, s⟩
        cases s with
        | ss => left; rfl
        | t k =>
          simp only [replaceVar]
          split
          · rename_i h1
            right
            cases e : dget (blockDeep b).lags x with
            | none => simp [e] at h1
            | some v => exact hlagname _ (mem_of_dget _ _ _ e)
          · split
            · rename_i h0 h1
              right
              cases e : dget (blockDeep b).leads x with
              | none => simp [e] at h1
              | some v => exact hleadname _ (mem_of_dget _ _ _ e)
            · left; rfl
      intro n
      constructor
      · intro hn
        rcases List.mem_append.mp hn with hn | hn
        · obtain ⟨o, ho, rfl⟩ := List.mem_map.mp hn
          obtain ⟨e, he, ho⟩ := List.mem_flatMap.mp ho
          rw [expandBlock_equations b h, List.mem_append] at he
          rcases he with he | he
          · obtain ⟨e0, he0, rfl⟩ := List.mem_map.mp he
            rw [replaceEqn_vars] at ho
            obtain ⟨o0, ho0, rfl⟩ := List.mem_map.mp ho
            rcases hrep o0 (hs.2.1 e0 he0 o0 ho0) with h1 | h1
            · left; rw [h1]
              exact List.mem_append_left _ (List.mem_map.mpr ⟨o0, List.mem_flatMap.mpr ⟨e0, he0, ho0⟩, rfl⟩)
            · exact Or.inr h1
          · rcases aux_lhs_names _ e he o ho with h1 | h1 | h1
            · exact Or.inr h1
            · obtain ⟨p, hp, e⟩ := List.mem_map.mp h1
              left; rw [← e]; exact (hok.lag2 p hp).2
            · obtain ⟨p, hp, e⟩ := List.mem_map.mp h1
              left; rw [← e]; exact (hok.lead2 p hp).2
        · obtain ⟨v, hv, rfl⟩ := List.mem_map.mp hn
          rw [hctrl] at hv
          obtain ⟨v0, hv0, rfl⟩ := List.mem_map.mp hv
          rcases hrep (v0.name, v0.t) (hs.2.2 v0 hv0) with h1 | h1
          · left; simp only at h1 ⊢; rw [h1]
            exact List.mem_append_right _ (List.mem_map.mpr ⟨v0, hv0, rfl⟩)
          · exact Or.inr h1
      · rintro (hn | hn)
        · rcases List.mem_append.mp hn with hn | hn
          · obtain ⟨o, ho, rfl⟩ := List.mem_map.mp hn
            obtain ⟨e, he, ho⟩ := List.mem_flatMap.mp ho
            rcases hsame o with h1 | h1
            · refine List.mem_append_left _ (List.mem_map.mpr ⟨replaceVar (blockDeep b) o.1 o.2,
                List.mem_flatMap.mpr ⟨replaceEqn (blockDeep b) e, ?_, ?_⟩, h1⟩)
              · rw [expandBlock_equations b h]
                exact List.mem_append_left _ (List.mem_map.mpr ⟨e, he, rfl⟩)
              · rw [replaceEqn_vars]; exact List.mem_map.mpr ⟨o, ho, rfl⟩
            · exact h1
          · obtain ⟨v, hv, rfl⟩ := List.mem_map.mp hn
            rcases hsame (v.name, v.t) with h1 | h1
            · refine List.mem_append_right _ (List.mem_map.mpr
                ⟨⟨(replaceVar (blockDeep b) v.name v.t).1, (replaceVar (blockDeep b) v.name v.t).2⟩, ?_, h1⟩)
              rw [hctrl]; exact List.mem_map.mpr ⟨v, hv, rfl⟩
            · exact h1
        · obtain ⟨q, hq, rfl⟩ := List.mem_map.mp hn
          rcases (mem_auxTable _ q).mp hq with ⟨p, hp, l, h1, h2, rfl⟩ | ⟨p, hp, l, h1, h2, rfl⟩
          · refine List.mem_append_left _ (List.mem_map.mpr ⟨(makeLagName p.1 l, .t 0),
              List.mem_flatMap.mpr ⟨lagLink p.1 l, ?_, by simp [lagLink, Eqn.vars, Expr.vars]⟩, rfl⟩)
            rw [expandBlock_equations b h]
            exact List.mem_append_right _ ((mem_auxIdentities _ _).mpr (Or.inl ⟨p, hp, l, h1, h2, rfl⟩))
          · refine List.mem_append_left _ (List.mem_map.mpr ⟨(makeLeadName p.1 l, .t 0),
              List.mem_flatMap.mpr ⟨leadLink p.1 l, ?_, by simp [leadLink, Eqn.vars, Expr.vars]⟩, rfl⟩)
            rw [expandBlock_equations b h]
            exact List.mem_append_right _ ((mem_auxIdentities _ _).mpr (Or.inr ⟨p, hp, l, h1, h2, rfl⟩))
    · intro hf n hn hm
      obtain ⟨q, hq, rfl⟩ := List.mem_map.mp hn
      rcases (mem_auxTable _ q).mp hq with ⟨p, hp, l, _, _, rfl⟩ | ⟨p, hp, l, _, _, rfl⟩
      · exact (hf _ hm p.1 (hok.lag2 p hp).2 l).1 rfl
      · exact (hf _ hm p.1 (hok.lead2 p hp).2 l).2 rfl

/-- all equations / distinct variable names of a model -/
def Mdl.equations (m : Mdl) : List Eqn := m.blocks.flatMap Blk.equations
def Mdl.varNames (m : Mdl) : List Str := (m.blocks.flatMap Blk.varNames).eraseDups

/-- **C10 is false** across blocks: a square model (2 equations, 2 variables) in which two blocks use `x[-2]`
becomes over-determined, because the identity defining `x__lag1` is added once per block. -/
theorem C10_shared_lag_duplicates_identities :
    ∃ m : Mdl, m.equations.length = m.varNames.length ∧ (∀ b ∈ m.blocks, b.fresh) ∧
      (expandModel m).equations.length = (expandModel m).varNames.length + 1 :=
  ⟨{ blocks := [
      { name := ['A'], identities := [{ lhs := .var ['y'] (.t 0), rhs := .var ['x'] (.t (-2)) }] },
      { name := ['B'], identities := [{ lhs := .var ['x'] (.t 0), rhs := .var ['x'] (.t (-2)) }] }] },
    by decide,
    by
      intro b hb
      simp only [List.mem_cons, List.not_mem_nil, or_false] at hb
      rcases hb with rfl | rfl <;> exact fresh_of_no_underscore _ (by decide),
    by decide⟩

end GE
