import Verif.Model.DirectConvert
import Verif.Model.CalibrationSpec
import Verif.Props.FileCalibration
/-! # C127: converting parsed blocks directly -/

namespace GE.Dir
open Gcn

/-! ## specification -/

/-- what a converted equation with its metadata has to say about the equation as written -/
structure Means (asm : List (Str × Asm)) (e : Eqn) (s : SEq × EqMeta) : Prop where
  /-- an ordinary equation keeps both sides -/
  plain : e.calibrating = none → SameValue asm s.1.lhs e.lhs ∧ SameValue asm s.1.rhs e.rhs
  /-- a calibrating equation defines its parameter as the difference of the sides -/
  arrow : ∀ c p, e.calibrating = some (c :: p) → s.1.lhs = .sym (.par (c :: p)) ∧ s.2.parameter = some (.par (c :: p)) ∧
    SameValue asm s.1.rhs (.bin .sub e.lhs e.rhs)
  flagged : s.2.isCalibrating = true ↔ e.calibrating ≠ none
  unflagged : e.calibrating = none → s.2.parameter = none
  /-- the multiplier, if one is named, is the variable of that name, now, with its declared assumptions -/
  multiplier : ∀ x, s.2.multiplier = some x ↔ e.lagrange = some x.base ∧ x.base ≠ [] ∧ x.idx = .t 0 ∧ x.asm = mergeAssumptions (dget asm x.base)

/-- every component of the block, in order, nothing more and nothing less -/
structure BlockMeans (asm : List (Str × Asm)) (b : Blk) (r : Converted) : Prop where
  definitions : List.Forall₂ (Means asm) b.definitions r.definitions
  objective : List.Forall₂ (Means asm) b.objective r.objective
  constraints : List.Forall₂ (Means asm) b.constraints r.constraints
  identities : List.Forall₂ (Means asm) b.identities r.identities
  calibration : List.Forall₂ (Means asm) (b.calibration.filterMap fun | .eq e => some e | .dist _ => none) r.calibration

/-- the calibration item gives `k` a value, by `k = e;` or by a prior with starting value -/
inductive Sets : Calib → Str → Expr → Prop
  | eq (e : Eqn) (k : Str) : e.calibrating = none → e.lhs = .par k → Sets (.eq e) k e.rhs
  | prior (d : Dist) (q : Rat) : d.initial = some q → Sets (.dist d) d.param (.num q)

/-- the variable `n` at some date, perhaps under expectation operators -/
inductive IsVar : Expr → Str → Prop
  | var (n : Str) (t : TIdx) : IsVar (.var n t) n
  | expect (e : Expr) (n : Str) : IsVar e n → IsVar (.expect e) n

/-! ## proofs -/

theorem means_of {asm e s} (h : equationToSympy asm e = .ok s) : Means asm e s := by
  unfold equationToSympy at h
  split at h
  · cases h
  · rename_i s0 h0
    cases h
    unfold equationToSympyMeta at h0
    split at h0
    · cases h0
    · rename_i l hl
      split at h0
      · cases h0
      · rename_i r hr
        have hL := FCal.same_value hl
        have hR := FCal.same_value hr
        refine ⟨?_, ?_, ?_, ?_, ?_⟩
        · intro hn
          simp only [hn] at h0
          cases h0
          exact ⟨hL, hR⟩
        · intro c p hc
          simp only [hc] at h0
          cases h0
          refine ⟨rfl, by simp [eqMeta, hc], ?_⟩
          intro R t
          have h1 := hL R t
          have h2 := hR R t
          rw [DTT.val_sub, h1, h2]
          simp only [Expr.eval, realInterp]
        · cases hc : e.calibrating <;> simp [eqMeta, hc]
        · intro hc; simp [eqMeta, hc]
        · intro x
          rcases hc : e.lagrange with _ | _ | ⟨c, p⟩
          · simp [eqMeta, hc]
          · simp only [eqMeta, hc]
            constructor
            · intro h; cases h
            · rintro ⟨h1, h2, _⟩
              simp only [Option.some.injEq] at h1; exact absurd h1.symm h2
          · simp only [eqMeta, hc, Option.some.injEq]
            constructor
            · rintro rfl
              exact ⟨rfl, by simp [convVar], rfl, rfl⟩
            · rintro ⟨h1, _, h3, h4⟩
              cases x
              simp only at h1 h3 h4
              subst h1; subst h3; subst h4
              rfl

theorem convertAll_ok {asm es ss} (h : convertAll asm es = .ok ss) : List.Forall₂ (fun e s => equationToSympy asm e = .ok s) es ss := by
  induction es generalizing ss with
  | nil => cases h; exact .nil
  | cons e es ih =>
    simp only [convertAll] at h
    split at h
    · cases h
    · rename_i s hs
      split at h
      · cases h
      · rename_i ss' hss
        cases h
        exact .cons hs (ih hss)

theorem convertAll_total {asm es} (h : ∀ e ∈ es, ∃ s, equationToSympy asm e = .ok s) : ∃ ss, convertAll asm es = .ok ss := by
  induction es with
  | nil => exact ⟨_, rfl⟩
  | cons e es ih =>
    obtain ⟨s, hs⟩ := h e (List.mem_cons_self ..)
    obtain ⟨ss, hss⟩ := ih fun e he => h e (List.mem_cons_of_mem _ he)
    exact ⟨s :: ss, by simp [convertAll, hs, hss]⟩

theorem calibEqns_eq (cs : List Calib) : calibEqns cs = cs.filterMap fun | .eq e => some e | .dist _ => none := by
  induction cs with
  | nil => rfl
  | cons c cs ih => cases c <;> simp [calibEqns, ih]

theorem forall₂_imp {α β : Type} {R S : α → β → Prop} {l : List α} {m : List β} (hi : ∀ a b, R a b → S a b) (h : List.Forall₂ R l m) : List.Forall₂ S l m := by
  induction h with
  | nil => exact .nil
  | cons h _ ih => exact .cons (hi _ _ h) ih

theorem block_means {asm b r} (h : blockToSympy asm b = .ok r) : BlockMeans asm b r := by
  unfold blockToSympy at h
  split at h
  · cases h
  · rename_i h1
    split at h
    · cases h
    · rename_i h2
      split at h
      · cases h
      · rename_i h3
        split at h
        · cases h
        · rename_i h4
          split at h
          · cases h
          · rename_i h5
            cases h
            have k : ∀ {es ss}, convertAll asm es = .ok ss → List.Forall₂ (Means asm) es ss :=
              fun h => forall₂_imp (fun _ _ => means_of) (convertAll_ok h)
            exact ⟨k h1, k h2, k h3, k h4, by rw [← calibEqns_eq]; exact k h5⟩

theorem loop_means {asm} (bs : List Blk) (acc r : List (Str × Converted)) (h : modelToSympyLoop asm bs acc = .ok r)
    (hn : (bs.map Blk.name).Nodup) (ha : (dkeys acc).Nodup) (hd : ∀ b ∈ bs, b.name ∉ dkeys acc) :
    ∃ new, r = acc ++ new ∧ List.Forall₂ (fun b p => p.1 = b.name ∧ BlockMeans asm b p.2) bs new := by
  induction bs generalizing acc with
  | nil =>
    simp only [modelToSympyLoop] at h
    cases h
    exact ⟨[], by simp, .nil⟩
  | cons b bs ih =>
    simp only [modelToSympyLoop] at h
    split at h
    · cases h
    · rename_i c hc
      simp only [List.map_cons, List.nodup_cons] at hn
      have hf : dset acc b.name c = acc ++ [(b.name, c)] := by
        have := dupdate_fresh acc [(b.name, c)]
        simpa [dupdate] using this (by
          have hb := hd b (List.mem_cons_self ..)
          simp only [dkeys, List.map_append, List.map_cons, List.map_nil] at hb ha ⊢
          rw [List.nodup_append]
          refine ⟨ha, by simp, ?_⟩
          rintro x hx y hy rfl
          simp only [List.mem_singleton] at hy
          exact hb (hy ▸ hx))
      obtain ⟨new, h1, h2⟩ := ih (dset acc b.name c) h hn.2 (dset_nodup _ _ _ ha) (by
        intro b' hb' hk
        rcases (mem_dkeys_dset ..).1 hk with e | e
        · exact hn.1 (e ▸ List.mem_map_of_mem hb')
        · exact hd b' (List.mem_cons_of_mem _ hb') e)
      exact ⟨(b.name, c) :: new, by rw [h1, hf]; simp, .cons ⟨rfl, block_means hc⟩ h2⟩

theorem nodup_dups (l : List TSym) : l.eraseDups.Nodup := by
  generalize hn : l.length = n
  induction n using Nat.strongRecOn generalizing l with
  | ind n ih =>
    cases l with
    | nil => simp
    | cons a l =>
      rw [List.eraseDups_cons, List.nodup_cons]
      have hlen := List.length_filter_le (fun b => !b == a) l
      refine ⟨by simp [List.mem_eraseDups], ih _ (by simp at hn; omega) _ rfl⟩

/-- what ends up in a dictionary filled from a list -/
theorem last_wins {α κ ν : Type} [DecidableEq κ] (f : α → Option (κ × ν)) (k : κ) (v : ν) : ∀ (xs : List α) (d : List (κ × ν)),
    dget (dupdate d (xs.filterMap f)) k = some v ↔
      (∃ before x after, xs = before ++ x :: after ∧ f x = some (k, v) ∧ ∀ y ∈ after, ∀ v', f y ≠ some (k, v')) ∨
      ((∀ y ∈ xs, ∀ v', f y ≠ some (k, v')) ∧ dget d k = some v) := by
  intro xs
  induction xs with
  | nil => intro d; simp [dupdate]
  | cons x xs ih =>
    intro d
    have step : dupdate d ((x :: xs).filterMap f) = dupdate (match f x with | some p => dset d p.1 p.2 | none => d) (xs.filterMap f) := by
      cases hx : f x <;> simp [dupdate, hx]
    rw [step, ih]
    constructor
    · rintro (⟨b, y, a, rfl, h1, h2⟩ | ⟨h1, h2⟩)
      · exact .inl ⟨x :: b, y, a, rfl, h1, h2⟩
      · cases hx : f x with
        | none =>
          rw [hx] at h2
          right
          refine ⟨?_, h2⟩
          intro y hy v'
          rcases List.mem_cons.1 hy with rfl | hy
          · simp [hx]
          · exact h1 y hy v'
        | some p =>
          rw [hx] at h2
          simp only [dget_dset] at h2
          split at h2
          · rename_i hk
            cases h2
            left
            exact ⟨[], x, xs, rfl, by rw [hx, ← hk], h1⟩
          · rename_i hk
            right
            refine ⟨?_, h2⟩
            intro y hy v'
            rcases List.mem_cons.1 hy with rfl | hy
            · intro he
              rw [hx] at he
              cases he
              exact hk rfl
            · exact h1 y hy v'
    · rintro (⟨b, y, a, he, h1, h2⟩ | ⟨h1, h2⟩)
      · cases b with
        | nil =>
          simp only [List.nil_append, List.cons.injEq] at he
          obtain ⟨rfl, rfl⟩ := he
          right
          refine ⟨h2, ?_⟩
          rw [h1]
          simp
        | cons z b =>
          simp only [List.cons_append, List.cons.injEq] at he
          obtain ⟨rfl, rfl⟩ := he
          exact .inl ⟨b, y, a, rfl, h1, h2⟩
      · right
        refine ⟨fun y hy => h1 y (List.mem_cons_of_mem _ hy), ?_⟩
        cases hx : f x with
        | none => exact h2
        | some p =>
          simp only
          rw [dget_dset, if_neg, h2]
          intro hk
          exact h1 x (List.mem_cons_self ..) p.2 (by rw [hx, ← hk])

/-- the parameter an item sets, with its converted value -/
def pSet (shown : SExpr → Str) (asm : List (Str × Asm)) : Calib → Option (Str × SExpr)
  | .dist d => d.initial.map fun q => (d.param, .num q)
  | .eq e =>
    match e.calibrating, toSympy asm e.lhs, toSympy asm e.rhs with
    | none, .ok l, .ok r => some (assignKey shown l, r)
    | _, _, _ => none

/-- the parameter an item calibrates, with its equation -/
def cSet (asm : List (Str × Asm)) : Calib → Option (Str × SEq)
  | .dist _ => none
  | .eq e =>
    match e.calibrating, toSympy asm e.lhs, toSympy asm e.rhs with
    | some p, .ok l, .ok r => some (p, ⟨l, r⟩)
    | _, _, _ => none

/-- the parameter an item gives a prior -/
def dSet : Calib → Option (Str × PzCall)
  | .dist d => match toPreliz d with | .ok c => some (d.param, c) | .error _ => none
  | .eq _ => none

theorem calib_loop {pz shown asm} (cs : List Calib) (acc r : CalibDicts) (h : calibrationLoop pz shown asm cs acc = .ok r) :
    r.params = dupdate acc.params (cs.filterMap (pSet shown asm)) ∧ r.calib = dupdate acc.calib (cs.filterMap (cSet asm)) ∧
    r.priors = dupdate acc.priors (cs.filterMap dSet) ∧
    (∀ e, Calib.eq e ∈ cs → ∃ l r, toSympy asm e.lhs = .ok l ∧ toSympy asm e.rhs = .ok r) ∧
    ∀ d, Calib.dist d ∈ cs → ∃ c, toPreliz d = .ok c ∧ pz c = true := by
  induction cs generalizing acc with
  | nil =>
    simp only [calibrationLoop] at h
    cases h
    simp [dupdate]
  | cons c cs ih =>
    cases c with
    | dist d =>
      simp only [calibrationLoop] at h
      split at h
      · cases h
      · rename_i c hc
        split at h
        · rename_i hz
          obtain ⟨h1, h2, h3, h4, h5⟩ := ih _ h
          cases hi : d.initial with
          | none =>
            rw [hi] at h1 h2 h3
            refine ⟨?_, ?_, ?_, ?_, ?_⟩
            · rw [h1]; simp [pSet, hi]
            · rw [h2, List.filterMap_cons_none rfl]
            · rw [h3]; simp [dSet, hc, dupdate]
            · intro e he; exact h4 e (by simpa using he)
            · intro d' hd'
              rcases List.mem_cons.1 hd' with e | e
              · cases e; exact ⟨c, hc, hz⟩
              · exact h5 d' e
          | some q =>
            rw [hi] at h1 h2 h3
            refine ⟨?_, ?_, ?_, ?_, ?_⟩
            · rw [h1]; simp [pSet, hi, dupdate]
            · rw [h2, List.filterMap_cons_none rfl]
            · rw [h3]; simp [dSet, hc, dupdate]
            · intro e he; exact h4 e (by simpa using he)
            · intro d' hd'
              rcases List.mem_cons.1 hd' with e | e
              · cases e; exact ⟨c, hc, hz⟩
              · exact h5 d' e
        · cases h
    | eq e =>
      simp only [calibrationLoop] at h
      split at h
      · cases h
      · rename_i l hl
        split at h
        · cases h
        · rename_i r' hr
          split at h
          · rename_i p hp
            obtain ⟨h1, h2, h3, h4, h5⟩ := ih _ h
            refine ⟨?_, ?_, ?_, ?_, ?_⟩
            · rw [h1]; simp [pSet, hp]
            · rw [h2]; simp [cSet, hp, hl, hr, dupdate]
            · rw [h3, List.filterMap_cons_none rfl]
            · intro e' he'
              rcases List.mem_cons.1 he' with x | x
              · cases x; exact ⟨l, r', hl, hr⟩
              · exact h4 e' x
            · intro d hd; exact h5 d (by simpa using hd)
          · rename_i hp
            obtain ⟨h1, h2, h3, h4, h5⟩ := ih _ h
            refine ⟨?_, ?_, ?_, ?_, ?_⟩
            · rw [h1]; simp [pSet, hp, hl, hr, dupdate]
            · rw [h2]; simp [cSet, hp]
            · rw [h3, List.filterMap_cons_none rfl]
            · intro e' he'
              rcases List.mem_cons.1 he' with x | x
              · cases x; exact ⟨l, r', hl, hr⟩
              · exact h4 e' x
            · intro d hd; exact h5 d (by simpa using hd)

theorem isVar_conv {asm e s} (h : toSympy asm e = .ok s) (n : Str) : (∃ t, s = .sym (.tv (convVar asm n t))) ↔ IsVar e n := by
  constructor
  · rintro ⟨t, rfl⟩
    suffices key : ∀ (e : Expr), toSympy asm e = .ok (.sym (.tv (convVar asm n t))) → IsVar e n from key e h
    intro e
    induction e using Expr.rec (motive_2 := fun _ => True) with
    | num v => intro h; simp only [toSympy] at h; cases h
    | par p => intro h; simp only [toSympy] at h; cases h
    | var m u =>
      intro h
      simp only [toSympy, Except.ok.injEq, SExpr.sym.injEq, Sym.tv.injEq, convVar, TSym.mk.injEq] at h
      rw [← h.1]
      exact .var m u
    | bin op l r _ _ =>
      intro h
      simp only [toSympy] at h
      split at h
      · cases h
      · split at h
        · cases h
        · cases op <;> simp [convBin, SExpr.sub, SExpr.div] at h
    | neg e _ =>
      intro h
      simp only [toSympy] at h
      split at h
      · cases h
      · simp [SExpr.neg] at h
    | call f as _ =>
      intro h
      simp only [toSympy] at h
      split at h
      · cases h
      · rename_i as' _
        unfold convCall at h
        split at h
        · split at h <;> simp [SExpr.div] at h
        · split at h
          · split at h <;> simp at h
          · split at h
            · split at h <;> simp at h
            · split at h <;> simp at h
    | expect e ih =>
      intro h
      simp only [toSympy] at h
      exact .expect e n (ih h)
    | nil => trivial
    | cons _ _ _ _ => trivial
  · intro hv
    induction hv generalizing s with
    | var n t => simp only [toSympy] at h; cases h; exact ⟨t, rfl⟩
    | expect e n _ ih => simp only [toSympy] at h; exact ih h

/-- a converted symbol is the conversion of its name -/
theorem conv_tv {asm} (e : Expr) (x : TSym) : toSympy asm e = .ok (.sym (.tv x)) → x = convVar asm x.base x.idx := by
  induction e using Expr.rec (motive_2 := fun _ => True) with
  | num v => intro h; simp only [toSympy] at h; cases h
  | par p => intro h; simp only [toSympy] at h; cases h
  | var m u =>
    intro h
    simp only [toSympy, Except.ok.injEq, SExpr.sym.injEq, Sym.tv.injEq] at h
    rw [← h]; rfl
  | bin op l r _ _ =>
    intro h
    simp only [toSympy] at h
    split at h
    · cases h
    · split at h
      · cases h
      · cases op <;> simp [convBin, SExpr.sub, SExpr.div] at h
  | neg e _ =>
    intro h
    simp only [toSympy] at h
    split at h
    · cases h
    · simp [SExpr.neg] at h
  | call f as _ =>
    intro h
    simp only [toSympy] at h
    split at h
    · cases h
    · unfold convCall at h
      split at h
      · split at h <;> simp [SExpr.div] at h
      · split at h
        · split at h <;> simp at h
        · split at h
          · split at h <;> simp at h
          · split at h <;> simp at h
  | expect e ih =>
    intro h
    simp only [toSympy] at h
    exact ih h
  | nil => trivial
  | cons _ _ _ _ => trivial

theorem lhsVars_ok {asm es xs} (h : lhsVars asm es = .ok xs) (x : TSym) :
    x ∈ xs ↔ x.idx = .t 0 ∧ x.asm = mergeAssumptions (dget asm x.base) ∧ ∃ e ∈ es, IsVar e.lhs x.base := by
  induction es generalizing xs with
  | nil => simp only [lhsVars] at h; cases h; simp
  | cons e es ih =>
    simp only [lhsVars] at h
    split at h
    · cases h
    · rename_i l hl
      split at h
      · cases h
      · rename_i ys hys
        have := ih hys
        have hv := isVar_conv hl x.base
        cases h
        by_cases hx : ∃ t, l = .sym (.tv (convVar asm x.base t))
        · have hvar := hv.1 hx
          obtain ⟨t, rfl⟩ := hx
          simp only [List.mem_cons, this]
          constructor
          · rintro (hx | h)
            · exact ⟨by rw [hx]; rfl, (congrArg TSym.asm hx), e, .inl rfl, hvar⟩
            · exact ⟨h.1, h.2.1, h.2.2.imp fun e h => ⟨.inr h.1, h.2⟩⟩
          · rintro ⟨h1, h2, _⟩
            left
            cases x
            simp only at h1 h2
            subst h1
            rw [h2]
            rfl
        · have hnv : ¬ IsVar e.lhs x.base := fun h => hx (hv.2 h)
          have rhs_iff : (∃ e' ∈ e :: es, IsVar e'.lhs x.base) ↔ ∃ e' ∈ es, IsVar e'.lhs x.base := by
            simp [hnv]
          rw [rhs_iff, ← this]
          split
          · rename_i y
            have hc := conv_tv _ _ hl
            constructor
            · intro hm
              rcases List.mem_cons.1 hm with rfl | h
              · exfalso
                apply hx
                exact ⟨y.idx, by rw [← show y = convVar asm y.now.base y.idx from hc]⟩
              · exact h
            · intro h; exact List.mem_cons_of_mem _ h
          · rfl

end GE.Dir

namespace GE
open Gcn Dir

/-- **C127** a converted equation says what the equation as written says, and its metadata name its parameter and its multiplier. -/
theorem C127_equation (asm : List (Str × Asm)) (e : Eqn) (s : SEq × EqMeta) (h : equationToSympy asm e = .ok s) : Means asm e s := means_of h

/-- **C127** a converted block has every equation of every component, in order; it converts exactly when all its equations do. -/
theorem C127_block (asm : List (Str × Asm)) (b : Blk) :
    (∀ r, blockToSympy asm b = .ok r → BlockMeans asm b r) ∧
    ((∃ r, blockToSympy asm b = .ok r) ↔
      ∀ e, (e ∈ b.definitions ∨ e ∈ b.objective ∨ e ∈ b.constraints ∨ e ∈ b.identities ∨ Calib.eq e ∈ b.calibration) →
        ∃ l r, toSympy asm e.lhs = .ok l ∧ toSympy asm e.rhs = .ok r) ∧
    (∀ r, blockToEquations asm b = .ok r → BlockMeans asm { b with calibration := [] } r ∧ r.calibration = []) := by
  have conv : ∀ e, (∃ s, equationToSympy asm e = .ok s) ↔ ∃ l r, toSympy asm e.lhs = .ok l ∧ toSympy asm e.rhs = .ok r := by
    intro e
    unfold equationToSympy equationToSympyMeta
    cases hl : toSympy asm e.lhs with
    | error x => simp
    | ok l =>
      cases hr : toSympy asm e.rhs with
      | error x => simp
      | ok r =>
        refine iff_of_true ?_ ⟨l, r, rfl, rfl⟩
        rcases e.calibrating with _ | _ | ⟨c, p⟩ <;> exact ⟨_, rfl⟩
  refine ⟨fun r h => block_means h, ?_, ?_⟩
  · constructor
    · rintro ⟨r, h⟩ e he
      rw [← conv]
      unfold blockToSympy at h
      split at h
      · cases h
      · rename_i h1
        split at h
        · cases h
        · rename_i h2
          split at h
          · cases h
          · rename_i h3
            split at h
            · cases h
            · rename_i h4
              split at h
              · cases h
              · rename_i h5
                have k : ∀ {es ss}, convertAll asm es = .ok ss → e ∈ es → ∃ s, equationToSympy asm e = .ok s := by
                  intro es ss h hm
                  obtain ⟨s, _, hs⟩ := (Pip.forall2_mem (convertAll_ok h)).1 e hm
                  exact ⟨s, hs⟩
                rcases he with he | he | he | he | he
                · exact k h1 he
                · exact k h2 he
                · exact k h3 he
                · exact k h4 he
                · refine k h5 ?_
                  rw [calibEqns_eq]
                  exact List.mem_filterMap.2 ⟨_, he, rfl⟩
    · intro h
      have k : ∀ es : List Eqn, (∀ e ∈ es, ∃ l r, toSympy asm e.lhs = .ok l ∧ toSympy asm e.rhs = .ok r) → ∃ ss, convertAll asm es = .ok ss :=
        fun es hes => convertAll_total fun e he => (conv e).2 (hes e he)
      obtain ⟨_, h1⟩ := k b.definitions fun e he => h e (.inl he)
      obtain ⟨_, h2⟩ := k b.objective fun e he => h e (.inr (.inl he))
      obtain ⟨_, h3⟩ := k b.constraints fun e he => h e (.inr (.inr (.inl he)))
      obtain ⟨_, h4⟩ := k b.identities fun e he => h e (.inr (.inr (.inr (.inl he))))
      obtain ⟨_, h5⟩ := k (calibEqns b.calibration) (by
        intro e he
        rw [calibEqns_eq] at he
        obtain ⟨c, hc, hce⟩ := List.mem_filterMap.1 he
        cases c with
        | eq e' => cases hce; exact h _ (.inr (.inr (.inr (.inr hc))))
        | dist d => cases hce)
      exact ⟨_, by simp only [blockToSympy, h1, h2, h3, h4, h5]; rfl⟩
  · intro r h
    have hb := block_means h
    refine ⟨hb, ?_⟩
    have := hb.calibration
    simpa using this

/-- **C127** a converted model has, under the name of each block, its equations, provided block names are distinct. -/
theorem C127_model_partial (m : Mdl) (r : List (Str × Converted)) (h : modelToSympy m = .ok r) (hn : (m.blocks.map Blk.name).Nodup) :
    List.Forall₂ (fun b p => p.1 = b.name ∧ BlockMeans m.assumptions b p.2) m.blocks r := by
  obtain ⟨new, h1, h2⟩ := loop_means m.blocks [] r h hn (by simp [dkeys]) (by simp [dkeys])
  rw [h1]
  simpa using h2

/-- **C127** of two blocks with the same name only the equations of the last are left. -/
theorem C127_model_violated : ∃ (m : Mdl) (r : List (Str × Converted)), modelToSympy m = .ok r ∧ (m.blocks.map fun b => b.identities.length).sum = 2 ∧
    (r.map fun p => p.2.identities.length).sum = 1 := by
  refine ⟨{ blocks := [{ name := "A".toList, identities := [{ lhs := .var "Y".toList (.t 0), rhs := .num 1 }] },
    { name := "A".toList, identities := [{ lhs := .var "X".toList (.t 0), rhs := .num 2 }] }] }, _, rfl, rfl, rfl⟩

/-- **C127** read as an equation, the converted calibrating equation is not the condition the user wrote: `L[ss] = 1/3 -> alpha` becomes
`alpha = L_ss - 1/3`, which fails on paths where the condition holds. -/
theorem C127_arrow_violated : ∃ (e : Eqn) (s : SEq × EqMeta) (P : RealPath), equationToSympy [] e = .ok s ∧
    e.holds (realInterp [] P) (fun n k => P.path n (mergeAssumptions (dget [] n)) k) 0 ∧ s.1.lhs.val P 0 ≠ s.1.rhs.val P 0 := by
  refine ⟨{ lhs := .var ['L'] .ss, rhs := .num (1/3), calibrating := some ['a'] },
    (⟨.sym (.par ['a']), (SExpr.sym (.tv (convVar [] ['L'] .ss))).sub (.num (1/3))⟩, _),
    { path := fun _ _ _ => 0, ss := fun _ _ => 1/3, par := fun _ => 1 }, rfl, ?_, ?_⟩
  · simp [Eqn.holds, Expr.eval, realInterp]
  · rw [DTT.val_sub]
    show ¬ ((1 : ℝ) = 1/3 - ((1/3 : ℚ) : ℝ))
    norm_num

/-- **C127** an assignment to a dated variable is recorded under the variable's dated name (`x_t`, `x_ss`, `x_t+1`, `x_t-1`): the last item of a block
that assigns to a variable sets the value of that name. -/
theorem C127_calibration_variable (pz : PzCall → Bool) (shown : SExpr → Str) (asm : List (Str × Asm)) (b : Blk) (r : CalibDicts)
    (h : blockToCalibration pz shown asm b = .ok r) (before : List Calib) (e : Eqn) (hb : b.calibration = before ++ [.eq e]) (hc : e.calibrating = none)
    (n : Str) (i : TIdx) (hl : e.lhs = .var n i) (name : Str)
    (hname : (i = .t 0 ∧ name = n ++ "_t".toList) ∨ (i = .ss ∧ name = n ++ "_ss".toList) ∨
      (∃ k : Nat, i = .t (k + 1) ∧ name = n ++ "_t+".toList ++ (Nat.repr (k + 1)).toList) ∨
      ∃ k : Nat, i = .t (-(k + 1)) ∧ name = n ++ "_t-".toList ++ (Nat.repr (k + 1)).toList) :
    ∃ v, dget r.params name = some v ∧ SameValue asm v e.rhs := by
  obtain ⟨h1, -, -, h4, -⟩ := calib_loop _ _ _ h
  obtain ⟨l, r', hl', hr⟩ := h4 e (by rw [hb]; simp)
  have hlv := hl'
  rw [hl] at hlv
  simp only [toSympy] at hlv
  cases hlv
  have hk : ∀ a, createName ⟨n, i, a⟩ = name := by
    intro a
    have hz : ∀ k : Nat, natStr (k + 1) ≠ ['0'] := fun k h0 => by
      have := natStr_inj (h0.trans natStr_zero.symm)
      omega
    have hr : ∀ k, (Nat.repr k).toList = natStr k := fun k => by unfold natStr Nat.repr; simp only [String.toList_ofList]
    rcases hname with ⟨rfl, rfl⟩ | ⟨rfl, rfl⟩ | ⟨k, rfl, rfl⟩ | ⟨k, rfl, rfl⟩
    · rfl
    · rfl
    · have ha : ((k : Int) + 1).natAbs = k + 1 := by omega
      have hd : determineOperator (.t ((k : Int) + 1)) = ['+'] := by
        simp only [determineOperator]; rw [if_pos (by omega)]
      simp only [createName, ha, hd, hr]
      rw [if_neg (hz k)]
      simp
    · have ha : (-((k : Int) + 1)).natAbs = k + 1 := by omega
      have hd : determineOperator (.t (-((k : Int) + 1))) = ['-'] := by
        simp only [determineOperator]; rw [if_neg (by omega), if_pos (by omega)]
      simp only [createName, ha, hd, hr]
      rw [if_neg (hz k)]
      simp
  refine ⟨r', ?_, FCal.same_value hr⟩
  rw [h1]
  refine (last_wins _ _ _ _ _).2 (.inl ⟨before, .eq e, [], hb, ?_, by simp⟩)
  simp only [pSet, hc, hl, toSympy, hr, assignKey]
  rw [show createName (convVar asm n i) = name from hk _]

/-- non-vacuity: `K[ss] = 3` sets `K_ss` -/
example : ∃ b : Blk, ∃ r, blockToCalibration (fun _ => true) (fun _ => []) [] b = .ok r ∧ (dget r.params "K_ss".toList).isSome := by
  let e : Eqn := { lhs := .var "K".toList .ss, rhs := .num 3, lagrange := none, calibrating := none, tags := [] }
  have h : blockToCalibration (fun _ => true) (fun _ => []) [] { name := "A".toList, calibration := [.eq e] } = .ok _ := rfl
  obtain ⟨v, hv, -⟩ := C127_calibration_variable _ _ _ _ _ h [] e rfl rfl "K".toList .ss rfl "K_ss".toList (.inr (.inl ⟨rfl, rfl⟩))
  exact ⟨_, _, h, by rw [hv]; rfl⟩

/-- **C127** the parameters of a directly converted calibration: each has the value of its last assignment or starting value, and nothing else
is there, when every assignment has a parameter on its left. Every calibrating equation is kept as written (the last one for its parameter), and
so is every prior. -/
theorem C127_calibration (pz : PzCall → Bool) (shown : SExpr → Str) (asm : List (Str × Asm)) (b : Blk) (r : CalibDicts)
    (h : blockToCalibration pz shown asm b = .ok r)
    (hp : ∀ e, Calib.eq e ∈ b.calibration → e.calibrating = none → ∃ n, e.lhs = .par n) :
    (∀ before item after k e, b.calibration = before ++ item :: after → Sets item k e → (∀ i ∈ after, ∀ e', ¬ Sets i k e') →
      ∃ v, dget r.params k = some v ∧ SameValue asm v e) ∧
    (∀ k, k ∈ dkeys r.params ↔ ∃ i ∈ b.calibration, ∃ e, Sets i k e) ∧
    (∀ before e after p, b.calibration = before ++ .eq e :: after → e.calibrating = some p → (∀ e', Calib.eq e' ∈ after → e'.calibrating ≠ some p) →
      ∃ s, dget r.calib p = some s ∧ SameValue asm s.lhs e.lhs ∧ SameValue asm s.rhs e.rhs) ∧
    (∀ p, p ∈ dkeys r.calib ↔ ∃ e, Calib.eq e ∈ b.calibration ∧ e.calibrating = some p) ∧
    (∀ k c, dget r.priors k = some c ↔ ∃ before d after, b.calibration = before ++ .dist d :: after ∧ d.param = k ∧ toPreliz d = .ok c ∧
      ∀ d', Calib.dist d' ∈ after → d'.param ≠ k) ∧
    (∀ d, Calib.dist d ∈ b.calibration → ∃ c, toPreliz d = .ok c ∧ pz c = true) := by
  obtain ⟨h1, h2, h3, h4, h5⟩ := calib_loop _ _ _ h
  have pset : ∀ i ∈ b.calibration, ∀ k, (∃ e, Sets i k e) ↔ ∃ v, pSet shown asm i = some (k, v) := by
    intro i hi k
    cases i with
    | dist d =>
      simp only [pSet]
      constructor
      · rintro ⟨_, hs⟩
        cases hs with
        | prior d q hq => exact ⟨.num q, by simp [hq]⟩
      · rintro ⟨v, hv⟩
        cases hq : d.initial with
        | none => simp [hq] at hv
        | some q =>
          simp only [hq, Option.map_some, Option.some.injEq, Prod.mk.injEq] at hv
          exact ⟨.num q, hv.1 ▸ Sets.prior d q hq⟩
    | eq e =>
      obtain ⟨l, r', hl, hr⟩ := h4 e hi
      constructor
      · rintro ⟨_, hs⟩
        cases hs with
        | eq e k hc hk =>
          rw [hk] at hl
          simp only [toSympy] at hl
          cases hl
          exact ⟨r', by simp [pSet, hc, hk, toSympy, hr, assignKey]⟩
      · rintro ⟨v, hv⟩
        cases hc : e.calibrating with
        | some p => simp [pSet, hc] at hv
        | none =>
          obtain ⟨n, hn⟩ := hp e hi hc
          simp only [pSet, hc, hn, toSympy, hr, assignKey, Option.some.injEq, Prod.mk.injEq] at hv
          exact ⟨e.rhs, hv.1 ▸ Sets.eq e n hc hn⟩
  have val : ∀ i ∈ b.calibration, ∀ k e, Sets i k e → ∃ v, pSet shown asm i = some (k, v) ∧ SameValue asm v e := by
    intro i hi k e hs
    cases hs with
    | prior d q hq => exact ⟨.num q, by simp [pSet, hq], fun R t => rfl⟩
    | eq e k hc hk =>
      obtain ⟨l, r', hl, hr⟩ := h4 e hi
      rw [hk] at hl
      simp only [toSympy] at hl
      cases hl
      exact ⟨r', by simp [pSet, hc, hk, toSympy, hr, assignKey], FCal.same_value hr⟩
  have keys : ∀ {ν : Type} (f : Calib → Option (Str × ν)) k, k ∈ dkeys (dupdate [] (b.calibration.filterMap f)) ↔ ∃ i ∈ b.calibration, ∃ v, f i = some (k, v) := by
    intro ν f k
    rw [mem_dkeys_dupdate]
    simp only [dkeys, List.map_nil, List.not_mem_nil, false_or, List.mem_map, List.mem_filterMap, Prod.exists, or_false]
    constructor
    · rintro ⟨a, v, ⟨i, hi, he⟩, rfl⟩; exact ⟨i, hi, v, he⟩
    · rintro ⟨i, hi, v, he⟩; exact ⟨k, v, ⟨i, hi, he⟩, rfl⟩
  refine ⟨?_, ?_, ?_, ?_, ?_, h5⟩
  · intro before item after k e hb hs hno
    have hi : item ∈ b.calibration := by rw [hb]; simp
    obtain ⟨v, hv, hsv⟩ := val item hi k e hs
    refine ⟨v, ?_, hsv⟩
    rw [h1]
    refine (last_wins _ _ _ _ _).2 (.inl ⟨before, item, after, hb, hv, ?_⟩)
    intro y hy v' hv'
    have hyb : y ∈ b.calibration := by rw [hb]; simp [hy]
    obtain ⟨e', he'⟩ := (pset y hyb k).2 ⟨v', hv'⟩
    exact hno y hy e' he'
  · intro k
    rw [h1, keys]
    exact ⟨fun ⟨i, hi, h⟩ => ⟨i, hi, (pset i hi k).2 h⟩, fun ⟨i, hi, h⟩ => ⟨i, hi, (pset i hi k).1 h⟩⟩
  · intro before e after p hb hc hno
    have hi : Calib.eq e ∈ b.calibration := by rw [hb]; simp
    obtain ⟨l, r', hl, hr⟩ := h4 e hi
    refine ⟨⟨l, r'⟩, ?_, FCal.same_value hl, FCal.same_value hr⟩
    rw [h2]
    refine (last_wins _ _ _ _ _).2 (.inl ⟨before, _, after, hb, by simp [cSet, hc, hl, hr], ?_⟩)
    intro y hy v' hv'
    cases y with
    | dist d => simp [cSet] at hv'
    | eq e' =>
      simp only [cSet] at hv'
      split at hv'
      · rename_i q l' r'' hq _ _
        cases hv'
        exact hno e' hy hq
      · cases hv'
  · intro p
    rw [h2, keys]
    constructor
    · rintro ⟨i, hi, v, hv⟩
      cases i with
      | dist d => simp [cSet] at hv
      | eq e =>
        simp only [cSet] at hv
        split at hv
        · rename_i hq _ _
          cases hv
          exact ⟨e, hi, hq⟩
        · cases hv
    · rintro ⟨e, he, hc⟩
      obtain ⟨l, r', hl, hr⟩ := h4 e he
      exact ⟨_, he, ⟨l, r'⟩, by simp [cSet, hc, hl, hr]⟩
  · intro k c
    rw [h3, last_wins]
    constructor
    · rintro (⟨before, x, after, hb, hx, hno⟩ | ⟨_, h⟩)
      · cases x with
        | eq e => cases hx
        | dist d =>
          simp only [dSet] at hx
          split at hx
          · rename_i c' hc'
            cases hx
            refine ⟨before, d, after, hb, rfl, hc', ?_⟩
            intro d' hd' hk
            obtain ⟨c'', hc'', _⟩ := h5 d' (by rw [hb]; simp [hd'])
            exact hno _ hd' c'' (by simp [dSet, hc'', hk])
          · cases hx
      · cases h
    · rintro ⟨before, d, after, hb, hk, hc, hno⟩
      left
      refine ⟨before, .dist d, after, hb, by simp [dSet, hc, hk], ?_⟩
      intro y hy v' hv'
      cases y with
      | eq e => cases hv'
      | dist d' =>
        simp only [dSet] at hv'
        split at hv'
        · cases hv'
          exact hno d' hy rfl
        · cases hv'

/-- **C127** the variables of a directly converted block: without repetition, dated now, with their declared assumptions, exactly the controls and
the variables that stand alone on the left of an equation; the shocks are exactly the declared ones. -/
theorem C127_variables_partial (asm : List (Str × Asm)) (b : Blk) (r : List TSym × List TSym) (h : blockToVariables asm b = .ok r) :
    r.1.Nodup ∧ r.2.Nodup ∧
    (∀ x, x ∈ r.1 ↔ x.idx = .t 0 ∧ x.asm = mergeAssumptions (dget asm x.base) ∧
      ((∃ c ∈ b.controls, c.name = x.base) ∨ ∃ e, (e ∈ b.definitions ∨ e ∈ b.identities ∨ e ∈ b.objective ∨ e ∈ b.constraints) ∧ IsVar e.lhs x.base)) ∧
    (∀ x, x ∈ r.2 ↔ x.idx = .t 0 ∧ x.asm = mergeAssumptions (dget asm x.base) ∧ ∃ c ∈ b.shocks, c.name = x.base) := by
  unfold blockToVariables at h
  split at h
  · cases h
  · rename_i xs hxs
    cases h
    have refs : ∀ (vs : List VarRef) (x : TSym), x ∈ (vs.map fun v => (convVar asm v.name v.t).now) ↔
        x.idx = .t 0 ∧ x.asm = mergeAssumptions (dget asm x.base) ∧ ∃ c ∈ vs, c.name = x.base := by
      intro vs x
      simp only [List.mem_map]
      constructor
      · rintro ⟨v, hv, rfl⟩
        exact ⟨rfl, rfl, v, hv, rfl⟩
      · rintro ⟨h1, h2, v, hv, h3⟩
        refine ⟨v, hv, ?_⟩
        cases x
        simp only at h1 h2 h3
        subst h1; subst h3; subst h2
        rfl
    refine ⟨Dir.nodup_dups _, Dir.nodup_dups _, ?_, ?_⟩
    · intro x
      rw [List.mem_eraseDups, List.mem_append, refs, lhsVars_ok hxs]
      simp only [List.mem_append]
      grind
    · intro x
      rw [List.mem_eraseDups, refs]

/-- **C127** variables that occur only inside expressions are not among the variables of the block. -/
theorem C127_variables_violated : ∃ (b : Blk) (r : List TSym × List TSym) (e : Eqn), blockToVariables [] b = .ok r ∧ e ∈ b.identities ∧
    ("K".toList, TIdx.t (-1)) ∈ e.rhs.vars ∧ ∀ x ∈ r.1 ++ r.2, x.base ≠ "K".toList := by
  refine ⟨{ name := "F".toList, identities := [{ lhs := .var "Y".toList (.t 0), rhs := .var "K".toList (.t (-1)) }] }, _,
    { lhs := .var "Y".toList (.t 0), rhs := .var "K".toList (.t (-1)) }, rfl, by simp, by simp [Expr.vars], ?_⟩
  decide

/-- a block with every component -/
def Dir.exBlock : Blk where
  name := "F".toList
  definitions := [{ lhs := .var "u".toList (.t 0), rhs := .call "log".toList [.var "C".toList (.t 0)] }]
  controls := [⟨"C".toList, .t 0⟩]
  objective := [{ lhs := .var "U".toList (.t 0), rhs := .bin .add (.var "u".toList (.t 0)) (.bin .mul (.par "beta".toList) (.expect (.var "U".toList (.t 1)))) }]
  constraints := [{ lhs := .var "C".toList (.t 0), rhs := .num 1, lagrange := some "lambda".toList }]
  identities := [{ lhs := .expect (.var "X".toList (.t 1)), rhs := .num 1 }]
  shocks := [⟨"eps".toList, .t 0⟩]
  calibration := [.eq { lhs := .par "beta".toList, rhs := .num (99/100) }, .dist { param := "alpha".toList, dist := "Beta".toList, initial := some (1/2) },
    .eq { lhs := .par "beta".toList, rhs := .num (98/100) }, .eq { lhs := .var "L".toList .ss, rhs := .num (1/3), calibrating := some "psi".toList }]

/-- non-vacuity: a block with every component converts, has a calibration and variables -/
example : (∃ r, blockToSympy [] Dir.exBlock = .ok r ∧ r.calibration.length = 3) ∧
    (∃ r, blockToCalibration (fun _ => true) (fun _ => []) [] Dir.exBlock = .ok r ∧ dkeys r.params = ["beta".toList, "alpha".toList]) ∧
    ∃ r, blockToVariables [] Dir.exBlock = .ok r ∧ r.1.map TSym.base = ["C".toList, "u".toList, "X".toList, "U".toList] ∧
      r.2.map TSym.base = ["eps".toList] := by
  refine ⟨⟨_, rfl, rfl⟩, ⟨_, rfl, ?_⟩, ⟨_, rfl, ?_⟩⟩ <;> decide

end GE
