import Verif.Props.Stationary
import Verif.Props.Closure2
/-! # C112: stationary points of problems whose blocks have definitions -/

namespace GE
namespace StD
open Gcn Pip Ldr Lag Slv BVal

/-- the definitions of a converted block: current-dated left-hand sides of different symbols with defined names, right-hand sides dated
`t-1..t+1` in which defined names are other definitions' left-hand sides -/
structure DefsOk (dn : Str → Prop) (ds : List SEq) : Prop where
  lhs : ∀ e ∈ ds, ∃ s : TSym, e.lhs = .sym (.tv s) ∧ s.idx = .t 0 ∧ dn s.base
  distinct : (ds.map SEq.lhs).Nodup
  near : ∀ e ∈ ds, ∀ s, Sym.tv s ∈ e.rhs.syms → ∃ k, s.idx = .t k ∧ -1 ≤ k ∧ k ≤ 1
  now : ∀ e ∈ ds, ∀ s, Sym.tv s ∈ e.rhs.syms → dn s.base → e.lhs ≠ .sym (.tv s) ∧ ∃ e' ∈ ds, e'.lhs = .sym (.tv s)

/-- no defined name, dates `t-1..t+1` -/
def Clean (dn : Str → Prop) (v : SExpr) : Prop := ∀ s, Sym.tv s ∈ v.syms → ¬ dn s.base ∧ ∃ k, s.idx = .t k ∧ -1 ≤ k ∧ k ≤ 1

section
variable {dn : Str → Prop} {ds : List SEq} (H : DefsOk dn ds) {flat : List (Sym × SExpr)} (hf : flattenSubs (defDict ds) = some (some flat))
include H hf

theorem flat_clean (p) (hp : p ∈ flat) : Clean dn p.2 := by
  intro s hs
  have h1 := C15_resolved_partial (defDict ds) hf (by
    intro k v hk hm
    obtain ⟨e, he, h1, rfl⟩ := (defDict_get ds H.distinct k v).1 hk
    obtain ⟨s, h2, _, h3⟩ := H.lhs e he
    rw [h1] at h2; cases h2
    exact (H.now e he s hm h3).1 h1) p.1 p.2 hp (.tv s) hs
  obtain ⟨st, hst, hi, _⟩ := flatten_ok hf (fun _ v => ∀ s, Sym.tv s ∈ v.syms → ∃ e ∈ ds, Sym.tv s ∈ e.rhs.syms) (by
    intro k g hk hg s hs
    obtain ⟨v, hv⟩ : ∃ v, dget (defDict ds) k = some v := Option.isSome_iff_exists.mp ((dget_isSome _ k).mpr hk)
    simp only [hv, Option.getD_some] at hs
    rcases syms_subsSeq v _ _ hs with ⟨h1, _⟩ | ⟨p, hp, h1⟩
    · obtain ⟨e, he, _, rfl⟩ := (defDict_get ds H.distinct k v).1 hv
      exact ⟨e, he, h1⟩
    · obtain ⟨j, hj, rfl⟩ := List.mem_map.1 hp
      exact hg j hj s h1)
  obtain ⟨e, he, h2⟩ := hi.val p.1 p.2 (by rw [hst]; exact hp) s hs
  refine ⟨fun hd => ?_, H.near e he s h2⟩
  obtain ⟨_, e', he', h3⟩ := H.now e he s h2 hd
  exact h1 ((defDict_key ds H.distinct _).2 ⟨e', he', h3⟩)

theorem flat_key (k : Sym) : k ∈ dkeys flat ↔ ∃ e ∈ ds, e.lhs = .sym k := by
  rw [(C15_keys _ hf).2 k, defDict_key ds H.distinct]

/-- the right-hand sides of the consolidated definitions -/
theorem rhs_clean (e) (he : e ∈ ds) : Clean dn (e.rhs.subsSeq flat) := by
  intro s hs
  rcases syms_subsSeq e.rhs flat _ hs with ⟨h1, h2⟩ | ⟨p, hp, h1⟩
  · refine ⟨fun hd => ?_, H.near e he s h1⟩
    obtain ⟨_, e', he', h3⟩ := H.now e he s h1 hd
    exact h2 ((flat_key H hf _).2 ⟨e', he', h3⟩)
  · exact flat_clean H hf p hp s h1

end

/-- substitution of values that agree keeps an expression inside its domain -/
theorem smooth_replace (P : RealPath) (t : Int) (f : Sym → SExpr) (h : ∀ s, (f s).val P t = P.val.symAt t s) (hf : ∀ s, (f s).Smooth P t) (e : SExpr)
    (hs : e.Smooth P t) : (e.replace f).Smooth P t := by
  have hv : ∀ e : SExpr, (e.replace f).val P t = e.val P t := fun e =>
    replace_at P.val P.val t t e f ⟨rfl, rfl, rfl, rfl, rfl, rfl⟩ fun s _ => h s
  induction e with
  | num q => trivial
  | sym s => exact hf s
  | add a b iha ihb => exact ⟨iha hs.1, ihb hs.2⟩
  | mul a b iha ihb => exact ⟨iha hs.1, ihb hs.2⟩
  | exp a ih => exact ih hs
  | log a ih => exact ⟨ih hs.1, by rw [hv]; exact hs.2⟩
  | pow a b iha ihb =>
    refine ⟨iha hs.1, ihb hs.2.1, ?_⟩
    rw [hv]
    rcases hs.2.2 with hp | ⟨hp, q, rfl⟩
    · exact .inl hp
    · exact .inr ⟨hp, q, rfl⟩

theorem smooth_subsSeq (P : RealPath) (t : Int) : ∀ (l : List (Sym × SExpr)) (e : SExpr),
    (∀ p ∈ l, p.2.val P t = P.val.symAt t p.1 ∧ p.2.Smooth P t) → e.Smooth P t → (e.subsSeq l).Smooth P t
  | [], _, _, h => h
  | p :: l, e, hl, h => by
    refine smooth_subsSeq P t l (e.subs1 p.1 p.2) (fun q hq => hl q (List.mem_cons_of_mem _ hq)) ?_
    obtain ⟨h1, h2⟩ := hl p (List.mem_cons_self ..)
    refine smooth_replace P t _ ?_ ?_ e h
    · intro s; split
      · rename_i hs; rw [hs]; exact h1
      · rfl
    · intro s; split
      · exact h2
      · trivial

theorem satisfies {ds : List SEq} {P : RealPath} (hP : DefsHold ds P) (t : Int) (k : Sym) (v : SExpr) (h : (k, v) ∈ defDict ds) :
    v.val P t = P.val.symAt t k := by
  obtain ⟨e, he, h1, h2⟩ := defDict_mem ds _ h
  have := hP e he t
  rw [h1, ← h2] at this
  exact this.symm

/-- along a path on which the definitions hold, the flattened values agree and are inside their domains -/
theorem flat_smooth {ds : List SEq} {flat} (hf : flattenSubs (defDict ds) = some (some flat)) {P : RealPath} (hP : DefsHold ds P) {t : Int}
    (hs : ∀ e ∈ ds, e.rhs.Smooth P t) (p) (hp : p ∈ flat) : p.2.val P t = P.val.symAt t p.1 ∧ p.2.Smooth P t := by
  obtain ⟨st, hst, hi, _⟩ := flatten_ok hf (fun k v => v.val P t = P.val.symAt t k ∧ v.Smooth P t) (by
    intro k g hk hg
    obtain ⟨v, hv⟩ : ∃ v, dget (defDict ds) k = some v := Option.isSome_iff_exists.mp ((dget_isSome _ k).mpr hk)
    simp only [hv, Option.getD_some]
    have hm := mem_of_dget _ _ _ hv
    obtain ⟨e, he, _, h2⟩ := defDict_mem ds _ hm
    have hq : ∀ p ∈ (flatDeps (defDict ds) k).map (fun j => (j, g j)), p.2.val P t = P.val.symAt t p.1 ∧ p.2.Smooth P t := by
      intro p hp
      obtain ⟨j, hj, rfl⟩ := List.mem_map.1 hp
      exact hg j hj
    refine ⟨?_, smooth_subsSeq P t _ v hq (by rw [show v = e.rhs from h2]; exact hs e he)⟩
    exact (subsSeq_same_value P.val t v _ fun p hp => (hq p hp).1).trans (satisfies hP t k v hm))
  exact hi.val p.1 p.2 (by rw [hst]; exact hp)

/-! ## the substitution dictionary of the Lagrangian -/

theorem expand_keys {s : TSym} {rhs : SExpr} {d} (h : expandDefinition (.sym (.tv s)) rhs = .ok d) (h0 : s.idx = .t 0) :
    (∀ j ∈ [(-1 : Int), 0, 1], Sym.tv (shiftSym j s) ∈ dkeys d) ∧
    ∀ p ∈ d, ∃ j : Int, -1 ≤ j ∧ j ≤ 1 ∧ p.1 = .tv (shiftSym j s) ∧ p.2 = shiftE j rhs := by
  unfold expandDefinition at h
  simp only [h0, Int.sub_zero] at h
  have gen : ∀ (l : List Int) (d0 d : List (Sym × SExpr)), (∀ j ∈ l, -1 ≤ j ∧ j ≤ 1) →
      (∀ p ∈ d0, ∃ j : Int, -1 ≤ j ∧ j ≤ 1 ∧ p.1 = .tv (shiftSym j s) ∧ p.2 = shiftE j rhs) →
      l.foldlM (fun d target =>
        match stepBy target (.sym (.tv s)), stepBy target rhs with
        | .ok (.sym q), .ok r => (.ok (dset d q r) : Except BErr _)
        | _, _ => .error .typeError) d0 = .ok d →
      (∀ k ∈ dkeys d0, k ∈ dkeys d) ∧ (∀ j ∈ l, Sym.tv (shiftSym j s) ∈ dkeys d) ∧
        ∀ p ∈ d, ∃ j : Int, -1 ≤ j ∧ j ≤ 1 ∧ p.1 = .tv (shiftSym j s) ∧ p.2 = shiftE j rhs := by
    intro l
    induction l with
    | nil => intro d0 d _ hd h; simp only [List.foldlM_nil] at h; cases h; exact ⟨fun _ h => h, by simp, hd⟩
    | cons a l ih =>
      intro d0 d hl hd h
      rw [List.foldlM_cons] at h
      cases h1 : (match stepBy a (.sym (.tv s)), stepBy a rhs with
        | .ok (.sym q), .ok r => (.ok (dset d0 q r) : Except BErr _)
        | _, _ => .error .typeError) with
      | error e => rw [h1] at h; cases h
      | ok d1 =>
        rw [h1] at h
        split at h1
        · rename_i q r hq hr
          cases h1
          have eq := (stepBy_ok hq).1
          rw [shiftE_sym] at eq
          cases eq
          obtain ⟨i2, i3, i4⟩ := ih _ d (fun j hj => hl j (List.mem_cons_of_mem _ hj)) (by
            intro p hp
            rcases mem_dset _ _ _ _ hp with hp | rfl
            · exact hd p hp
            · obtain ⟨a1, a2⟩ := hl a (List.mem_cons_self ..)
              exact ⟨a, a1, a2, rfl, (stepBy_ok hr).1⟩) h
          refine ⟨fun k hk => i2 k ((Cls.dset_has _ _ _ _).2 (.inr hk)), fun j hj => ?_, i4⟩
          rcases List.mem_cons.1 hj with rfl | hj
          · exact i2 _ ((Cls.dset_has _ _ _ _).2 (.inl rfl))
          · exact i3 j hj
        · cases h1
  exact (gen _ _ _ (by simp) (by simp) h).2

theorem subs_keys : ∀ (ds : List SEq) (acc sub : List (Sym × SExpr)), lagrangianSubs ds acc = .ok sub →
    (∀ e ∈ ds, ∃ s : TSym, e.lhs = .sym (.tv s) ∧ s.idx = .t 0) →
    (∀ k ∈ dkeys acc, k ∈ dkeys sub) ∧
    (∀ e ∈ ds, ∀ s : TSym, e.lhs = .sym (.tv s) → s.idx = .t 0 → ∀ j ∈ [(-1 : Int), 0, 1], Sym.tv (shiftSym j s) ∈ dkeys sub) ∧
    ∀ p ∈ sub, p ∈ acc ∨ ∃ e ∈ ds, ∃ s : TSym, e.lhs = .sym (.tv s) ∧ ∃ j : Int, -1 ≤ j ∧ j ≤ 1 ∧ p.1 = .tv (shiftSym j s) ∧ p.2 = shiftE j e.rhs
  | [], acc, sub, h, _ => by
    simp only [lagrangianSubs] at h; cases h
    exact ⟨fun _ h => h, by simp, fun p hp => .inl hp⟩
  | e :: ds, acc, sub, h, hd => by
    simp only [lagrangianSubs] at h
    split at h
    · cases h
    · rename_i d hx
      obtain ⟨s0, hs0, h00⟩ := hd e (List.mem_cons_self ..)
      rw [hs0] at hx
      obtain ⟨x1, x2⟩ := expand_keys hx h00
      obtain ⟨i1, i2, i3⟩ := subs_keys ds _ sub h fun e he => hd e (List.mem_cons_of_mem _ he)
      refine ⟨fun k hk => i1 k ((Cls.dupdate_has _ _ _).2 (.inl hk)), fun e' he' s hs h0 j hj => ?_, fun p hp => ?_⟩
      · rcases List.mem_cons.1 he' with rfl | he'
        · rw [hs0] at hs; cases hs
          exact i1 _ ((Cls.dupdate_has _ _ _).2 (.inr (x1 j hj)))
        · exact i2 e' he' s hs h0 j hj
      · rcases i3 p hp with hp | ⟨e', he', h'⟩
        · rcases mem_dupdate _ _ _ hp with hp | hp
          · exact .inl hp
          · exact .inr ⟨e, List.mem_cons_self .., s0, hs0, x2 p hp⟩
        · exact .inr ⟨e', List.mem_cons_of_mem _ he', h'⟩

/-- symbols of an equation of the problem: dated `t-1..t+1`, defined names are the left-hand side of their definition at some date -/
def Dated (dn : Str → Prop) (ds : List SEq) (x : SExpr) : Prop :=
  ∀ s, Sym.tv s ∈ x.syms → ∃ k, s.idx = .t k ∧ -1 ≤ k ∧ k ≤ 1 ∧ (dn s.base → ∃ e ∈ ds, e.lhs = .sym (.tv { s with idx := .t 0 }))

/-- the consolidated definitions -/
def consolidated (ds : List SEq) (flat : List (Sym × SExpr)) : List SEq := ds.map fun e => ⟨e.lhs, e.rhs.subsSeq flat⟩

theorem sub_resolved {dn : Str → Prop} {ds : List SEq} (H : DefsOk dn ds) {flat sub} (hf : flattenSubs (defDict ds) = some (some flat))
    (hsub : lagrangianSubs (consolidated ds flat) [] = .ok sub) {x : SExpr} (hx : Dated dn ds x) (s : TSym) (hs : Sym.tv s ∈ (x.subsSeq sub).syms) :
    ¬ dn s.base ∧ ∃ k, s.idx = .t k ∧ -2 ≤ k ∧ k ≤ 2 := by
  obtain ⟨_, k2, k4⟩ := subs_keys _ _ _ hsub (by
    intro e he
    obtain ⟨e0, he0, rfl⟩ := List.mem_map.1 he
    obtain ⟨s, h1, h2, _⟩ := H.lhs e0 he0
    exact ⟨s, h1, h2⟩)
  rcases syms_subsSeq x sub _ hs with ⟨h1, h2⟩ | ⟨p, hp, h1⟩
  · obtain ⟨k, hk, a1, a2, h3⟩ := hx s h1
    refine ⟨fun hd => h2 ?_, k, hk, by omega, by omega⟩
    obtain ⟨e, he, h4⟩ := h3 hd
    have := k2 ⟨e.lhs, e.rhs.subsSeq flat⟩ (List.mem_map.2 ⟨e, he, rfl⟩) { s with idx := .t 0 } h4 rfl k (by
      have : k = -1 ∨ k = 0 ∨ k = 1 := by omega
      simpa using this)
    have hsh : shiftSym k { s with idx := .t 0 } = s := by
      obtain ⟨b, i, m⟩ := s
      simp only at hk
      simp [shiftSym, hk]
    rw [hsh] at this
    exact this
  · rcases k4 p hp with h | ⟨e, he, s0, hs0, j, j1, j2, hp1, hp2⟩
    · cases h
    · obtain ⟨e0, he0, rfl⟩ := List.mem_map.1 he
      rw [hp2] at h1
      obtain ⟨q, hq, rfl⟩ := mem_tsyms_shiftE.1 (mem_tsyms.2 h1)
      obtain ⟨c1, k, c2, c3, c4⟩ := rhs_clean H hf e0 he0 q (mem_tsyms.1 hq)
      obtain ⟨qb, qi, qa⟩ := q
      simp only at c2 c1
      subst c2
      exact ⟨c1, k + j, rfl, by omega, by omega⟩

/-- the dictionary agrees along a path on which the definitions hold, and its values are inside their domains -/
theorem sub_smooth {dn : Str → Prop} {ds : List SEq} (H : DefsOk dn ds) {flat sub} (hf : flattenSubs (defDict ds) = some (some flat))
    (hsub : lagrangianSubs (consolidated ds flat) [] = .ok sub) {P : RealPath} (hP : DefsHold (consolidated ds flat) P) (hP0 : DefsHold ds P)
    (hs : ∀ t, ∀ e ∈ ds, e.rhs.Smooth P t) (t : Int) (p) (hp : p ∈ sub) : p.2.val P t = P.val.symAt t p.1 ∧ p.2.Smooth P t := by
  refine ⟨subs_sat _ _ _ hsub P hP (by simp) p hp t, ?_⟩
  obtain ⟨_, _, k4⟩ := subs_keys _ _ _ hsub (by
    intro e he
    obtain ⟨e0, he0, rfl⟩ := List.mem_map.1 he
    obtain ⟨s, h1, h2, _⟩ := H.lhs e0 he0
    exact ⟨s, h1, h2⟩)
  rcases k4 p hp with h | ⟨e, he, s0, hs0, j, j1, j2, hp1, hp2⟩
  · cases h
  · obtain ⟨e0, he0, rfl⟩ := List.mem_map.1 he
    rw [hp2]
    refine DTT.smooth_shift P _ j t ?_ (smooth_subsSeq P _ flat e0.rhs (fun q hq => flat_smooth hf hP0 (hs _) q hq) (hs _ e0 he0))
    intro s hs
    obtain ⟨_, k, hk, _⟩ := rhs_clean H hf e0 he0 s (mem_tsyms.1 hs)
    rw [hk]; simp

theorem val_same (P Q : RealPath) (t : Int) (e : SExpr) (h : ∀ s ∈ e.syms, P.val.symAt t s = Q.val.symAt t s) : e.val P t = e.val Q t := by
  have := replace_at P.val Q.val t t e .sym ⟨rfl, rfl, rfl, rfl, rfl, rfl⟩ (fun s hs => h s hs)
  rw [replace_id] at this
  exact this

/-! ## paths on which the definitions hold -/

/-- the flattened values as a relation -/
inductive Flat (d : List (Sym × SExpr)) : Sym → SExpr → Prop
  | mk (k : Sym) (g : Sym → SExpr) : (∀ j ∈ flatDeps d k, Flat d j (g j)) →
      Flat d k (((dget d k).getD (.num 0)).subsSeq ((flatDeps d k).map fun j => (j, g j)))

theorem Flat.unique {d : List (Sym × SExpr)} {k : Sym} {v w : SExpr} (h : Flat d k v) (h' : Flat d k w) : v = w := by
  induction h generalizing w with
  | mk k g _ ih =>
    cases h' with
    | mk _ g' hg' =>
      congr 1
      refine List.map_congr_left fun j hj => ?_
      rw [ih j hj (hg' j hj)]

/-- the path on which defined symbols take the flattened values -/
noncomputable def solved (flat : List (Sym × SExpr)) (R : RealPath) : RealPath :=
  { R with path := fun n a u => match dget flat (.tv ⟨n, .t 0, a⟩) with | some v => v.val R u | none => R.path n a u }

theorem solved_holds {dn : Str → Prop} {ds : List SEq} (H : DefsOk dn ds) {flat} (hf : flattenSubs (defDict ds) = some (some flat)) (R : RealPath) :
    DefsHold ds (solved flat R) ∧ ∀ n, ¬ dn n → ∀ a u, (solved flat R).path n a u = R.path n a u := by
  have hnd := (C15_keys _ hf).1
  have hother : ∀ n, ¬ dn n → ∀ a u, (solved flat R).path n a u = R.path n a u := by
    intro n hn a u
    have : dget flat (.tv ⟨n, .t 0, a⟩) = none := by
      rw [dget_eq_none]
      intro hk
      obtain ⟨e, he, h1⟩ := (flat_key H hf _).1 hk
      obtain ⟨s, h2, _, h3⟩ := H.lhs e he
      rw [h1] at h2; cases h2
      exact hn h3
    simp only [solved, this]
  refine ⟨?_, hother⟩
  -- clean expressions have the old value
  have hclean : ∀ v : SExpr, Clean dn v → ∀ u, v.val (solved flat R) u = v.val R u := by
    intro v hv u
    refine val_same _ _ _ v fun s hs => ?_
    cases s with
    | par n => rfl
    | tv s =>
      obtain ⟨h1, k, h2, _⟩ := hv s hs
      simp only [Valuation.symAt, h2, RealPath.val]
      exact hother _ h1 _ _
  have hval : ∀ p ∈ flat, ∀ u, p.2.val (solved flat R) u = (solved flat R).val.symAt u p.1 := by
    intro p hp u
    rw [hclean _ (flat_clean H hf p hp)]
    obtain ⟨e, he, h1⟩ := (flat_key H hf p.1).1 (List.mem_map_of_mem hp)
    obtain ⟨s, h2, h3, _⟩ := H.lhs e he
    have h4 : p.1 = .tv s := by rw [h1] at h2; exact SExpr.sym.inj h2
    have h5 := dget_of_mem flat hnd p.1 p.2 hp
    obtain ⟨b, i, a⟩ := s
    simp only at h3
    subst h3
    rw [h4] at h5 ⊢
    simp only [Valuation.symAt, RealPath.val, Int.add_zero]
    show _ = (solved flat R).path b a u
    simp only [solved, h5]
  obtain ⟨st, hst, hi, hall⟩ := flatten_ok hf (Flat (defDict ds)) (fun k g _ hg => Flat.mk k g hg)
  have hflat : ∀ p ∈ flat, Flat (defDict ds) p.1 p.2 := fun p hp => hi.val p.1 p.2 (by rw [hst]; exact hp)
  intro e he u
  obtain ⟨s, h1, _, _⟩ := H.lhs e he
  have hk := (flat_key H hf (.tv s)).2 ⟨e, he, h1⟩
  obtain ⟨⟨k, v⟩, hm, rfl : k = _⟩ := List.mem_map.1 hk
  have hg : dget (defDict ds) (.tv s) = some e.rhs := (defDict_get ds H.distinct _ _).2 ⟨e, he, h1, rfl⟩
  rw [h1]
  show (solved flat R).val.symAt u (.tv s) = _
  rw [← hval _ hm u]
  have hF := hflat _ hm
  show v.val _ u = _
  generalize hv : (Sym.tv s, v).2 = w at hF
  simp only at hv hF
  subst hv
  generalize hks : Sym.tv s = k at hF hg
  cases hF with
  | mk _ g hgs =>
    rw [hg, Option.getD_some]
    refine subsSeq_same_value (solved flat R).val u e.rhs _ ?_
    intro p hp
    obtain ⟨j, hj, rfl⟩ := List.mem_map.1 hp
    have hjk : j ∈ dkeys flat := hall j (mem_flatDeps.1 hj).2.1
    obtain ⟨⟨j', w⟩, hw, rfl⟩ := List.mem_map.1 hjk
    have := (hgs _ hj).unique (hflat _ hw)
    simp only at this ⊢
    rw [this]
    exact hval _ hw u

theorem consolidate_spec {B0 B : Block} {ds : List SEq} (hd : B0.definitions = component 0 ds) (h : B0.consolidate = .ok B) :
    ∃ flat, flattenSubs (defDict ds) = some (some flat) ∧ dvals B.definitions = consolidated ds flat ∧ ∃ dd, B = { B0 with definitions := dd } := by
  unfold Block.consolidate at h
  cases hds : B0.definitions with
  | none =>
    rw [hds] at h hd
    have : ds = [] := by
      by_contra hne
      simp [component, hne] at hd
    subst this
    cases h
    exact ⟨[], rfl, by rw [hds]; rfl, B0.definitions, rfl⟩
  | some l =>
    rw [hds] at h hd
    have hl : l.map Prod.snd = ds := by
      have := dvals_component 0 ds
      rw [← hd] at this
      exact this
    simp only [hl] at h
    cases hflat : flattenSubs (defDict ds) with
    | none => rw [hflat] at h; cases h
    | some o =>
      cases o with
      | none => rw [hflat] at h; cases h
      | some flat =>
        rw [hflat] at h
        cases h
        refine ⟨flat, rfl, ?_, _, rfl⟩
        simp only [dvals, consolidated, Option.getD_some, List.map_map, ← hl]
        rfl

theorem lagTerms_subs (sub : List (Sym × SExpr)) : ∀ (l : List (SEq × TSym)) (L : SExpr),
    lagTerms sub L l = lagTerms [] L (l.map fun p => (p.1.subsSeq sub, p.2))
  | [], _ => rfl
  | p :: l, L => by
    have := lagTerms_subs sub l (L.sub (.mul (.sym (.tv p.2)) ((p.1.lhs.subsSeq sub).sub (p.1.rhs.subsSeq sub))))
    unfold lagTerms at this ⊢
    rw [List.foldl_cons, this]
    rfl

theorem auto_prefix (short : Str) (i : Nat) : "lambda__".toList <+: (autoMultiplier short i).base := by
  show _ <+: "lambda__".toList ++ short ++ ['_'] ++ natStr i
  generalize "lambda__".toList = l
  exact ⟨short ++ ['_'] ++ natStr i, by simp only [List.append_assoc]⟩

open Sta in
/-- the discount factor the code extracts -/
theorem discount_form {asm : List (Str × Asm)} {o : Eqn} {obj : SEq} {β : Expr} (ol : toSympy asm o.lhs = .ok obj.lhs) (or : toSympy asm o.rhs = .ok obj.rhs)
    (hf : BellmanForm o β ∨ StaticForm o β) :
    ∃ df, discountFactor obj = .ok df ∧ df.tsyms = [] ∧ (∀ (R : RealPath) t, df.val R t = β.eval (realInterp asm R) (pathOf asm R) t) ∧
      ∀ (R : RealPath) t, SmoothOn (realInterp asm R) (pathOf asm R) t o.rhs → df.Smooth R t := by
  rcases hf with ⟨V, u, hlhs, hrhs, hut, hdisc⟩ | ⟨rfl, hvars⟩
  · rw [hlhs] at ol
    rw [hrhs] at or
    simp only [toSympy] at ol
    have ol : obj.lhs = .sym (.tv (convVar asm V (.t 0))) := (Except.ok.inj ol).symm
    simp only [toSympy] at or
    split at or
    · cases or
    rename_i u' hu'
    split at or
    · cases or
    rename_i r' hr'
    split at hr'
    · cases hr'
    rename_i β' hβ'
    have hr' := Except.ok.inj hr'
    have or := Except.ok.inj or
    have hobje : obj = ⟨.sym (.tv (convVar asm V (.t 0))), .add u' (.mul β' (.sym (.tv { convVar asm V (.t 0) with idx := .t 1 })))⟩ := by
      rw [← ol, show SExpr.add u' (.mul β' (.sym (.tv { convVar asm V (.t 0) with idx := .t 1 }))) = obj.rhs by rw [← or, ← hr']; rfl]
    obtain ⟨df', hdf', hdv, hdt, hds'⟩ := C23_discount_bellman (convVar asm V (.t 0)) u' β'
      (by
        intro h
        obtain ⟨n, t, h1, h2⟩ := conv_syms asm _ _ hu' _ h
        simp only [convVar, TSym.mk.injEq] at h2
        exact hut (by rw [h2.1, h2.2.1]; exact h1))
      (by
        intro h
        obtain ⟨n, t, h1, h2⟩ := conv_syms asm _ _ hβ' _ h
        rw [hdisc] at h1; cases h1)
    have hβt : β'.tsyms = [] := by
      rw [List.eq_nil_iff_forall_not_mem]
      intro x hx
      obtain ⟨n, t, h1, h2⟩ := conv_syms asm _ _ hβ' _ ((mem_tsyms).1 hx)
      rw [hdisc] at h1; cases h1
    refine ⟨df', by rw [hobje]; exact hdf', hdt hβt, fun R t => ?_, fun R t hs => ?_⟩
    · rw [hdv R t]; exact C51_same_value asm β β' hβ' R t
    · refine hds' R t (conv_smooth asm R t β β' hβ' ?_)
      rw [hrhs] at hs
      simp only [SmoothOn] at hs
      exact hs.2.1
  · refine ⟨.num 1, ?_, rfl, fun R t => ?_, fun R t _ => trivial⟩
    · unfold discountFactor
      rw [if_pos]
      rw [List.all_eq_true]
      intro x hx
      have key : ∃ n i, (n, i) ∈ o.vars ∧ x = convVar asm n i := by
        rcases List.mem_append.1 hx with hx | hx
        · obtain ⟨n, i, h1, h2⟩ := conv_syms asm _ _ ol _ (mem_tsyms.1 hx); exact ⟨n, i, by simp [Eqn.vars, h1], h2⟩
        · obtain ⟨n, i, h1, h2⟩ := conv_syms asm _ _ or _ (mem_tsyms.1 hx); exact ⟨n, i, by simp [Eqn.vars, h1], h2⟩
      obtain ⟨n, i, h1, rfl⟩ := key
      exact decide_eq_true (hvars n i h1)
    · simp [Expr.eval, realInterp]

theorem forall2_with {α β : Type} {p : α → Prop} {r : α → β → Prop} {l : List α} {l' : List β} (h : ∀ a ∈ l, p a) (h2 : List.Forall₂ r l l') :
    List.Forall₂ (fun a b => p a ∧ r a b) l l' := by
  induction h2 with
  | nil => exact .nil
  | cons h1 _ ih => exact .cons ⟨h _ (by simp), h1⟩ (ih fun a ha => h a (by simp [ha]))

open Sta in
theorem block {asm : List (Str × Asm)} {ss} {b : GBlock} {p : Built} (hc : constructBlock asm ss b.toBlk = .ok p) {o β} (hp : b.Problem o β) :
    ∃ ms : List (Str × Asm), ms.length = b.constraints.length ∧
      (∀ (j : Nat) (e : Eqn) (n : Str), b.constraints[j]? = some e → e.lagrange = some n → n ≠ [] → ms[j]? = some (n, mergeAssumptions (dget asm n))) ∧
      (∀ (R : RealPath) (v : VarRef) (t : Int), ∃ F, b.Variation asm R v t F) ∧
      ∃ plain focs, p.equations = plain ++ focs ∧
        (∀ R : RealPath, (∀ e ∈ b.definitions, e.holdsOn asm R) → ∀ t,
          ((∀ q ∈ plain, q.val R t = 0) ↔ ∀ e ∈ b.stated, e.holds (realInterp asm R) (pathOf asm R) t)) ∧
        List.Forall₂ (fun (v : VarRef) (r : SExpr) => ∀ R : RealPath, (∀ e ∈ b.definitions, e.holdsOn asm R) →
          (∀ t, b.SmoothWithDefs asm R t) → ∀ i : Int, v.t = .t i → ∀ (t : Int) (F : ℝ → RealPath), b.Variation asm R v (t + i) F →
          let a := mergeAssumptions (dget asm v.name)
          let d := β.eval (realInterp asm R) (pathOf asm R) t
          (∀ N : Nat, 3 ≤ N → HasDerivAt (fun y => ∑ k ∈ Finset.range N, d ^ k * lagrangianAt asm b o ms (F y) (t + k))
            (SExpr.val r R t) (R.path v.name a (t + i))) ∧
          (Summable (fun k : ℕ => d ^ k * lagrangianAt asm b o ms R (t + k)) →
            HasDerivAt (fun y => ∑' k : ℕ, d ^ k * lagrangianAt asm b o ms (F y) (t + k)) (SExpr.val r R t) (R.path v.name a (t + i))))
          b.controls focs := by
  obtain ⟨B0, B, vs0, dicts, sol, e1, e2, e3, _, _, e6, _, _, e9, _⟩ := build_ok hc
  -- nothing to expand
  have hnear : ∀ e ∈ b.toBlk.equations, ∀ o ∈ e.vars, o.2.near := by
    rintro e he ⟨n, i⟩ ho
    simp only [Blk.equations, List.mem_append] at he
    cases i with
    | ss => trivial
    | t k =>
      rcases he with he | he
      · obtain ⟨k', h, h1, h2⟩ := hp.near e (by simp only [List.mem_append]; exact he) n _ ho
        cases h; exact ⟨h1, h2⟩
      · exact hp.identities e he n k ho
  have hexp : expandBlock b.toBlk = b.toBlk :=
    C09_shallow_unchanged b.toBlk hnear (fun v hv => by rcases hp.controls v hv with h | h <;> rw [h] <;> exact ⟨by decide, by decide⟩)
  rw [hexp] at e1
  have wf := (C67_accepted_iff B0).1 e2
  obtain ⟨⟨ds, os, cs, is, ks, hds, ed, hos, eo, hcs, ec, his, ei, _⟩, hfl, hmu⟩ := C20_numbering asm b.toBlk B0 e1
  have hobj : b.toBlk.objective = [o] := hp.objective
  rw [hobj] at ec
  rw [hobj] at hos
  set nd := b.toBlk.definitions.length with hnd
  change _ = component (nd + 1) cs at ec
  obtain ⟨obj, rfl, hoc⟩ : ∃ obj, os = [obj] ∧ eqnToSympy asm o = .ok obj := by
    cases hos with
    | cons h1 h2 => cases h2; exact ⟨_, rfl, h1⟩
  obtain ⟨flat, hflat, hBd, dd, hB⟩ := consolidate_spec ed e3
  have hB_obj : B.objective = some [(nd, obj)] := by rw [hB]; simp only; rw [eo]; simp [component, numbered]
  have heqs : b.toBlk.equations = b.toBlk.definitions ++ (o :: (b.toBlk.constraints ++ b.toBlk.identities)) := by
    simp [Blk.equations, hobj]
  have pd := comp_plain e1 ed hds (fun j e he => by
    have := (List.getElem?_eq_some_iff.1 he).1
    rw [heqs, Nat.zero_add, List.getElem?_append_left this, he]) wf.definitions
  have hoi : b.toBlk.equations[nd]? = some o := by
    rw [heqs, List.getElem?_append_right (by omega), hnd, Nat.sub_self]; rfl
  have po : (extractFlags o).isCalibrating = false :=
    comp_plain e1 eo (List.Forall₂.cons hoc .nil) (fun j e he => by
      cases j with
      | zero => rw [Nat.add_zero, hoi]; simpa using he
      | succ j => simp at he) (fun l hl p hp => (wf.objective l hl p hp).1) o (by simp)
  have hconi : ∀ j e, b.toBlk.constraints[j]? = some e → b.toBlk.equations[nd + 1 + j]? = some e := fun j e he => by
    rw [heqs, List.getElem?_append_right (by omega), show nd + 1 + j - b.toBlk.definitions.length = j + 1 by omega,
      List.getElem?_cons_succ, List.getElem?_append_left (List.getElem?_eq_some_iff.1 he).1, he]
  have pc := comp_plain e1 ec hcs hconi wf.constraints
  have hds2 : List.Forall₂ (fun e s => toSympy asm e.lhs = .ok s.lhs ∧ toSympy asm e.rhs = .ok s.rhs) b.definitions ds :=
    List.forall₂_iff_get.2 ⟨hds.length_eq, fun i h1 h2 =>
      eqn_conv ((List.forall₂_iff_get.1 hds).2 i h1 h2) (pd _ (List.get_mem _ _))⟩
  have hcs2 : List.Forall₂ (fun e s => toSympy asm e.lhs = .ok s.lhs ∧ toSympy asm e.rhs = .ok s.rhs) b.constraints cs :=
    List.forall₂_iff_get.2 ⟨hcs.length_eq, fun i h1 h2 =>
      eqn_conv ((List.forall₂_iff_get.1 hcs).2 i h1 h2) (pc _ (List.get_mem _ _))⟩
  have hvar : ∀ {e s x}, toSympy asm e = .ok s → Sym.tv x ∈ s.syms → ∃ n t, (n, t) ∈ e.vars ∧ x = convVar asm n t :=
    fun h hx => conv_syms asm _ _ h _ hx
  -- left-hand sides of the definitions
  have hlhs : ∀ s ∈ ds, ∃ e ∈ b.definitions, ∃ n, e.lhs = .var n (.t 0) ∧ s.lhs = .sym (.tv (convVar asm n (.t 0))) ∧ toSympy asm e.rhs = .ok s.rhs := by
    intro s hs
    obtain ⟨e, he, h1, h2⟩ := (forall2_mem hds2).2 s hs
    obtain ⟨n, hn⟩ := hp.definitions e he
    rw [hn] at h1
    simp only [toSympy] at h1
    exact ⟨e, he, n, hn, (Except.ok.inj h1).symm, h2⟩
  have hdefined : ∀ n, b.Defines n → ∃ s ∈ ds, s.lhs = .sym (.tv (convVar asm n (.t 0))) := by
    rintro n ⟨e, he, i, hn⟩
    obtain ⟨s, hs, h1, _⟩ := (forall2_mem hds2).1 e he
    obtain ⟨n', hn'⟩ := hp.definitions e he
    rw [hn'] at hn; cases hn
    rw [hn'] at h1
    simp only [toSympy] at h1
    exact ⟨s, hs, (Except.ok.inj h1).symm⟩
  have H : DefsOk b.Defines ds := by
    refine ⟨fun s hs => ?_, ?_, fun s hs x hx => ?_, fun s hs x hx hd => ?_⟩
    · obtain ⟨e, he, n, h1, h2, _⟩ := hlhs s hs
      exact ⟨_, h2, rfl, e, he, _, h1⟩
    · have hdis := hp.distinct
      have key : ∀ {es : List Eqn} {l : List SEq}, List.Forall₂ (fun e s => toSympy asm e.lhs = .ok s.lhs ∧ toSympy asm e.rhs = .ok s.rhs) es l →
          (∀ e ∈ es, ∃ n, e.lhs = .var n (.t 0)) → (es.map Eqn.lhs).Nodup → (l.map SEq.lhs).Nodup := by
        intro es l hf2
        induction hf2 with
        | nil => intro _ _; simp
        | @cons e s es l h1 h2 ih =>
          intro hl hn
          simp only [List.map_cons, List.nodup_cons] at hn ⊢
          refine ⟨?_, ih (fun e he => hl e (List.mem_cons_of_mem _ he)) hn.2⟩
          intro hm
          obtain ⟨s', hs', hse⟩ := List.mem_map.1 hm
          obtain ⟨e', he', h3, _⟩ := (forall2_mem h2).2 s' hs'
          obtain ⟨n, hn1⟩ := hl e (List.mem_cons_self ..)
          obtain ⟨n', hn2⟩ := hl e' (List.mem_cons_of_mem _ he')
          have h1 := h1.1
          rw [hn1] at h1; rw [hn2] at h3
          simp only [toSympy] at h1 h3
          have h1 := Except.ok.inj h1
          have h3 := Except.ok.inj h3
          rw [hse, ← h1] at h3
          simp only [convVar, SExpr.sym.injEq, Sym.tv.injEq, TSym.mk.injEq] at h3
          apply hn.1
          rw [hn1, ← h3.1, ← hn2]
          exact List.mem_map_of_mem he'
      exact key hds2 hp.definitions hdis
    · obtain ⟨e, he, n, _, _, h3⟩ := hlhs s hs
      obtain ⟨m, i, h4, h5⟩ := hvar h3 hx
      obtain ⟨k, rfl, h6⟩ := hp.near e (by simp [he]) m i (by simp [Eqn.vars, h4])
      exact ⟨k, by rw [h5]; rfl, h6⟩
    · obtain ⟨e, he, n, h1, h2, h3⟩ := hlhs s hs
      obtain ⟨m, i, h4, h5⟩ := hvar h3 hx
      have hd' : b.Defines m := by rw [h5] at hd; exact hd
      obtain ⟨rfl, h6⟩ := hp.current e he m i h4 hd'
      subst h5
      refine ⟨?_, hdefined m hd'⟩
      rw [h2]
      intro h
      simp only [convVar, SExpr.sym.injEq, Sym.tv.injEq, TSym.mk.injEq] at h
      rw [h1, h.1] at h6
      exact h6 rfl
  -- definitions along a path
  have hdefs : ∀ R : RealPath, (∀ e ∈ b.definitions, e.holdsOn asm R) ↔ DefsHold ds R := by
    intro R
    have h0 := fun t => (stated_conv e1 e2 R t).2
    rw [ed, dvals_component] at h0
    exact ⟨fun h e he t => (h0 t).2 (fun e he => h e he t) e he, fun h e he t => (h0 t).1 (fun e he => h e he t) e he⟩
  have hcon : ∀ R : RealPath, (∀ e ∈ b.definitions, e.holdsOn asm R) → DefsHold (consolidated ds flat) R := by
    intro R hR
    have := (defsHold_consolidate e3 R (by rw [ed, dvals_component]; exact (hdefs R).1 hR)).1
    rwa [hBd] at this
  obtain ⟨ol, or0⟩ := eqn_conv hoc po
  obtain ⟨df', hdf', hdft, hdv, hds'⟩ := discount_form ol or0 hp.form
  -- the pieces of the solution
  have hctl : B.controls = convertVars asm b.toBlk.controls := by
    rw [hB]
    show B0.controls = _
    unfold astBlockToBlock at e1
    repeat' split at e1
    all_goals first | (cases e1; done) | (cases e1; rfl)
  obtain ⟨cl, hcl⟩ : ∃ cl, B.controls = some cl := by
    have := wf.both
    rw [show B0.objective = B.objective by rw [hB], hB_obj, show B0.controls = B.controls by rw [hB]] at this
    exact Option.isSome_iff_exists.1 (this.1 rfl)
  obtain ⟨L, mrec, df, plain, focs, hL, hdf, hreq, _, hplain, hfoc⟩ := C23_equations B sol nd obj [] cl hcl hB_obj e6
  rw [hdf'] at hdf
  cases hdf
  -- the Lagrangian, term by term
  have hmul : ∀ j w, (b.toBlk.constraints.map (extractMultiplier asm))[j]? = some w → dget B.multipliers (nd + 1 + j) = some w := by
    intro j w hj
    rw [show B.multipliers = B0.multipliers by rw [hB], hmu]
    have := dget_numbered (b.toBlk.equations.map (extractMultiplier asm) ++ (keptCalib b.toBlk.calibration).map (calibMultiplier asm)) 0 (nd + 1 + j)
    rw [Nat.zero_add] at this
    rw [this]
    rw [List.getElem?_map, Option.map_eq_some_iff] at hj
    obtain ⟨e, he, rfl⟩ := hj
    have := hconi j e he
    rw [List.getElem?_append_left (by simpa using (List.getElem?_eq_some_iff.1 this).1), List.getElem?_map, this]; rfl
  have hflag : dget B.flags nd = some (extractFlags o) := by
    rw [show B.flags = B0.flags by rw [hB]]; exact flag_at e1 nd o hoi
  have hlen : (b.toBlk.constraints.map (extractMultiplier asm)).length = cs.length := by rw [List.length_map]; exact hcs.length_eq
  obtain ⟨sub, short, hsub, hshort, hLe⟩ : ∃ sub short, lagrangianSubs (consolidated ds flat) [] = .ok sub ∧ shortName B.name = some short ∧
      L = lagTerms sub (if (extractFlags o).minimize then (obj.rhs.subsSeq sub).neg else obj.rhs.subsSeq sub)
        (cs.zip (assigned short (b.toBlk.constraints.map (extractMultiplier asm)) 1)) := by
    have hL' := hL
    unfold Block.lagrangian at hL'
    simp only [hB_obj, hflag, hBd] at hL'
    split at hL'
    · cases hL'
    rename_i sub hsub
    have hcons : B.constraints = component (nd + 1) cs := by rw [hB]; exact ec
    rw [hcons] at hL'
    by_cases hcs0 : cs = []
    · simp only [component, hcs0] at hL'
      cases hL'
    · have hcomp : component (nd + 1) cs = some (numbered (nd + 1) cs) := by simp [component, hcs0]
      rw [hcomp] at hL'
      simp only at hL'
      split at hL'
      · cases hL'
      · rename_i short hshort
        rw [loop_spec short sub cs _ hlen (nd + 1) 1 (by omega) B.multipliers hmul] at hL'
        cases hL'
        exact ⟨sub, short, hsub, hshort, rfl⟩
  set M := assigned short (b.toBlk.constraints.map (extractMultiplier asm)) 1 with hM
  have hMnow : ∀ x ∈ M, x.idx = .t 0 := assigned_now _ _ _
  have hMfree : ∀ x ∈ M, ¬ b.Defines x.base := by
    intro x hx hd
    rcases mem_assigned hx with h | ⟨j, _, rfl⟩
    · obtain ⟨e, he, h⟩ := List.mem_map.1 h
      obtain ⟨n, h1, _, h2⟩ := ((C20_flags asm e).2.2.2.2 x).1 h
      rw [h2] at hd
      exact hp.multipliers e he n h1 hd
    · exact hp.generated _ hd (auto_prefix short j)
  have hval : ∀ (R : RealPath), (∀ e ∈ b.definitions, e.holdsOn asm R) → ∀ t, L.val R t = lagrangianAt asm b o (named M) R t := by
    intro R hR t
    have hss := subs_sat _ _ _ hsub R (hcon R hR) (by simp)
    rw [hLe, lagTerms_val _ _ _ _ _ hss, zip_sum hcs2 R t M hMnow]
    unfold lagrangianAt
    congr 1
    have e1 : (obj.rhs.subsSeq sub).val R t = _ := (subsSeq_same_value R.val t _ _ fun q hq => hss q hq t).trans (C51_same_value asm o.rhs obj.rhs or0 R t)
    have htag := (C20_flags asm o).2.1
    by_cases hmin : Tag.minimize ∈ o.tags
    · rw [if_pos (htag.2 hmin), if_pos hmin, DTT.val_neg, e1]; rfl
    · rw [if_neg (fun h => hmin (htag.1 h)), if_neg hmin, e1]; rfl
  -- symbols of the Lagrangian
  have hdated : ∀ {e : Eqn} {ex : Expr} {sx : SExpr}, e ∈ b.objective ++ b.constraints → (∀ o ∈ ex.vars, o ∈ e.vars) → toSympy asm ex = .ok sx →
      Dated b.Defines ds sx := by
    intro e ex sx he hsub hconv s hx
    obtain ⟨n, t, h1, h2⟩ := hvar hconv hx
    obtain ⟨k, rfl, h3, h4⟩ := hp.near e (by simp only [List.mem_append] at he ⊢; tauto) n t (hsub _ h1)
    subst h2
    exact ⟨k, rfl, h3, h4, fun hd => hdefined n hd⟩
  have hdates : ∀ s, Sym.tv s ∈ L.syms → ¬ b.Defines s.base ∧ ∃ k, s.idx = .t k ∧ -2 ≤ k ∧ k ≤ 2 := by
    intro s hs
    rw [hLe, lagTerms_subs] at hs
    rcases lagTerms_syms _ _ hs with h | ⟨q, hq, h⟩
    · have h' : Sym.tv s ∈ (obj.rhs.subsSeq sub).syms := by
        split at h
        · simpa [SExpr.neg, SExpr.syms] using h
        · exact h
      exact sub_resolved H hflat hsub (hdated (e := o) (List.mem_append_left _ (by rw [hp.objective]; simp)) (fun o ho => by simp [Eqn.vars, ho]) or0) s h'
    · obtain ⟨q0, hq0, rfl⟩ := List.mem_map.1 hq
      rcases h with h | h
      · cases h
        exact ⟨hMfree _ (List.of_mem_zip hq0).2, 0, hMnow _ (List.of_mem_zip hq0).2, by decide, by decide⟩
      · obtain ⟨j, hj⟩ := List.mem_iff_getElem?.1 (List.of_mem_zip hq0).1
        obtain ⟨e, he, hl, hr⟩ := forall2_getElem hcs2 j _ hj
        have hmem : e ∈ b.objective ++ b.constraints := List.mem_append_right _ (List.mem_of_getElem? he)
        rcases h with h | h
        · exact sub_resolved H hflat hsub (hdated hmem (fun o ho => by simp [Eqn.vars, ho]) hl) s h
        · exact sub_resolved H hflat hsub (hdated hmem (fun o ho => by simp [Eqn.vars, ho]) hr) s h
  have hss : ∀ s ∈ L.tsyms, s.idx ≠ .ss := fun s hs => by
    obtain ⟨_, k, h, _⟩ := hdates s (mem_tsyms.1 hs); rw [h]; simp
  -- the Lagrangian does not see the defined variables
  have hvary : ∀ (R : RealPath) (v : VarRef) (t : Int) (F : ℝ → RealPath), b.Variation asm R v t F → ∀ y u,
      lagrangianAt asm b o (named M) (F y) u = L.val (R.bump v.name (mergeAssumptions (dget asm v.name)) t y) u := by
    intro R v t F hF y u
    obtain ⟨h1, h2, h3, h4⟩ := hF y
    rw [← hval (F y) h4]
    refine val_same _ _ _ L fun s hs => ?_
    cases s with
    | par n => simp only [Valuation.symAt, RealPath.val, h1]; rfl
    | tv s =>
      obtain ⟨h5, k, h6, _⟩ := hdates s hs
      simp only [Valuation.symAt, h6, RealPath.val]
      exact h3 _ h5 _ _
  refine ⟨named M, by rw [named, List.length_map, hM, assigned_length, List.length_map]; rfl, ?_, ?_, ?_⟩
  · intro j e n he hlag hne
    have : (b.toBlk.constraints.map (extractMultiplier asm))[j]? = some (some (convVar asm n (.t 0))) := by
      rw [List.getElem?_map, show b.toBlk.constraints[j]? = some e from he]
      have := ((C20_flags asm e).2.2.2.2 (convVar asm n (.t 0))).2 ⟨n, hlag, hne, rfl⟩
      simp [this]
    have := (C22_user_multiplier short _ 1).2 j _ this
    rw [named, List.getElem?_map, this]; rfl
  · intro R v t
    refine ⟨fun y => solved flat (R.bump v.name (mergeAssumptions (dget asm v.name)) t y), fun y => ⟨rfl, rfl, ?_, ?_⟩⟩
    · exact (solved_holds H hflat _).2
    · exact (hdefs _).2 (solved_holds H hflat _).1
  have hcl' : cl = b.controls.map fun v => convVar asm v.name v.t := by
    rw [hctl] at hcl
    unfold convertVars at hcl
    split at hcl
    · cases hcl
    · cases hcl; rfl
  refine ⟨plain, focs, by rw [e9, hreq], ?_, ?_⟩
  · intro R hR t
    have hv := hplain R (by rw [hBd]; exact hcon R hR) t
    rw [show b.stated = stated b.toBlk from rfl, ← (stated_conv e1 e2 R t).1, ← gaps_zero, show B0.objective = B.objective by rw [hB], hB_obj,
      show B0.identities = B.identities by rw [hB], show B0.keptConstraints = B.keptConstraints by rw [hB]; rfl]
    have hg : gaps R t (dvals B.identities ++ B.keptConstraints ++ dvals (some [(nd, obj)])) = plain.map (·.val R t) := by
      rw [hv]; simp [gaps, dvals]
    rw [hg]; simp
  rw [hcl', List.forall₂_map_left_iff] at hfoc
  refine (forall2_with hp.controls hfoc).imp ?_
  rintro v r ⟨hvi, hr⟩ R hR hsm i hi t F hF a d
  have hi1 : i ≤ 0 := by
    rcases hvi with h | h <;> rw [h] at hi <;> cases hi <;> decide
  rw [hi] at hr
  have hds0 : ∀ t, ∀ e ∈ ds, e.rhs.Smooth R t := by
    intro t s hs
    obtain ⟨e, he, n, _, _, h3⟩ := hlhs s hs
    exact conv_smooth asm R t _ _ h3 (hsm t e (by simp [he])).2
  have hsub' : ∀ t, ∀ p ∈ sub, p.2.val R t = R.val.symAt t p.1 ∧ p.2.Smooth R t := fun t p hp =>
    sub_smooth H hflat hsub (hcon R hR) ((hdefs R).1 hR) hds0 t p hp
  have hsmooth : ∀ k : Nat, L.Smooth R (t + k) := by
    intro k
    have := hsm (t + k)
    rw [hLe, lagTerms_subs]
    apply lagTerms_smooth
    · have ho := smooth_subsSeq R (t + k) sub _ (hsub' _) (conv_smooth asm R (t + k) o.rhs obj.rhs or0 (this o (by simp [hp.objective])).2)
      split
      · exact ⟨trivial, ho⟩
      · exact ho
    · intro q hq
      obtain ⟨q0, hq0, rfl⟩ := List.mem_map.1 hq
      obtain ⟨j, hj⟩ := List.mem_iff_getElem?.1 (List.of_mem_zip hq0).1
      obtain ⟨e, he, hl, hr⟩ := forall2_getElem hcs2 j _ hj
      have hq := this e (List.mem_append_right _ (List.mem_of_getElem? he))
      exact ⟨smooth_subsSeq R _ sub _ (hsub' _) (conv_smooth asm R _ _ _ hl hq.1), smooth_subsSeq R _ sub _ (hsub' _) (conv_smooth asm R _ _ _ hr hq.2)⟩
  have hdval : df'.val R t = d := hdv R t
  have hdsm : df'.Smooth R t := hds' R t (hsm t o (by simp [hp.objective])).2
  obtain ⟨r1, hr1, hfin⟩ := C14_finite_horizon L df' (convVar asm v.name (.t i)) i rfl hss hdft
  obtain ⟨r2, hr2, hinf⟩ := C14_infinite_horizon L df' (convVar asm v.name (.t i)) i rfl hss hdft
  rw [hr] at hr1 hr2
  cases hr1
  cases hr2
  constructor
  · intro N hN
    have := hfin R t hdsm hsmooth N (fun s hs j _ hj => by
      obtain ⟨_, k, h, h3, _⟩ := hdates s (mem_tsyms.1 hs)
      rw [h] at hj; cases hj; omega)
    rw [hdval] at this
    simp only [discounted] at this
    simp only [hvary R v (t + i) F hF]
    exact this
  · intro hsum
    have := hinf R t hdsm hsmooth (by rw [hdval]; simpa only [hval R hR] using hsum)
    rw [hdval] at this
    simp only [discountedInf] at this
    simp only [hvary R v (t + i) F hF]
    exact this

end StD
open Gcn Pip Ldr

/-- a problem without definitions is one -/
theorem Gcn.GBlock.Bellman.problem {b : GBlock} {o V u β} (h : b.Bellman o V u β) : b.Problem o β where
  objective := h.objective
  form := .inl ⟨V, u, h.lhs, h.rhs, h.utility, h.discount⟩
  near := by rw [h.definitions]; exact h.near
  identities := h.identities
  controls := fun v hv => .inl (h.controls v hv)
  definitions := by rw [h.definitions]; simp
  distinct := by rw [h.definitions]; simp
  current := by rw [h.definitions]; simp
  free := by rintro _ _ ⟨e, he, _⟩; rw [h.definitions] at he; cases he
  multipliers := by rintro _ _ _ _ ⟨e, he, _⟩; rw [h.definitions] at he; cases he
  generated := by rintro _ ⟨e, he, _⟩; rw [h.definitions] at he; cases he

/-- **C112**: the same for problems with definitions: at a solution of the loaded model along which the definitions hold, the discounted
Lagrangian has derivative zero in each control at each date (a control written `x[-1]` being `x` one period before
the start) when the defined variables move with the control, over any horizon of at
least three periods and over the infinite horizon where it converges. Such variations exist for every control, path and date -/
theorem C112_stationary_defs (text : List Char) (ts : List Tok) (m : GFile) (P : Primitives) (hs : SpellsToks text ts) (hf : IsFile ts m)
    (hl : LoadGcn text P) (hn : m.DistinctNames) (b : GBlock) (hb : m.IsModelBlock b) (o : Eqn) (β : Expr) (hp : b.Problem o β) :
    ∃ ms : List (Str × Asm), ms.length = b.constraints.length ∧
      (∀ (j : Nat) (e : Eqn) (n : Str), b.constraints[j]? = some e → e.lagrange = some n → n ≠ [] → ms[j]? = some (n, mergeAssumptions (dget m.assumptions n))) ∧
      (∀ R v t, ∃ F, b.Variation m.assumptions R v t F) ∧
      ∀ R : RealPath, (∀ q ∈ P.equations, ∀ t, q.val R t = 0) → (∀ e ∈ b.definitions, e.holdsOn m.assumptions R) →
        (∀ t, b.SmoothWithDefs m.assumptions R t) → ∀ v ∈ b.controls, ∀ i : Int, v.t = .t i →
        ∀ (t : Int) (F : ℝ → RealPath), b.Variation m.assumptions R v (t + i) F →
        let a := mergeAssumptions (dget m.assumptions v.name)
        let d := β.eval (realInterp m.assumptions R) (pathOf m.assumptions R) t
        (∀ N : Nat, 3 ≤ N → HasDerivAt (fun y => ∑ k ∈ Finset.range N, d ^ k * lagrangianAt m.assumptions b o ms (F y) (t + k))
          0 (R.path v.name a (t + i))) ∧
        (Summable (fun k : ℕ => d ^ k * lagrangianAt m.assumptions b o ms R (t + k)) →
          HasDerivAt (fun y => ∑' k : ℕ, d ^ k * lagrangianAt m.assumptions b o ms (F y) (t + k)) 0 (R.path v.name a (t + i))) := by
  obtain ⟨ss, h1, h2⟩ := loaded_blocks hs hf hl hn
  obtain ⟨p, hpm, hc⟩ := (forall2_mem h2).1 b ((modelBlock_iff m b).1 hb)
  obtain ⟨ms, h3, h4, hex, plain, focs, h5, _, h6⟩ := StD.block hc hp
  refine ⟨ms, h3, h4, hex, fun R hR hd hsm v hv i hi t F hF => ?_⟩
  obtain ⟨r, hr, hfo⟩ := (forall2_mem h6).1 v hv
  have hz : r.val R t = 0 := hR r (by rw [h1, List.mem_flatMap]; exact ⟨p, hpm, by rw [h5]; exact List.mem_append_right _ hr⟩) t
  have := hfo R hd hsm i hi t F hF
  rw [hz] at this
  exact this

/-- **C112**: for a file whose blocks are plain or state a Bellman or a one-period problem, with or without definitions, the solutions of the loaded model
along which the definitions hold are exactly the paths on which the written equations hold and the problems are stationary -/
theorem C112_solutions_defs (text : List Char) (ts : List Tok) (m : GFile) (P : Primitives) (hs : SpellsToks text ts) (hf : IsFile ts m)
    (hl : LoadGcn text P) (hn : m.DistinctNames) (hblk : ∀ b, m.IsModelBlock b → b.Plain ∨ ∃ o β, b.Problem o β) :
    ∃ ms : GBlock → List (Str × Asm),
      (∀ b, m.IsModelBlock b → ∀ o β, b.Problem o β → (ms b).length = b.constraints.length ∧
        ∀ (j : Nat) (e : Eqn) (n : Str), b.constraints[j]? = some e → e.lagrange = some n → n ≠ [] →
          (ms b)[j]? = some (n, mergeAssumptions (dget m.assumptions n))) ∧
      ∀ R : RealPath, m.DefinitionsHold R →
        (∀ b, m.IsModelBlock b → ∀ o β, b.Problem o β → ∀ t, b.SmoothWithDefs m.assumptions R t) →
        ((∀ q ∈ P.equations, ∀ t, q.val R t = 0) ↔
          m.EquationsHold R ∧ ∀ b, m.IsModelBlock b → ∀ o β, b.Problem o β → b.StationaryWithDefs m.assumptions o β (ms b) R) := by
  classical
  obtain ⟨ss, h1, h2⟩ := loaded_blocks hs hf hl hn
  have uniq : ∀ {b : GBlock} {o β o' β'}, b.Problem o β → b.Problem o' β' → o = o' ∧ β = β' := by
    intro b o β o' β' h h'
    have := h.objective.symm.trans h'.objective
    cases this
    have mixed : ∀ {β β'}, BellmanForm o β → StaticForm o β' → False := by
      rintro β β' ⟨V, u, _, hr, _⟩ ⟨_, hs⟩
      have := hs V (.t 1) (by simp [Eqn.vars, hr, Expr.vars])
      simp at this
    refine ⟨rfl, ?_⟩
    rcases h.form with f | f <;> rcases h'.form with f' | f'
    · obtain ⟨V, u, _, hr, _⟩ := f
      obtain ⟨V', u', _, hr', _⟩ := f'
      rw [hr] at hr'; cases hr'; rfl
    · exact (mixed f f').elim
    · exact (mixed f' f).elim
    · rw [f.1, f'.1]
  have key : ∀ b, m.IsModelBlock b → ∃ ms : List (Str × Asm), ∀ o β, b.Problem o β → ms.length = b.constraints.length ∧
      (∀ (j : Nat) (e : Eqn) (n : Str), b.constraints[j]? = some e → e.lagrange = some n → n ≠ [] →
        ms[j]? = some (n, mergeAssumptions (dget m.assumptions n))) ∧
      ∀ p, constructBlock m.assumptions ss b.toBlk = .ok p → ∀ R : RealPath, (∀ e ∈ b.definitions, e.holdsOn m.assumptions R) →
        (∀ t, b.SmoothWithDefs m.assumptions R t) →
        ((∀ q ∈ p.equations, ∀ t, q.val R t = 0) ↔
          (∀ e ∈ b.stated, e.holdsOn m.assumptions R) ∧ b.StationaryWithDefs m.assumptions o β ms R) := by
    intro b hb
    by_cases hB : ∃ o β, b.Problem o β
    · obtain ⟨o, β, hB⟩ := hB
      obtain ⟨p, hpm, hc⟩ := (forall2_mem h2).1 b ((modelBlock_iff m b).1 hb)
      obtain ⟨ms, h3, h4, hex, plain, focs, h5, h6, h7⟩ := StD.block hc hB
      refine ⟨ms, fun o' β' hB' => ?_⟩
      obtain ⟨rfl, rfl⟩ := uniq hB hB'
      refine ⟨h3, h4, fun p' hc' R hd hsm => ?_⟩
      rw [hc] at hc'
      cases hc'
      rw [h5]
      constructor
      · intro h
        refine ⟨fun e he t => (h6 R hd t).1 (fun q hq => h q (List.mem_append_left _ hq) t) e he, fun v hv i hi t F hF N hN => ?_⟩
        obtain ⟨r, hr, hfo⟩ := (forall2_mem h7).1 v hv
        have := (hfo R hd hsm i hi t F hF).1 N hN
        rw [h r (List.mem_append_right _ hr) t] at this
        exact this
      · rintro ⟨hst, hsta⟩ q hq t
        rcases List.mem_append.1 hq with hq | hq
        · exact (h6 R hd t).2 (fun e he => hst e he t) q hq
        · obtain ⟨v, hv, hfo⟩ := (forall2_mem h7).2 q hq
          obtain ⟨i, hi⟩ : ∃ i, v.t = .t i := by rcases hB.controls v hv with h | h <;> exact ⟨_, h⟩
          obtain ⟨F, hF⟩ := hex R v (t + i)
          exact ((hfo R hd hsm i hi t F hF).1 3 (le_refl _)).unique (hsta v hv i hi t F hF 3 (le_refl _))
    · exact ⟨[], fun o β h => absurd ⟨o, β, h⟩ hB⟩
  refine ⟨fun b => if h : m.IsModelBlock b then (key b h).choose else [], ?_, ?_⟩
  · intro b hb o β hB
    obtain ⟨h3, h4, _⟩ := (key b hb).choose_spec o β hB
    dsimp only
    rw [dif_pos hb]
    exact ⟨h3, h4⟩
  intro R hd hsm
  have plain : ∀ b, m.IsModelBlock b → b.Plain → ∀ p : Str × Built, constructBlock m.assumptions ss b.toBlk = .ok p.2 →
      ((∀ q ∈ p.2.equations, ∀ t, q.val R t = 0) ↔ ∀ e ∈ b.stated, e.holdsOn m.assumptions R) := by
    intro b hb hpl p hc
    obtain ⟨pl, focs, h3, h4, h5⟩ := built_equations hc
    rw [h3, h4 hpl.1, List.append_nil]
    have hexp : expandBlock b.toBlk = b.toBlk :=
      C09_shallow_unchanged b.toBlk (by
        rintro e he ⟨n, i⟩ ho
        cases i with
        | ss => trivial
        | t k => exact hpl.2 e he n k ho) (fun v hv => by rw [show b.toBlk.controls = [] from hpl.1] at hv; cases hv)
    rw [hexp] at h5
    have h5 := h5 R fun t e he => hd b hb e he t
    exact ⟨fun h e he t => (h5 t).1 (fun q hq => h q hq t) e he, fun h q hq t => (h5 t).2 (fun e he => h e he t) q hq⟩
  -- the built block of a written one
  have built : ∀ b, m.IsModelBlock b → ∀ p ∈ P.blocks, constructBlock m.assumptions ss b.toBlk = .ok p.2 →
      ((∀ q ∈ p.2.equations, ∀ t, q.val R t = 0) ↔
        (∀ e ∈ b.stated, e.holdsOn m.assumptions R) ∧
          ∀ o β, b.Problem o β → b.StationaryWithDefs m.assumptions o β (if h : m.IsModelBlock b then (key b h).choose else []) R) := by
    intro b hb p _ hc
    by_cases hB : ∃ o β, b.Problem o β
    · obtain ⟨o, β, hB⟩ := hB
      obtain ⟨_, _, h3⟩ := (key b hb).choose_spec o β hB
      have h3 := h3 p.2 hc R (fun e he => hd b hb e he) (hsm b hb o β hB)
      rw [dif_pos hb]
      rw [h3]
      refine and_congr_right fun _ => ⟨fun h o' β' hB' => ?_, fun h => h o β hB⟩
      obtain ⟨rfl, rfl⟩ := uniq hB hB'
      exact h
    · rw [plain b hb ((hblk b hb).resolve_right hB) p hc]
      exact ⟨fun h => ⟨h, fun o β h => absurd ⟨o, β, h⟩ hB⟩, fun h => h.1⟩
  constructor
  · intro h
    have hall : ∀ b, m.IsModelBlock b → (∀ e ∈ b.stated, e.holdsOn m.assumptions R) ∧
        ∀ o β, b.Problem o β → b.StationaryWithDefs m.assumptions o β (if h : m.IsModelBlock b then (key b h).choose else []) R := by
      intro b hb
      obtain ⟨p, hpm, hc⟩ := (forall2_mem h2).1 b ((modelBlock_iff m b).1 hb)
      exact (built b hb p hpm hc).1 fun q hq => h q (by rw [h1, List.mem_flatMap]; exact ⟨p, hpm, hq⟩)
    exact ⟨fun b hb => (hall b hb).1, fun b hb => (hall b hb).2⟩
  · rintro ⟨he, hst⟩ q hq
    rw [h1, List.mem_flatMap] at hq
    obtain ⟨p, hpm, hq⟩ := hq
    obtain ⟨b, hb, hc⟩ := (forall2_mem h2).2 p hpm
    have hb := (modelBlock_iff m b).2 hb
    exact (built b hb p hpm hc).2 ⟨he b hb, hst b hb⟩ q hq

namespace StD
open Sta

/-- a household whose utility is defined -/
def defText : List Char :=
  "block H { definitions { w[] = log(C[]); }; controls { C[], K[]; }; objective { U[] = w[] + beta * E[][U[1]]; }; constraints { C[] + K[] = 2 * K[-1] : q[]; }; };".toList
/-- its tokens -/
def defToks : List Tok := [.id "block".toList, .id "H".toList, .lbrace, .id "definitions".toList, .lbrace, .id "w".toList, .tix (.t 0), .eq,
  .id "log".toList, .lpar, .id "C".toList, .tix (.t 0), .rpar, .semi, .rbrace, .semi, .id "controls".toList, .lbrace, .id "C".toList, .tix (.t 0), .comma,
  .id "K".toList, .tix (.t 0), .semi, .rbrace, .semi, .id "objective".toList, .lbrace, .id "U".toList, .tix (.t 0), .eq, .id "w".toList,
  .tix (.t 0), .op .add, .id "beta".toList, .op .mul, .expectOpen, .id "U".toList,
  .tix (.t 1), .rbr, .semi, .rbrace, .semi, .id "constraints".toList, .lbrace, .id "C".toList, .tix (.t 0), .op .add, .id "K".toList,
  .tix (.t 0), .eq, .num 2, .op .mul, .id "K".toList, .tix (.t (-1)), .colon, .id "q".toList, .tix (.t 0), .semi, .rbrace, .semi, .rbrace, .semi]
/-- its definition -/
def defDef : Eqn where
  lhs := .var "w".toList (.t 0)
  rhs := .call "log".toList [.var "C".toList (.t 0)]
  lagrange := none
  calibrating := none
  tags := []
/-- its objective -/
def defObj : Eqn where
  lhs := .var "U".toList (.t 0)
  rhs := .bin .add (.var "w".toList (.t 0)) (.bin .mul (.par "beta".toList) (.expect (.var "U".toList (.t 1))))
  lagrange := none
  calibrating := none
  tags := []
/-- its block -/
def defBlock : GBlock where
  name := "H".toList
  definitions := [defDef]
  controls := [⟨"C".toList, .t 0⟩, ⟨"K".toList, .t 0⟩]
  objective := [defObj]
  constraints := [hhCon]
/-- the file it stands for -/
def defFile : GFile := { blocks := [defBlock] }

theorem defToks_eq : lexText defText = some defToks := by decide +kernel
theorem def_file : IsFile defToks defFile := (C107_grammar _ _).1 ⟨50, rfl⟩
theorem def_spells : SpellsToks defText defToks := (C106_reading _ _).1 defToks_eq

/-- consumption, capital and the multiplier are 1, utility and its definition 0; discounting by one half -/
noncomputable def defPath : RealPath where
  par _ := 1 / 2
  path n _ _ := if n = "U".toList then 0 else if n = "w".toList then 0 else 1
  ss _ _ := 0

/-- no `w` among the symbols -/
def noW (e : SExpr) : Bool := e.syms.all fun s => match s with | .tv x => x.base ≠ "w".toList | .par _ => true

theorem def_load : ∃ P, LoadGcn defText P ∧ (P.equations.length = 4 ∧ (P.equations.all fun q => noW q && ratAt q = some 0) = true) := by
  obtain ⟨P, h1, h2⟩ := Ldr.loaded defFile.toMdl (fun P => (P.equations.length, P.equations.all fun q => noW q && ratAt q = some 0)) (4, true) (by decide +kernel)
  exact ⟨P, ⟨defFile, (C107_parse _ _).2 ⟨_, def_spells, def_file⟩, h1⟩, congrArg Prod.fst h2, congrArg Prod.snd h2⟩

theorem def_model : defFile.IsModelBlock defBlock := by
  have h : ¬ (isSkippedName defBlock.name = true) := by decide
  rw [C53_skipped_names, not_or] at h
  exact ⟨by simp [defFile], h⟩

theorem def_defines (n : Str) : defBlock.Defines n ↔ n = "w".toList := by
  constructor
  · rintro ⟨e, he, i, h⟩
    simp only [defBlock, List.mem_singleton] at he
    subst he
    simp only [defDef, Expr.var.injEq] at h
    exact h.1.symm
  · rintro rfl
    exact ⟨defDef, by simp [defBlock], _, rfl⟩

theorem def_problem : defBlock.Problem defObj (.par "beta".toList) where
  objective := rfl
  form := .inl ⟨"U".toList, .var "w".toList (.t 0), rfl, rfl, by decide, rfl⟩
  near := by
    intro e he n i h
    simp only [defBlock, List.cons_append, List.nil_append, List.mem_cons, List.not_mem_nil, or_false] at he
    rcases he with rfl | rfl | rfl
    · simp only [Eqn.vars, defDef, Expr.vars, Expr.varsArgs, List.append_nil, List.mem_append, List.mem_singleton, Prod.mk.injEq] at h
      rcases h with ⟨_, rfl⟩ | ⟨_, rfl⟩ <;> exact ⟨_, rfl, by decide, by decide⟩
    · simp only [Eqn.vars, defObj, Expr.vars, Expr.varsArgs, List.append_nil, List.nil_append, List.mem_append, List.mem_singleton, Prod.mk.injEq] at h
      rcases h with ⟨_, rfl⟩ | ⟨_, rfl⟩ | ⟨_, rfl⟩ <;> exact ⟨_, rfl, by decide, by decide⟩
    · simp only [Eqn.vars, hhCon, Expr.vars, List.append_nil, List.nil_append, List.mem_append, List.mem_singleton, Prod.mk.injEq] at h
      rcases h with (⟨_, rfl⟩ | ⟨_, rfl⟩) | ⟨_, rfl⟩ <;> exact ⟨_, rfl, by decide, by decide⟩
  identities := by intro e he; cases he
  controls := by
    intro v hv
    simp only [defBlock, List.mem_cons, List.not_mem_nil, or_false] at hv
    rcases hv with rfl | rfl <;> exact .inl rfl
  definitions := by
    intro e he
    simp only [defBlock, List.mem_singleton] at he
    exact ⟨_, by rw [he]; rfl⟩
  distinct := by simp [defBlock]
  current := by
    intro e he n i h hd
    rw [def_defines] at hd
    simp only [defBlock, List.mem_singleton] at he
    subst he hd
    revert h
    simp [defDef, Expr.vars, Expr.varsArgs]
  free := by
    intro v hv hd
    rw [def_defines] at hd
    simp only [defBlock, List.mem_cons, List.not_mem_nil, or_false] at hv
    rcases hv with rfl | rfl <;> revert hd <;> decide
  multipliers := by
    intro e he n h hd
    rw [def_defines] at hd
    simp only [defBlock, List.mem_singleton] at he
    subst he hd
    revert h
    simp [hhCon]
  generated := by
    intro n hd
    rw [def_defines] at hd
    subst hd
    decide

theorem def_smooth (t : Int) : defBlock.SmoothWithDefs defFile.assumptions defPath t := by
  intro e he
  simp only [defBlock, List.cons_append, List.nil_append, List.mem_cons, List.not_mem_nil, or_false] at he
  rcases he with rfl | rfl | rfl
  · simp [defDef, SmoothOn, SmoothArgs, Expr.evalArgs, Expr.eval, pathOf, defPath]
  · simp [defObj, SmoothOn]
  · simp [hhCon, SmoothOn]

theorem def_holds : ∀ e ∈ defBlock.definitions, e.holdsOn defFile.assumptions defPath := by
  intro e he t
  simp only [defBlock, List.mem_singleton] at he
  subst he
  simp [Eqn.holds, defDef, Expr.eval, Expr.evalArgs, pathOf, defPath, realInterp]

theorem def_val (q : SExpr) (h : noW q = true) (t : Int) : q.val defPath t = q.val hhPath t := by
  refine val_same _ _ _ q fun s hs => ?_
  have := List.all_eq_true.1 h s hs
  cases s with
  | par n => rfl
  | tv x =>
    simp only [ne_eq, decide_eq_true_eq, decide_not, Bool.not_eq_true', decide_eq_false_iff_not] at this
    cases hi : x.idx with
    | ss => simp [Valuation.symAt, hi, RealPath.val, defPath, hhPath]
    | t k =>
      simp only [Valuation.symAt, hi, RealPath.val, defPath, hhPath]
      rw [if_neg this]

end StD
open StD in
/-- the hypotheses of both theorems are met by a household whose period utility `w[] = log(C[])` is a definition: the file loads as four
equations which hold along a path, and neither consumption nor capital improves the discounted Lagrangian on it -/
example : ∃ P, LoadGcn defText P ∧ P.equations.length = 4 ∧ (∀ q ∈ P.equations, ∀ t, q.val defPath t = 0) ∧
    ∃ ms : List (Str × Asm), defBlock.StationaryWithDefs defFile.assumptions defObj (.par "beta".toList) ms defPath ∧
      ∀ v t, ∃ F, defBlock.Variation defFile.assumptions defPath v t F := by
  obtain ⟨P, h1, h2, h3⟩ := def_load
  have hn : defFile.DistinctNames := by simp [GFile.DistinctNames, defFile]
  have hz : ∀ q ∈ P.equations, ∀ t, q.val defPath t = 0 := by
    intro q hq t
    have := List.all_eq_true.1 h3 q hq
    rw [Bool.and_eq_true] at this
    rw [def_val q this.1 t, Sta.ratAt_val t q 0 (of_decide_eq_true this.2)]; simp
  have hb : ∀ b, defFile.IsModelBlock b → b = defBlock := fun b h => by simpa [defFile] using h.1
  obtain ⟨ms, _, h⟩ := C112_solutions_defs defText defToks defFile P def_spells def_file h1 hn
    (fun b h => by cases hb b h; exact .inr ⟨_, _, def_problem⟩)
  obtain ⟨_, _, _, hex, _⟩ := C112_stationary_defs defText defToks defFile P def_spells def_file h1 hn defBlock def_model _ _ def_problem
  exact ⟨P, h1, h2, hz, _, ((h defPath (fun b h => by cases hb b h; exact def_holds) (fun b h _ _ _ t => by cases hb b h; exact def_smooth t)).1 hz).2
    defBlock def_model _ _ def_problem, fun v t => hex defPath v t⟩

namespace StD
open Sta

/-- a firm that chooses the capital it rented one period ago, labour and output -/
def firmText : List Char :=
  "block F { controls { K[-1], L[], Y[]; }; objective { U[] = 2 * Y[] - r[] * K[-1] - w[] * L[]; }; constraints { Y[] * Y[] = K[-1] * L[] : q[]; }; };".toList
/-- its tokens -/
def firmToks : List Tok := [.id "block".toList, .id "F".toList, .lbrace, .id "controls".toList, .lbrace, .id "K".toList, .tix (.t (-1)), .comma,
  .id "L".toList, .tix (.t 0), .comma, .id "Y".toList, .tix (.t 0), .semi, .rbrace, .semi, .id "objective".toList, .lbrace, .id "U".toList, .tix (.t 0), .eq,
  .num 2, .op .mul, .id "Y".toList, .tix (.t 0), .op .sub, .id "r".toList, .tix (.t 0), .op .mul, .id "K".toList, .tix (.t (-1)), .op .sub,
  .id "w".toList, .tix (.t 0), .op .mul, .id "L".toList, .tix (.t 0), .semi, .rbrace, .semi, .id "constraints".toList, .lbrace,
  .id "Y".toList, .tix (.t 0), .op .mul, .id "Y".toList, .tix (.t 0), .eq, .id "K".toList, .tix (.t (-1)), .op .mul, .id "L".toList, .tix (.t 0),
  .colon, .id "q".toList, .tix (.t 0), .semi, .rbrace, .semi, .rbrace, .semi]
/-- its objective -/
def firmObj : Eqn where
  lhs := .var "U".toList (.t 0)
  rhs := .bin .sub (.bin .sub (.bin .mul (.num 2) (.var "Y".toList (.t 0))) (.bin .mul (.var "r".toList (.t 0)) (.var "K".toList (.t (-1)))))
    (.bin .mul (.var "w".toList (.t 0)) (.var "L".toList (.t 0)))
  lagrange := none
  calibrating := none
  tags := []
/-- its constraint -/
def firmCon : Eqn where
  lhs := .bin .mul (.var "Y".toList (.t 0)) (.var "Y".toList (.t 0))
  rhs := .bin .mul (.var "K".toList (.t (-1))) (.var "L".toList (.t 0))
  lagrange := some "q".toList
  calibrating := none
  tags := []
/-- its block -/
def firmBlock : GBlock where
  name := "F".toList
  controls := [⟨"K".toList, .t (-1)⟩, ⟨"L".toList, .t 0⟩, ⟨"Y".toList, .t 0⟩]
  objective := [firmObj]
  constraints := [firmCon]
/-- the file it stands for -/
def firmFile : GFile := { blocks := [firmBlock] }

theorem firmToks_eq : lexText firmText = some firmToks := by decide +kernel
theorem firm_file : IsFile firmToks firmFile := (C107_grammar _ _).1 ⟨50, rfl⟩
theorem firm_spells : SpellsToks firmText firmToks := (C106_reading _ _).1 firmToks_eq

theorem firm_load : ∃ P, LoadGcn firmText P ∧ (P.equations.length = 5 ∧ (P.equations.all fun q => ratAt q = some 0) = true) := by
  obtain ⟨P, h1, h2⟩ := Ldr.loaded firmFile.toMdl (fun P => (P.equations.length, P.equations.all fun q => ratAt q = some 0)) (5, true) (by decide +kernel)
  exact ⟨P, ⟨firmFile, (C107_parse _ _).2 ⟨_, firm_spells, firm_file⟩, h1⟩, congrArg Prod.fst h2, congrArg Prod.snd h2⟩

theorem firm_model : firmFile.IsModelBlock firmBlock := by
  have h : ¬ (isSkippedName firmBlock.name = true) := by decide
  rw [C53_skipped_names, not_or] at h
  exact ⟨by simp [firmFile], h⟩

theorem firm_problem : firmBlock.Problem firmObj (.num 1) where
  objective := rfl
  form := .inr ⟨rfl, by
    intro n i h
    simp only [Eqn.vars, firmObj, Expr.vars, List.nil_append, List.mem_append, List.mem_singleton, Prod.mk.injEq] at h
    rcases h with ⟨_, rfl⟩ | (⟨_, rfl⟩ | ⟨_, rfl⟩ | ⟨_, rfl⟩) | ⟨_, rfl⟩ | ⟨_, rfl⟩ <;> simp⟩
  near := by
    intro e he n i h
    simp only [firmBlock, List.cons_append, List.nil_append, List.mem_cons, List.not_mem_nil, or_false] at he
    rcases he with rfl | rfl
    · simp only [Eqn.vars, firmObj, Expr.vars, List.nil_append, List.mem_append, List.mem_singleton, Prod.mk.injEq] at h
      rcases h with ⟨_, rfl⟩ | (⟨_, rfl⟩ | ⟨_, rfl⟩ | ⟨_, rfl⟩) | ⟨_, rfl⟩ | ⟨_, rfl⟩ <;> exact ⟨_, rfl, by decide, by decide⟩
    · simp only [Eqn.vars, firmCon, Expr.vars, List.nil_append, List.mem_append, List.mem_singleton, Prod.mk.injEq] at h
      rcases h with (⟨_, rfl⟩ | ⟨_, rfl⟩) | ⟨_, rfl⟩ | ⟨_, rfl⟩ <;> exact ⟨_, rfl, by decide, by decide⟩
  identities := by intro e he; cases he
  controls := by
    intro v hv
    simp only [firmBlock, List.mem_cons, List.not_mem_nil, or_false] at hv
    rcases hv with rfl | rfl | rfl
    · exact .inr rfl
    · exact .inl rfl
    · exact .inl rfl
  definitions := by intro e he; cases he
  distinct := by simp [firmBlock]
  current := by intro e he; cases he
  free := by rintro _ _ ⟨e, he, _⟩; cases he
  multipliers := by rintro _ _ _ _ ⟨e, he, _⟩; cases he
  generated := by rintro _ ⟨e, he, _⟩; cases he

theorem firm_smooth (t : Int) : firmBlock.SmoothWithDefs firmFile.assumptions hhPath t := by
  intro e he
  simp only [firmBlock, List.cons_append, List.nil_append, List.mem_cons, List.not_mem_nil, or_false] at he
  rcases he with rfl | rfl
  · simp [firmObj, SmoothOn]
  · simp [firmCon, SmoothOn]

end StD
open StD in
/-- and by a firm with a one-period objective that chooses `K[-1]`: its five equations hold along a path, and neither capital one period
before, labour nor output improves its Lagrangian -/
example : ∃ P, LoadGcn firmText P ∧ P.equations.length = 5 ∧ (∀ q ∈ P.equations, ∀ t, q.val Sta.hhPath t = 0) ∧
    ∃ ms : List (Str × Asm), firmBlock.StationaryWithDefs firmFile.assumptions firmObj (.num 1) ms Sta.hhPath := by
  obtain ⟨P, h1, h2, h3⟩ := firm_load
  have hn : firmFile.DistinctNames := by simp [GFile.DistinctNames, firmFile]
  have hz : ∀ q ∈ P.equations, ∀ t, q.val Sta.hhPath t = 0 := by
    intro q hq t
    have := List.all_eq_true.1 h3 q hq
    rw [Sta.ratAt_val t q 0 (of_decide_eq_true this)]; simp
  have hb : ∀ b, firmFile.IsModelBlock b → b = firmBlock := fun b h => by simpa [firmFile] using h.1
  obtain ⟨ms, _, h⟩ := C112_solutions_defs firmText firmToks firmFile P firm_spells firm_file h1 hn
    (fun b h => by cases hb b h; exact .inr ⟨_, _, firm_problem⟩)
  exact ⟨P, h1, h2, hz, _, ((h Sta.hhPath (fun b h => by cases hb b h; intro e he; cases he) (fun b h _ _ _ t => by cases hb b h; exact firm_smooth t)).1 hz).2
    firmBlock firm_model _ _ firm_problem⟩

end GE
