import Verif.Props.Closure
import Verif.Props.BlockValidate
import Verif.Props.Flatten
/-! # C52 with definitions: every dated symbol of a model equation is a model variable or a shock -/

namespace GE

/-- the definitions of a block are written for distinct names of the current date, their right-hand sides mention no defined name, the objective and the
constraints use a defined name at the date of its definition only, and the discount factor does not mention one -/
structure DefsNow (B : Block) : Prop where
  dated : ∀ e ∈ dvals B.definitions, ∃ s : TSym, e.lhs = .sym (.tv s) ∧ s.idx = .t 0
  distinct : ((dvals B.definitions).map SEq.lhs).Nodup
  rhs : ∀ e ∈ dvals B.definitions, ∀ e' ∈ dvals B.definitions, ∀ s : TSym, e.lhs = .sym (.tv s) → ∀ q ∈ e'.rhs.tsyms, q.now ≠ s.now
  now : ∀ e ∈ dvals B.definitions, ∀ s : TSym, e.lhs = .sym (.tv s) → ∀ c ∈ dvals B.objective ++ dvals B.constraints,
    ∀ q ∈ c.lhs.tsyms ++ c.rhs.tsyms, q.now = s.now → q = s
  discount : ∀ e ∈ dvals B.definitions, ∀ s : TSym, e.lhs = .sym (.tv s) → ∀ o ∈ dvals B.objective, ∀ df, discountFactor o = .ok df →
    ∀ q ∈ df.tsyms, q.now ≠ s.now

namespace Cls
open Lag Slv Ldr BVal

/-- the symbols after a sequence of substitutions whose values mention no substituted symbol -/
theorem syms_subsSeq_iff : ∀ (l : List (Sym × SExpr)) (e : SExpr) (s : Sym), (l.map Prod.fst).Nodup →
    (∀ p ∈ l, ∀ k ∈ l.map Prod.fst, k ∉ p.2.syms) →
    (s ∈ (e.subsSeq l).syms ↔ (s ∈ e.syms ∧ s ∉ l.map Prod.fst) ∨ ∃ p ∈ l, p.1 ∈ e.syms ∧ s ∈ p.2.syms)
  | [], e, s, _, _ => by simp [SExpr.subsSeq]
  | (k, v) :: l, e, s, hn, hv => by
    have h1 : e.subsSeq ((k, v) :: l) = (e.subs1 k v).subsSeq l := rfl
    have hs1 : ∀ x, x ∈ (e.subs1 k v).syms ↔ (x ∈ e.syms ∧ x ≠ k) ∨ (k ∈ e.syms ∧ x ∈ v.syms) := by
      intro x
      rw [SExpr.subs1, syms_replace]
      constructor
      · rintro ⟨q, hq, hx⟩
        split at hx
        · rename_i hqk; subst hqk; exact .inr ⟨hq, hx⟩
        · rename_i hqk; simp only [SExpr.syms, List.mem_singleton] at hx; subst hx; exact .inl ⟨hq, hqk⟩
      · rintro (⟨hx, hk⟩ | ⟨hk, hx⟩)
        · exact ⟨x, hx, by rw [if_neg hk]; simp [SExpr.syms]⟩
        · exact ⟨k, hk, by rw [if_pos rfl]; exact hx⟩
    have hn' := List.nodup_cons.1 (by simpa using hn : (k :: l.map Prod.fst).Nodup)
    rw [h1, syms_subsSeq_iff l _ s hn'.2 fun p hp q hq => hv p (List.mem_cons_of_mem _ hp) q (by simp at hq ⊢; exact .inr hq)]
    have hkv : ∀ q ∈ l.map Prod.fst, q ∉ v.syms := fun q hq => hv (k, v) (List.mem_cons_self ..) q (by simp at hq ⊢; exact .inr hq)
    constructor
    · rintro (⟨hs, hns⟩ | ⟨p, hp, hpe, hs⟩)
      · rcases (hs1 s).1 hs with ⟨h2, h3⟩ | ⟨h2, h3⟩
        · left; refine ⟨h2, ?_⟩; simp only [List.map_cons, List.mem_cons, not_or]; exact ⟨h3, hns⟩
        · right; exact ⟨(k, v), List.mem_cons_self .., h2, h3⟩
      · rcases (hs1 p.1).1 hpe with ⟨h2, _⟩ | ⟨_, h3⟩
        · right; exact ⟨p, List.mem_cons_of_mem _ hp, h2, hs⟩
        · exact absurd h3 (hkv p.1 (List.mem_map_of_mem hp))
    · rintro (⟨hs, hns⟩ | ⟨p, hp, hpe, hs⟩)
      · simp only [List.map_cons, List.mem_cons, not_or] at hns
        exact .inl ⟨(hs1 s).2 (.inl ⟨hs, hns.1⟩), hns.2⟩
      · rcases List.mem_cons.1 hp with rfl | hp
        · refine .inl ⟨(hs1 s).2 (.inr ⟨hpe, hs⟩), fun hm => ?_⟩
          exact hkv s hm hs
        · refine .inr ⟨p, hp, (hs1 p.1).2 (.inl ⟨hpe, ?_⟩), hs⟩
          intro h; exact hn'.1 (h ▸ List.mem_map_of_mem hp)

/-- flattening definitions that do not use each other changes nothing -/
theorem flatten_same {d flat : List (Sym × SExpr)} (h : flattenSubs d = some (some flat)) (hd : (dkeys d).Nodup)
    (hv : ∀ p ∈ d, ∀ k ∈ dkeys d, k ∉ p.2.syms) : ∀ p, p ∈ flat ↔ p ∈ d := by
  have hdep : ∀ k, flatDeps d k = [] := by
    intro k
    unfold flatDeps
    split
    · rename_i v hk
      rw [List.filter_eq_nil_iff]
      intro s hs hc
      rw [List.mem_eraseDups] at hs
      simp only [decide_eq_true_eq] at hc
      exact hv (k, v) (mem_of_dget _ _ _ hk) s hc.1 hs
    · rfl
  obtain ⟨st, hst, hi, hall⟩ := flatten_ok h (fun k v => dget d k = some v) (by
    intro k g hk _
    obtain ⟨v, hv⟩ : ∃ v, dget d k = some v := Option.isSome_iff_exists.mp ((dget_isSome d k).mpr hk)
    simp only [hv, Option.getD_some, hdep, List.map_nil]
    rfl)
  obtain ⟨hnf, hkeys⟩ := C15_keys d h
  rintro ⟨k, v⟩
  constructor
  · intro hp
    exact mem_of_dget _ _ _ (hi.val k v (by rw [hst]; exact hp))
  · intro hp
    have hk : k ∈ dkeys flat := (hkeys k).2 (List.mem_map_of_mem hp)
    obtain ⟨⟨k', v'⟩, hm, rfl⟩ := List.mem_map.1 hk
    have h1 := hi.val k' v' (by rw [hst]; exact hm)
    have h2 := dget_of_mem d hd k' v hp
    rw [h1] at h2
    cases h2
    exact hm

theorem dset_has {κ ν} [DecidableEq κ] (d : List (κ × ν)) (k : κ) (v : ν) (x : κ) : x ∈ dkeys (dset d k v) ↔ x = k ∨ x ∈ dkeys d := by
  rw [← dget_isSome, dget_dset, ← dget_isSome]
  by_cases h : x = k
  · simp [h]
  · rw [if_neg (Ne.symm h)]; simp [h]

theorem dupdate_has {κ ν} [DecidableEq κ] (e d : List (κ × ν)) (x : κ) : x ∈ dkeys (dupdate d e) ↔ x ∈ dkeys d ∨ x ∈ dkeys e := by
  unfold dupdate
  induction e generalizing d with
  | nil => simp [dkeys]
  | cons p e ih =>
    rw [List.foldl_cons, ih, dset_has]
    simp only [dkeys, List.map_cons, List.mem_cons]
    tauto

theorem dupdate_nodup {κ ν} [DecidableEq κ] (e d : List (κ × ν)) (hd : (dkeys d).Nodup) : (dkeys (dupdate d e)).Nodup := by
  unfold dupdate
  induction e generalizing d with
  | nil => exact hd
  | cons p e ih => rw [List.foldl_cons]; exact ih _ (dset_nodup _ _ _ hd)

/-- what the substitution dictionary of one definition written at the current date contains -/
theorem expand_mem {s : TSym} {rhs : SExpr} {d} (h : expandDefinition (.sym (.tv s)) rhs = .ok d) (h0 : s.idx = .t 0) :
    (Sym.tv s ∈ dkeys d) ∧ ∀ p ∈ d, ∃ j : Int, p.1 = .tv (shiftSym j s) ∧ p.2 = shiftE j rhs := by
  unfold expandDefinition at h
  simp only [h0, Int.sub_zero] at h
  have gen : ∀ (l : List Int) (d0 d : List (Sym × SExpr)), (∀ p ∈ d0, ∃ j : Int, p.1 = .tv (shiftSym j s) ∧ p.2 = shiftE j rhs) →
      l.foldlM (fun d target =>
        match stepBy target (.sym (.tv s)), stepBy target rhs with
        | .ok (.sym q), .ok r => (.ok (dset d q r) : Except BErr _)
        | _, _ => .error .typeError) d0 = .ok d →
      (∀ p ∈ d, ∃ j : Int, p.1 = .tv (shiftSym j s) ∧ p.2 = shiftE j rhs) ∧ (∀ k ∈ dkeys d0, k ∈ dkeys d) ∧ (0 ∈ l → Sym.tv s ∈ dkeys d) := by
    intro l
    induction l with
    | nil => intro d0 d h0 h; simp only [List.foldlM_nil] at h; cases h; exact ⟨h0, fun _ h => h, by simp⟩
    | cons a l ih =>
      intro d0 d hd0 h
      rw [List.foldlM_cons] at h
      cases h1 : (match stepBy a (.sym (.tv s)), stepBy a rhs with
        | .ok (.sym q), .ok r => (.ok (dset d0 q r) : Except BErr _)
        | _, _ => .error .typeError) with
      | error e => rw [h1] at h; cases h
      | ok d1 =>
        rw [h1] at h
        split at h1
        · rename_i q r hq hr
          cases h1
          have eq := (stepBy_ok hq).1
          rw [shiftE_sym] at eq
          cases eq
          obtain ⟨i1, i2, i3⟩ := ih _ d (by
            intro p hp
            rcases mem_dset _ _ _ _ hp with hp | rfl
            · exact hd0 p hp
            · exact ⟨a, rfl, (stepBy_ok hr).1⟩) h
          refine ⟨i1, fun k hk => i2 k ((dset_has _ _ _ _).2 (.inr hk)), fun hm => ?_⟩
          by_cases ha : a = 0
          · refine i2 _ ((dset_has _ _ _ _).2 (.inl ?_))
            subst ha
            rw [show shiftSym 0 s = s from by unfold shiftSym; cases s with | mk b i m => cases i <;> simp_all]
          · exact i3 ((List.mem_cons.1 hm).resolve_left fun h => ha h.symm)
        · cases h1
  obtain ⟨i1, _, i3⟩ := gen _ _ _ (by simp) h
  exact ⟨i3 (by simp), i1⟩

/-- what the substitution dictionary of the Lagrangian contains -/
theorem subs_mem : ∀ (ds : List SEq) (acc sub : List (Sym × SExpr)), lagrangianSubs ds acc = .ok sub → (dkeys acc).Nodup →
    (∀ e ∈ ds, ∃ s : TSym, e.lhs = .sym (.tv s) ∧ s.idx = .t 0) →
    (dkeys sub).Nodup ∧ (∀ k ∈ dkeys acc, k ∈ dkeys sub) ∧ (∀ e ∈ ds, ∀ s : TSym, e.lhs = .sym (.tv s) → Sym.tv s ∈ dkeys sub) ∧
    ∀ p ∈ sub, p ∈ acc ∨ ∃ e ∈ ds, ∃ s : TSym, e.lhs = .sym (.tv s) ∧ ∃ j : Int, p.1 = .tv (shiftSym j s) ∧ p.2 = shiftE j e.rhs
  | [], acc, sub, h, hn, _ => by
    simp only [lagrangianSubs] at h; cases h
    exact ⟨hn, fun _ h => h, by simp, fun p hp => .inl hp⟩
  | e :: ds, acc, sub, h, hn, hd => by
    simp only [lagrangianSubs] at h
    split at h
    · cases h
    · rename_i d hx
      obtain ⟨s, hs, h0⟩ := hd e (List.mem_cons_self ..)
      rw [hs] at hx
      obtain ⟨x1, x2⟩ := expand_mem hx h0
      obtain ⟨i1, i2, i3, i4⟩ := subs_mem ds _ sub h (dupdate_nodup _ _ hn) fun e he => hd e (List.mem_cons_of_mem _ he)
      refine ⟨i1, fun k hk => i2 k ((dupdate_has _ _ _).2 (.inl hk)), ?_, ?_⟩
      · intro e' he' s' hs'
        rcases List.mem_cons.1 he' with rfl | he'
        · rw [hs] at hs'; cases hs'
          exact i2 _ ((dupdate_has _ _ _).2 (.inr x1))
        · exact i3 e' he' s' hs'
      · intro p hp
        rcases i4 p hp with hp | ⟨e', he', h'⟩
        · rcases mem_dupdate _ _ _ hp with hp | hp
          · exact .inl hp
          · obtain ⟨j, hj⟩ := x2 p hp
            exact .inr ⟨e, List.mem_cons_self .., s, hs, j, hj⟩
        · exact .inr ⟨e', List.mem_cons_of_mem _ he', h'⟩

theorem dkeys_eq (d : List (Sym × SExpr)) : dkeys d = d.map Prod.fst := rfl

theorem defDict_nodup (ds : List SEq) : (dkeys (defDict ds)).Nodup := by
  have gen : ∀ (ds : List SEq) (acc : List (Sym × SExpr)), (dkeys acc).Nodup →
      (dkeys (ds.foldl (fun d e => match e.lhs with | .sym s => dset d s e.rhs | _ => d) acc)).Nodup := by
    intro ds
    induction ds with
    | nil => intro acc h; exact h
    | cons e ds ih =>
      intro acc h
      rw [List.foldl_cons]
      refine ih _ ?_
      split
      · exact dset_nodup _ _ _ h
      · exact h
  exact gen ds [] (by simp [dkeys])

section
variable {B : Block} (H : DefsNow B)
include H

theorem defDict_free : ∀ p ∈ defDict (dvals B.definitions), ∀ k ∈ dkeys (defDict (dvals B.definitions)), k ∉ p.2.syms := by
  intro p hp k hk hm
  obtain ⟨e', he', _, h2⟩ := defDict_mem _ p hp
  obtain ⟨e, he, h3⟩ := (defDict_key _ H.distinct k).1 hk
  obtain ⟨s, hs, _⟩ := H.dated e he
  rw [hs] at h3; cases h3
  rw [h2] at hm
  exact H.rhs e he e' he' s hs s (mem_tsyms.mpr hm) rfl

/-- the symbols listed for a block with definitions: those that remain after the definitions are substituted -/
theorem list_known' {prev ms vs} (h : B.variableList prev ms = some vs) :
    ∀ x, (x ∈ prev ∨ recorded ms x ∨ ∃ e ∈ dvals B.objective ++ dvals B.constraints ++ dvals B.identities,
        ∃ s ∈ (e.lhs.subsSeq (defDict (dvals B.definitions))).tsyms ++ (e.rhs.subsSeq (defDict (dvals B.definitions))).tsyms, x = toSS s) →
      x ∈ vs ∨ x.now ∈ B.shocks.getD [] := by
  intro x hx
  unfold Block.variableList at h
  split at h
  · rename_i flat hflat
    cases h
    have same : ∀ (e : SExpr) s, s ∈ (e.subsSeq flat).tsyms ↔ s ∈ (e.subsSeq (defDict (dvals B.definitions))).tsyms := by
      intro e s
      rw [mem_tsyms, mem_tsyms]
      have hf : (flat.map Prod.fst).Nodup ∧ ∀ p, p ∈ flat ↔ p ∈ defDict (dvals B.definitions) := by
        unfold flattenOrEmpty at hflat
        split at hflat
        · rename_i h0; cases hflat; rw [h0]; exact ⟨by simp, fun p => Iff.rfl⟩
        · rename_i p d h0
          have hj : flattenSubs (defDict (dvals B.definitions)) = some (some flat) := by
            rw [h0]
            cases hc : flattenSubs (p :: d) with
            | none => rw [hc] at hflat; cases hflat
            | some o => rw [hc] at hflat; simp only [Option.join_some] at hflat; rw [hflat]
          exact ⟨(C15_keys _ hj).1, flatten_same hj (defDict_nodup _) (defDict_free H)⟩
      have hmap : ∀ k, k ∈ flat.map Prod.fst ↔ k ∈ dkeys (defDict (dvals B.definitions)) := by
        intro k; simp only [dkeys, List.mem_map, hf.2]
      rw [syms_subsSeq_iff flat e _ hf.1 fun p hp k hk => defDict_free H p ((hf.2 p).1 hp) k ((hmap k).1 hk),
        syms_subsSeq_iff _ e _ (defDict_nodup _) (defDict_free H), hmap]
      simp only [hf.2]
      rfl
    by_cases hs : x.now ∈ B.shocks.getD []
    · exact .inr hs
    · left
      rw [mem_sortByName, List.mem_filter]
      refine ⟨?_, by simpa using hs⟩
      simp only [List.mem_append, List.mem_flatMap, List.mem_map]
      rcases hx with hx | hx | ⟨e, he, s, hse, rfl⟩
      · exact .inl (.inl hx)
      · exact .inr hx
      · refine .inl (.inr ⟨e, by simpa [or_assoc] using he, s, ?_, rfl⟩)
        rw [List.mem_append] at hse
        exact hse.imp (same _ _).2 (same _ _).2
  · cases h

/-- the Lagrangian's dictionary leaves no other symbols than the definitions themselves, in an expression that uses them at their own date -/
theorem sub_symbols {sub} (hsub : lagrangianSubs (dvals B.definitions) [] = .ok sub) (e : SExpr)
    (hnow : ∀ d ∈ dvals B.definitions, ∀ s : TSym, d.lhs = .sym (.tv s) → ∀ q ∈ e.tsyms, q.now = s.now → q = s) :
    ∀ s ∈ (e.subsSeq sub).tsyms, s ∈ (e.subsSeq (defDict (dvals B.definitions))).tsyms := by
  obtain ⟨s1, _, s3, s4⟩ := subs_mem _ _ _ hsub (by simp [dkeys]) H.dated
  have s4' : ∀ p ∈ sub, ∃ d ∈ dvals B.definitions, ∃ s : TSym, d.lhs = .sym (.tv s) ∧ ∃ j : Int, p.1 = .tv (shiftSym j s) ∧ p.2 = shiftE j d.rhs := by
    intro p hp; rcases s4 p hp with h | h
    · simp at h
    · exact h
  have hfree : ∀ p ∈ sub, ∀ k ∈ sub.map Prod.fst, k ∉ p.2.syms := by
    intro p hp k hk hm
    obtain ⟨d', hd', s', hs', j', hj1, hj2⟩ := s4' p hp
    obtain ⟨p2, hp2, rfl⟩ := List.mem_map.1 hk
    obtain ⟨d, hd, s, hs, j, hj, _⟩ := s4' p2 hp2
    rw [hj, hj2, shiftE, syms_replace] at hm
    obtain ⟨q, hq, h1⟩ := hm
    cases q with
    | par n => simp [SExpr.syms] at h1
    | tv q =>
      simp only [SExpr.syms, List.mem_singleton, Sym.tv.injEq] at h1
      refine H.rhs d hd d' hd' s hs q (mem_tsyms.mpr hq) ?_
      rw [← now_shift j' q, ← h1, now_shift]
  intro s hs
  rw [mem_tsyms] at hs ⊢
  rw [syms_subsSeq_iff sub e _ s1 hfree] at hs
  rw [syms_subsSeq_iff _ e _ (defDict_nodup _) (defDict_free H)]
  rcases hs with ⟨h1, h2⟩ | ⟨p, hp, h1, h2⟩
  · refine .inl ⟨h1, fun hk => h2 ?_⟩
    obtain ⟨d, hd, h3⟩ := (defDict_key _ H.distinct _).1 hk
    exact s3 d hd s h3
  · right
    obtain ⟨d, hd, s0, hs0, j, hj1, hj2⟩ := s4' p hp
    obtain ⟨s0', hs0', hi⟩ := H.dated d hd
    rw [hs0] at hs0'; cases hs0'
    rw [hj1] at h1
    have hq := hnow d hd s0 hs0 _ (mem_tsyms.mpr h1) (now_shift j s0)
    have hj : j = 0 := by
      have := congrArg TSym.idx hq
      simp only [shiftSym, hi, TIdx.t.injEq] at this
      omega
    subst hj
    refine ⟨(.tv s0, d.rhs), mem_of_dget _ _ _ ((defDict_get _ H.distinct _ _).2 ⟨d, hd, hs0, rfl⟩), by rw [← hq]; exact h1, ?_⟩
    rw [hj2, shiftE_zero] at h2
    exact h2

end

theorem construct_within' {asm ss b r} (h : constructBlock asm ss b = .ok r) (H' : DefsNow r.block) : ∀ e ∈ r.equations, Within (known r) e := by
  obtain ⟨B0, B, vs0, d, s, h1, _, h3, h4, _, h6, h7, _, h9, h10⟩ := build_ok h
  have H : DefsNow B := by
    rw [h7] at H'
    exact ⟨H'.dated, H'.distinct, H'.rhs, H'.now, H'.discount⟩
  have hsh : r.block.shocks = B.shocks := by rw [h7]
  have key : ∀ x, (x ∈ vs0 ∨ recorded s.multipliers x ∨ ∃ e ∈ dvals B.objective ++ dvals B.constraints ++ dvals B.identities,
      ∃ q ∈ (e.lhs.subsSeq (defDict (dvals B.definitions))).tsyms ++ (e.rhs.subsSeq (defDict (dvals B.definitions))).tsyms, x = toSS q) →
      B.controls ≠ none → known r x.now := by
    intro x hx hc
    rw [if_neg hc] at h10
    rcases list_known' H h10 x hx with h | h
    · exact .inl ⟨x, h, rfl⟩
    · exact .inr ⟨x.now, by rw [hsh]; exact h, rfl⟩
  have key0 : ∀ x, (recorded B.multipliers x ∨ ∃ e ∈ dvals B.objective ++ dvals B.constraints ++ dvals B.identities,
      ∃ q ∈ (e.lhs.subsSeq (defDict (dvals B.definitions))).tsyms ++ (e.rhs.subsSeq (defDict (dvals B.definitions))).tsyms, x = toSS q) →
      known r x.now := by
    intro x hx
    by_cases hc : B.controls = none
    · rw [if_pos hc] at h10
      rcases list_known' H h4 x (.inr hx) with h | h
      · exact .inl ⟨x, by rw [h10]; exact h, rfl⟩
      · exact .inr ⟨x.now, by rw [hsh]; exact h, rfl⟩
    · rcases list_known' H h4 x (.inr hx) with h | h
      · exact key x (.inl h) hc
      · exact .inr ⟨x.now, by rw [hsh]; exact h, rfl⟩
  have wthn : ∀ e ∈ dvals B.objective ++ dvals B.constraints ++ dvals B.identities,
      Within (known r) (e.lhs.subsSeq (defDict (dvals B.definitions))) ∧ Within (known r) (e.rhs.subsSeq (defDict (dvals B.definitions))) := by
    intro e he
    constructor
    · intro q hq; have := key0 (toSS q) (.inr ⟨e, he, q, by simp [hq], rfl⟩); rwa [now_toSS] at this
    · intro q hq; have := key0 (toSS q) (.inr ⟨e, he, q, by simp [hq], rfl⟩); rwa [now_toSS] at this
  have hz : ∀ e : SEq, Within (known r) e.lhs ∧ Within (known r) e.rhs → Within (known r) e.zero := fun e he =>
    within_add.mpr ⟨he.2, within_mul.mpr ⟨within_num, he.1⟩⟩
  have hplain : ∀ eqs, B.plainEquations = .ok eqs → ∀ e ∈ eqs, Within (known r) e := by
    intro eqs hp e he
    rw [plain_eq hp] at he
    simp only [List.mem_map, List.mem_append] at he
    obtain ⟨w, hw, rfl⟩ := he
    apply hz
    apply wthn
    rcases hw with hw | hw
    · simp [hw]
    · simp only [Block.keptConstraints, List.mem_map, List.mem_filter] at hw
      obtain ⟨p, hp, rfl⟩ := hw
      simp only [List.mem_append]
      refine .inl (.inr ?_)
      exact List.mem_map_of_mem hp.1
  rw [h9]
  unfold Block.solve at h6
  cases hp : B.plainEquations with
  | error e => rw [hp] at h6; cases h6
  | ok eqs =>
    simp only [hp] at h6
    cases ho : B.objective with
    | none =>
      cases hc : B.controls with
      | none => simp only [ho, hc] at h6; cases h6; exact hplain eqs hp
      | some cs => simp only [ho, hc] at h6; cases h6
    | some ob =>
      cases hc : B.controls with
      | none => simp only [ho, hc] at h6; cases h6
      | some cs =>
        cases ob with
        | nil => simp only [ho, hc] at h6; cases h6
        | cons o rest =>
          obtain ⟨okey, obj⟩ := o
          simp only [ho, hc] at h6
          have hobjm : obj ∈ dvals B.objective := by simp [dvals, ho]
          have hobj := wthn obj (by simp [hobjm])
          cases hdf : discountFactor obj with
          | error e => rw [hdf] at h6; cases h6
          | ok df =>
            rw [hdf] at h6
            simp only at h6
            cases hl : B.lagrangian with
            | error e => rw [hl] at h6; cases h6
            | ok Lm =>
              obtain ⟨L, ms⟩ := Lm
              rw [hl] at h6
              simp only at h6
              split at h6
              · cases h6
              · cases h6
              · split at h6
                · cases h6
                · rename_i focs hf
                  cases h6
                  have hL : Within (known r) L := by
                    unfold Block.lagrangian at hl
                    simp only [ho] at hl
                    split at hl
                    · cases hl
                    · split at hl
                      · cases hl
                      · rename_i sub hsub
                        have part : ∀ e : SExpr, (∃ c ∈ dvals B.objective ++ dvals B.constraints, ∀ q ∈ e.tsyms, q ∈ c.lhs.tsyms ++ c.rhs.tsyms) →
                            Within (known r) (e.subsSeq (defDict (dvals B.definitions))) → Within (known r) (e.subsSeq sub) := by
                          rintro e ⟨c, hc', hq⟩ hw x hx
                          exact hw x (sub_symbols H hsub e (fun d hd y hy q hqe => H.now d hd y hy c hc' q (hq q hqe)) x hx)
                        have hro := part obj.rhs ⟨obj, by simp [hobjm], fun q hq => by simp [hq]⟩ hobj.2
                        split at hl
                        · cases hl
                        · rename_i cns hcns
                          split at hl
                          · cases hl
                          · refine loop_within _ _ _ _ _ _ _ _ hl ?_ ?_ ?_ ?_
                            · split
                              · exact within_mul.mpr ⟨within_num, hro⟩
                              · exact hro
                            · intro c hc'
                              have hcm : c.2 ∈ dvals B.constraints := by
                                simp only [dvals, hcns, Option.getD_some]; exact List.mem_map_of_mem hc'
                              have hw := wthn c.2 (by simp [hcm])
                              exact ⟨part _ ⟨c.2, by simp [hcm], fun q hq => by simp [hq]⟩ hw.1,
                                part _ ⟨c.2, by simp [hcm], fun q hq => by simp [hq]⟩ hw.2⟩
                            · intro x hx; exact key0 x (.inl hx)
                            · intro x hx; exact key x (.inr (.inl hx)) (by simp [hc])
                  have hdfw : Within (known r) df := by
                    have h11 := within_discount (S := fun x => ∃ q ∈ obj.rhs.tsyms, q.now = x) obj df hdf fun q hq => ⟨q, hq, rfl⟩
                    intro x hx
                    obtain ⟨q, hq, hqx⟩ := h11 x hx
                    rw [← hqx]
                    refine hobj.2 q ?_
                    rw [mem_tsyms, syms_subsSeq_iff _ _ _ (defDict_nodup _) (defDict_free H)]
                    refine .inl ⟨mem_tsyms.1 hq, fun hk => ?_⟩
                    obtain ⟨d, hd, h12⟩ := (defDict_key _ H.distinct _).1 hk
                    exact H.discount d hd q h12 obj hobjm df hdf x hx hqx.symm
                  have hfocs := mapM_focs L df cs focs hf
                  intro e he
                  simp only [List.mem_append, List.mem_singleton] at he
                  rcases he with (he | he) | he
                  · exact hplain eqs hp e he
                  · rw [he]; exact hz _ hobj
                  · have : ∀ (cs : List TSym) (focs : List SExpr), List.Forall₂ (fun c r => diffThroughTime L c (.expr df) = .ok r) cs focs →
                        ∀ e ∈ focs, ∃ c, diffThroughTime L c (.expr df) = .ok e := by
                      intro cs focs hff
                      induction hff with
                      | nil => simp
                      | cons h _ ih =>
                        intro e he
                        rcases List.mem_cons.mp he with rfl | he
                        · exact ⟨_, h⟩
                        · exact ih e he
                    obtain ⟨c, hc⟩ := this cs focs hfocs e he
                    exact within_dtt c L df e hL hdfw hc

end Cls

open Cls Ldr

/-- **C52** (partial) closure with definitions: in a loaded model whose blocks' definitions satisfy `DefsNow`, every dated symbol of every
model equation — including the first-order conditions — is, up to its date, one of the model's variables or shocks. -/
theorem C52_closed_defs_partial (m : Mdl) (P : Primitives) (h : loadModel m = .ok P) (hd : ∀ p ∈ P.blocks, DefsNow p.2.block) :
    ∀ e ∈ P.equations, ∀ s ∈ e.tsyms, { s with idx := .t 0 } ∈ P.variables ∨ { s with idx := .t 0 } ∈ P.shocks := by
  obtain ⟨ss, _, _, h1, _, _, _, h2, h3, _⟩ := load_ok h
  intro e he s hs
  rw [h3] at he
  simp only [List.mem_flatMap, List.mem_map] at he
  obtain ⟨r, ⟨p, hp, rfl⟩, her⟩ := he
  rcases loop_from _ _ _ h1 p hp with h4 | ⟨b, hb, _, _, hbld⟩
  · simp at h4
  · have hk := construct_within' hbld (hd p hp) e her s hs
    have hv : P.variables = (mergeVariables ((P.blocks.map Prod.snd).map fun b => (b.variables, b.block.shocks.getD []))).1 := congrArg Prod.fst h2
    have hsh : P.shocks = (mergeVariables ((P.blocks.map Prod.snd).map fun b => (b.variables, b.block.shocks.getD []))).2 := congrArg Prod.snd h2
    obtain ⟨m1, m2, _⟩ := C52_merge ((P.blocks.map Prod.snd).map fun b => (b.variables, b.block.shocks.getD [])) { s with idx := .t 0 }
    rw [← hv, ← hsh] at m2
    rw [← hsh] at m1
    have hmem : (p.2.variables, p.2.block.shocks.getD []) ∈ (P.blocks.map Prod.snd).map fun b => (b.variables, b.block.shocks.getD []) :=
      List.mem_map.mpr ⟨p.2, List.mem_map_of_mem hp, rfl⟩
    by_cases hin : { s with idx := .t 0 } ∈ P.shocks
    · exact .inr hin
    · left
      rw [m2]
      refine ⟨?_, hin⟩
      rcases hk with ⟨y, hy, h5⟩ | ⟨y, hy, h5⟩
      · exact ⟨_, hmem, y, hy, h5.symm⟩
      · exact absurd (m1.mpr ⟨_, hmem, y, hy, h5.symm⟩) hin

namespace Cls

/-- the name a definition introduces -/
def defSym (e : SEq) : Option TSym := match e.lhs with | .sym (.tv s) => some s | _ => none

/-- `DefsNow`, as a computation -/
def defsNow (B : Block) : Bool :=
  decide ((dvals B.definitions).map SEq.lhs).Nodup && (dvals B.definitions).all fun e =>
    match defSym e with
    | none => false
    | some s => decide (s.idx = .t 0) && ((dvals B.definitions).all fun e' => e'.rhs.tsyms.all fun q => decide (q.now ≠ s.now)) &&
      ((dvals B.objective ++ dvals B.constraints).all fun c => (c.lhs.tsyms ++ c.rhs.tsyms).all fun q => decide (q.now = s.now → q = s)) &&
      (dvals B.objective).all fun o => match discountFactor o with | .ok df => df.tsyms.all fun q => decide (q.now ≠ s.now) | .error _ => true

theorem defsNow_ok {B : Block} (h : defsNow B = true) : DefsNow B := by
  simp only [defsNow, Bool.and_eq_true, decide_eq_true_eq, List.all_eq_true] at h
  obtain ⟨h1, h2⟩ := h
  have hs : ∀ e ∈ dvals B.definitions, ∀ s : TSym, e.lhs = .sym (.tv s) → _ := fun e he s hs => by
    have := h2 e he
    simp only [defSym, hs, Bool.and_eq_true, decide_eq_true_eq, List.all_eq_true] at this
    exact this
  refine ⟨fun e he => ?_, h1, fun e he e' he' s h3 q hq => (hs e he s h3).1.1.2 e' he' q hq,
    fun e he s h3 c hc q hq => (hs e he s h3).1.2 c hc q hq, fun e he s h3 o ho df hdf q hq => ?_⟩
  · have := h2 e he
    cases h3 : defSym e with
    | none => rw [h3] at this; simp at this
    | some s =>
      have h4 : e.lhs = .sym (.tv s) := by
        unfold defSym at h3
        split at h3
        · cases h3; assumption
        · cases h3
      exact ⟨s, h4, (hs e he s h4).1.1.1⟩
  · have := (hs e he s h3).2 o ho
    rw [hdf] at this
    simp only [List.all_eq_true, decide_eq_true_eq] at this
    exact this q hq

/-- a household with the definition `u[] = log(C[])`, maximising `U[] = u[] + b * U[1]` subject to `C[] + K[] = A[] * K[-1]` -/
def definedBlk : Blk where
  name := ['H']
  definitions := [{ lhs := .var ['u'] (.t 0), rhs := .call ['l', 'o', 'g'] [.var ['C'] (.t 0)] }]
  controls := [⟨['C'], .t 0⟩, ⟨['K'], .t 0⟩]
  objective := [{ lhs := .var ['U'] (.t 0), rhs := .bin .add (.var ['u'] (.t 0)) (.bin .mul (.par ['b']) (.var ['U'] (.t 1))) }]
  constraints := [{ lhs := .bin .add (.var ['C'] (.t 0)) (.var ['K'] (.t 0)), rhs := .bin .mul (.var ['A'] (.t 0)) (.var ['K'] (.t (-1))) }]
  identities := [{ lhs := .var ['A'] (.t 0), rhs := .bin .mul (.var ['A'] (.t (-1))) (.var ['e'] (.t 0)) }]
  shocks := [⟨['e'], .t 0⟩]
  calibration := [.eq { lhs := .par ['b'], rhs := .num (1 / 2) }]

end Cls

/-- non-vacuity: the household loads, `DefsNow` holds of its block, its five equations (identity, constraint, objective, two first-order
conditions) have the variables `A, C, K, U` and the generated multiplier, and `u` is not among them -/
example : ∃ P, loadModel { blocks := [definedBlk] } = .ok P ∧ (∀ p ∈ P.blocks, DefsNow p.2.block) ∧
    P.variables.map TSym.base = [['A'], ['C'], ['K'], ['U'], "lambda__H_1".toList] ∧ P.shocks.map TSym.base = [['e']] ∧ P.equations.length = 5 := by
  obtain ⟨P, h1, h2⟩ := loaded { blocks := [definedBlk] }
    (fun P => (P.blocks.all fun p => defsNow p.2.block, P.variables.map TSym.base, P.shocks.map TSym.base, P.equations.length))
    (true, [['A'], ['C'], ['K'], ['U'], "lambda__H_1".toList], [['e']], 5) (by decide +kernel)
  simp only [Prod.mk.injEq, List.all_eq_true] at h2
  exact ⟨P, h1, fun p hp => defsNow_ok (h2.1 p hp), h2.2⟩

end GE
