import Verif.Props.Sym
/-! # C15: `flatten_substitution_dict` -/

namespace GE

variable (d : List (Sym × SExpr))

/-- specification: definition `k` mentions the other defined symbol `j` -/
def DependsOn (k j : Sym) : Prop := j ≠ k ∧ j ∈ dkeys d ∧ ∃ v, dget d k = some v ∧ j ∈ v.syms

/-- specification: some definition depends, through one or more others, on itself -/
def Circular : Prop := ∃ k, Relation.TransGen (DependsOn d) k k

/-- a valuation (and date) at which every definition holds -/
def Satisfies {K} (V : Valuation K) (t : Int) : Prop := ∀ k v, dget d k = some v → V.symAt t k = v.at V t

/-! ## helper lemmas -/

theorem mem_flatDeps {d : List (Sym × SExpr)} {k j : Sym} : j ∈ flatDeps d k ↔ DependsOn d k j := by
  unfold flatDeps DependsOn
  cases h : dget d k with
  | none => simp
  | some v => simp; grind

structure FInv (P : Sym → SExpr → Prop) (st : FlatSt) : Prop where
  disj : ∀ k ∈ st.visiting, k ∉ dkeys st.flat
  topo : ∀ l1 k v l2, st.flat = l1 ++ (k, v) :: l2 →
    (∀ j ∈ flatDeps d k, j ∈ dkeys l1) ∧ k ∉ dkeys l1 ∧ k ∈ dkeys d
  val : ∀ k v, (k, v) ∈ st.flat → P k v

/-- `P` is inherited by the value computed for a key from the values of its dependencies -/
def Inherits (P : Sym → SExpr → Prop) : Prop :=
  ∀ k (g : Sym → SExpr), k ∈ dkeys d → (∀ j ∈ flatDeps d k, P j (g j)) →
    P k (((dget d k).getD (.num 0)).subsSeq ((flatDeps d k).map fun j => (j, g j)))

structure Post (P : Sym → SExpr → Prop) (st st' : FlatSt) : Prop where
  inv : FInv d P st'
  vis : st'.visiting = st.visiting
  ext : ∀ k ∈ dkeys st.flat, k ∈ dkeys st'.flat

theorem resolve_ok (P : Sym → SExpr → Prop) (hP : Inherits d P) (f : Nat) :
    (∀ key st st', key ∈ dkeys d → FInv d P st → resolve d f key st = some (some st') →
      Post d P st st' ∧ key ∈ dkeys st'.flat) ∧
    (∀ ks st st', (∀ k ∈ ks, k ∈ dkeys d) → FInv d P st → resolveLoop (resolve d f) ks st = some (some st') →
      Post d P st st' ∧ ∀ k ∈ ks, k ∈ dkeys st'.flat) := by
  have lift : ∀ f, (∀ key st st', key ∈ dkeys d → FInv d P st → resolve d f key st = some (some st') →
      Post d P st st' ∧ key ∈ dkeys st'.flat) →
      (∀ ks st st', (∀ k ∈ ks, k ∈ dkeys d) → FInv d P st → resolveLoop (resolve d f) ks st = some (some st') →
        Post d P st st' ∧ ∀ k ∈ ks, k ∈ dkeys st'.flat) := by
    intro f hf ks
    induction ks with
    | nil =>
      intro st st' _ hi h
      simp only [resolveLoop, Option.some.injEq] at h
      subst h
      exact ⟨⟨hi, rfl, fun _ h => h⟩, by simp⟩
    | cons k ks ih =>
      intro st st' hk hi h
      simp only [resolveLoop] at h
      cases hr : resolve d f k st with
      | none => simp [hr] at h
      | some o =>
        cases o with
        | none => simp [hr] at h
        | some st1 =>
          simp only [hr] at h
          obtain ⟨p1, m1⟩ := hf k st st1 (hk k (List.mem_cons_self ..)) hi hr
          obtain ⟨p2, m2⟩ := ih st1 st' (fun q hq => hk q (List.mem_cons_of_mem _ hq)) p1.inv h
          refine ⟨⟨p2.inv, p2.vis.trans p1.vis, fun q hq => p2.ext q (p1.ext q hq)⟩, ?_⟩
          intro q hq
          rcases List.mem_cons.mp hq with rfl | hq
          · exact p2.ext _ m1
          · exact m2 q hq
  induction f with
  | zero =>
    have h0 : ∀ key st st', key ∈ dkeys d → FInv d P st → resolve d 0 key st = some (some st') →
      Post d P st st' ∧ key ∈ dkeys st'.flat := by intro key st st' _ _ h; simp [resolve] at h
    exact ⟨h0, lift 0 h0⟩
  | succ f ih =>
    have h1 : ∀ key st st', key ∈ dkeys d → FInv d P st → resolve d (f+1) key st = some (some st') →
        Post d P st st' ∧ key ∈ dkeys st'.flat := by
      intro key st st' hkey hi h
      simp only [resolve] at h
      split at h
      · simp only [Option.some.injEq] at h; subst h
        exact ⟨⟨hi, rfl, fun _ h => h⟩, by assumption⟩
      · rename_i hnf
        split at h
        · simp at h
        · rename_i hnv
          have hi' : FInv d P { st with visiting := key :: st.visiting } :=
            ⟨by intro k hk; rcases List.mem_cons.mp hk with rfl | hk
                · exact hnf
                · exact hi.disj k hk, hi.topo, hi.val⟩
          cases hr : resolveLoop (resolve d f) (flatDeps d key) { st with visiting := key :: st.visiting } with
          | none => simp [hr] at h
          | some o =>
            cases o with
            | none => simp [hr] at h
            | some st1 =>
              simp only [hr, Option.some.injEq] at h
              obtain ⟨p, m⟩ := ih.2 _ _ _ (fun k hk => (mem_flatDeps.mp hk).2.1) hi' hr
              have hkf : key ∉ dkeys st1.flat := p.inv.disj key (by rw [p.vis]; simp)
              have hd := dset_new st1.flat key
                (((dget d key).getD (.num 0)).subsSeq
                  ((flatDeps d key).map fun k => (k, (dget st1.flat k).getD (.sym k)))) hkf
              subst h
              have hvis : st1.visiting.erase key = st.visiting := by
                rw [p.vis]; simp
              refine ⟨⟨⟨?_, ?_, ?_⟩, hvis, ?_⟩, ?_⟩
              · intro k hk
                simp only [hvis] at hk
                simp only
                rw [mem_dkeys_dset]
                rintro (rfl | h2)
                · exact hnv hk
                · exact p.inv.disj k (by rw [p.vis]; exact List.mem_cons_of_mem _ hk) h2
              · intro l1 k v l2 h2
                simp only [hd] at h2
                rcases List.eq_nil_or_concat l2 with rfl | ⟨l2', x, rfl⟩
                · have h3 := List.append_inj' h2 rfl
                  simp only [List.cons.injEq, Prod.mk.injEq, and_true] at h3
                  obtain ⟨h3, h4, h5⟩ := h3
                  subst h3; subst h4
                  exact ⟨m, hkf, hkey⟩
                · rw [List.concat_eq_append, ← List.cons_append, ← List.append_assoc] at h2
                  have h3 := List.append_inj' h2 rfl
                  exact p.inv.topo l1 k v l2' h3.1
              · intro k v hm
                simp only [hd, List.mem_append, List.mem_singleton, Prod.mk.injEq] at hm
                rcases hm with hm | ⟨rfl, rfl⟩
                · exact p.inv.val k v hm
                · apply hP _ _ hkey
                  intro j hj
                  have := m j hj
                  rw [← dget_isSome] at this
                  obtain ⟨w, hw⟩ := Option.isSome_iff_exists.mp this
                  rw [hw]
                  exact p.inv.val j w (mem_of_dget _ _ _ hw)
              · intro k hk
                simp only
                rw [mem_dkeys_dset]
                exact Or.inr (p.ext k hk)
              · simp only
                rw [mem_dkeys_dset]
                exact Or.inl rfl
    exact ⟨h1, lift _ h1⟩

def Any : Sym → SExpr → Prop := fun _ _ => True

theorem any_inherits : Inherits d Any := fun _ _ _ _ => trivial

theorem resolve_err (f : Nat) :
    (∀ key st, key ∈ dkeys d → FInv d Any st → (∀ v ∈ st.visiting, Relation.TransGen (DependsOn d) v key) →
      resolve d f key st = some none → Circular d) ∧
    (∀ ks st, (∀ k ∈ ks, k ∈ dkeys d) → FInv d Any st →
      (∀ k ∈ ks, ∀ v ∈ st.visiting, Relation.TransGen (DependsOn d) v k) →
      resolveLoop (resolve d f) ks st = some none → Circular d) := by
  have lift : ∀ f, (∀ key st, key ∈ dkeys d → FInv d Any st →
      (∀ v ∈ st.visiting, Relation.TransGen (DependsOn d) v key) →
      resolve d f key st = some none → Circular d) →
    (∀ ks st, (∀ k ∈ ks, k ∈ dkeys d) → FInv d Any st →
      (∀ k ∈ ks, ∀ v ∈ st.visiting, Relation.TransGen (DependsOn d) v k) →
      resolveLoop (resolve d f) ks st = some none → Circular d) := by
    intro f hf ks
    induction ks with
    | nil => intro st _ _ _ h; simp [resolveLoop] at h
    | cons k ks ih =>
      intro st hk hi hv h
      simp only [resolveLoop] at h
      cases hr : resolve d f k st with
      | none => simp [hr] at h
      | some o =>
        cases o with
        | none => exact hf k st (hk k (List.mem_cons_self ..)) hi (hv k (List.mem_cons_self ..)) hr
        | some st1 =>
          simp only [hr] at h
          have p := ((resolve_ok d Any (any_inherits d) f).1 k st st1 (hk k (List.mem_cons_self ..)) hi hr).1
          refine ih st1 (fun q hq => hk q (List.mem_cons_of_mem _ hq)) p.inv ?_ h
          intro q hq v hvv
          rw [p.vis] at hvv
          exact hv q (List.mem_cons_of_mem _ hq) v hvv
  induction f with
  | zero =>
    have h0 : ∀ key st, key ∈ dkeys d → FInv d Any st →
      (∀ v ∈ st.visiting, Relation.TransGen (DependsOn d) v key) →
      resolve d 0 key st = some none → Circular d := by intro _ _ _ _ _ h; simp [resolve] at h
    exact ⟨h0, lift 0 h0⟩
  | succ f ih =>
    have h1 : ∀ key st, key ∈ dkeys d → FInv d Any st →
        (∀ v ∈ st.visiting, Relation.TransGen (DependsOn d) v key) →
        resolve d (f+1) key st = some none → Circular d := by
      intro key st hkey hi hv h
      simp only [resolve] at h
      split at h
      · simp at h
      · rename_i hnf
        split at h
        · rename_i hm; exact ⟨key, hv key hm⟩
        · have hi' : FInv d Any { st with visiting := key :: st.visiting } :=
            ⟨by intro k hk; rcases List.mem_cons.mp hk with rfl | hk
                · exact hnf
                · exact hi.disj k hk, hi.topo, hi.val⟩
          cases hr : resolveLoop (resolve d f) (flatDeps d key) { st with visiting := key :: st.visiting } with
          | none => simp [hr] at h
          | some o =>
            cases o with
            | some st1 => simp [hr] at h
            | none =>
              refine ih.2 _ _ (fun k hk => (mem_flatDeps.mp hk).2.1) hi' ?_ hr
              intro k hk v hvv
              have e1 : DependsOn d key k := mem_flatDeps.mp hk
              rcases List.mem_cons.mp hvv with rfl | hvv
              · exact .single e1
              · exact .tail (hv v hvv) e1
    exact ⟨h1, lift _ h1⟩

/-- the recursion never runs deeper than the number of keys -/
theorem resolve_fuel (f : Nat) :
    (∀ key st, key ∈ dkeys d → FInv d Any st → st.visiting.Nodup → (∀ v ∈ st.visiting, v ∈ dkeys d) →
      d.length + 1 ≤ f + st.visiting.length → 1 ≤ f → resolve d f key st ≠ none) ∧
    (∀ ks st, (∀ k ∈ ks, k ∈ dkeys d) → FInv d Any st → st.visiting.Nodup → (∀ v ∈ st.visiting, v ∈ dkeys d) →
      d.length + 1 ≤ f + st.visiting.length → 1 ≤ f → resolveLoop (resolve d f) ks st ≠ none) := by
  have lift : ∀ f,  (∀ key st, key ∈ dkeys d → FInv d Any st → st.visiting.Nodup → (∀ v ∈ st.visiting, v ∈ dkeys d) →
      d.length + 1 ≤ f + st.visiting.length → 1 ≤ f → resolve d f key st ≠ none) →
    (∀ ks st, (∀ k ∈ ks, k ∈ dkeys d) → FInv d Any st → st.visiting.Nodup → (∀ v ∈ st.visiting, v ∈ dkeys d) →
      d.length + 1 ≤ f + st.visiting.length → 1 ≤ f → resolveLoop (resolve d f) ks st ≠ none) := by
    intro f hf ks
    induction ks with
    | nil => intro st _ _ _ _ _ _; simp [resolveLoop]
    | cons k ks ih =>
      intro st hk hi hn hv hl h1
      simp only [resolveLoop]
      have hne := hf k st (hk k (List.mem_cons_self ..)) hi hn hv hl h1
      cases hr : resolve d f k st with
      | none => exact absurd hr hne
      | some o =>
        cases o with
        | none => simp
        | some st1 =>
          simp only
          have p := ((resolve_ok d Any (any_inherits d) f).1 k st st1 (hk k (List.mem_cons_self ..)) hi hr).1
          exact ih st1 (fun q hq => hk q (List.mem_cons_of_mem _ hq)) p.inv (by rw [p.vis]; exact hn)
            (by rw [p.vis]; exact hv) (by rw [p.vis]; exact hl) h1
  induction f with
  | zero =>
    have h0 : ∀ key st, key ∈ dkeys d → FInv d Any st → st.visiting.Nodup → (∀ v ∈ st.visiting, v ∈ dkeys d) →
      d.length + 1 ≤ 0 + st.visiting.length → 1 ≤ 0 → resolve d 0 key st ≠ none := by omega
    exact ⟨h0, lift 0 h0⟩
  | succ f ih =>
    have h1 : ∀ key st, key ∈ dkeys d → FInv d Any st → st.visiting.Nodup → (∀ v ∈ st.visiting, v ∈ dkeys d) →
      d.length + 1 ≤ (f+1) + st.visiting.length → 1 ≤ f+1 → resolve d (f+1) key st ≠ none := by
      intro key st hkey hi hn hv hl _
      simp only [resolve]
      split
      · simp
      · rename_i hnf
        split
        · simp
        · rename_i hnv
          have hi' : FInv d Any { st with visiting := key :: st.visiting } :=
            ⟨by intro k hk; rcases List.mem_cons.mp hk with rfl | hk
                · exact hnf
                · exact hi.disj k hk, hi.topo, hi.val⟩
          have hn' : (key :: st.visiting).Nodup := List.nodup_cons.mpr ⟨hnv, hn⟩
          have hv' : ∀ v ∈ key :: st.visiting, v ∈ dkeys d := by
            intro v h; rcases List.mem_cons.mp h with rfl | h
            · exact hkey
            · exact hv v h
          have hlen : (key :: st.visiting).length ≤ d.length := by
            have h := hn'.length_le_of_subset hv'
            simpa [dkeys] using h
          simp only [List.length_cons] at hlen
          have := ih.2 (flatDeps d key) { st with visiting := key :: st.visiting }
            (fun k hk => (mem_flatDeps.mp hk).2.1) hi' hn' hv' (by simp; omega) (by omega)
          cases hr : resolveLoop (resolve d f) (flatDeps d key) { st with visiting := key :: st.visiting } with
          | none => exact absurd hr this
          | some o => cases o <;> simp
    exact ⟨h1, lift _ h1⟩

theorem empty_inv (P) : FInv d P {} := ⟨by simp, by intro l1 k v l2 h; simp at h, by simp⟩

theorem flatten_total : flattenSubs d ≠ none := by
  unfold flattenSubs
  have := (resolve_fuel d (d.length + 1)).2 (dkeys d) {} (fun _ h => h) (empty_inv d _) (by simp) (by simp)
    (by simp) (by omega)
  cases h : resolveLoop (resolve d (d.length + 1)) (dkeys d) {} with
  | none => exact absurd h this
  | some _ => simp

theorem flatten_ok {d : List (Sym × SExpr)} {flat} (h : flattenSubs d = some (some flat)) (P) (hP : Inherits d P) :
    ∃ st : FlatSt, st.flat = flat ∧ FInv d P st ∧ ∀ k ∈ dkeys d, k ∈ dkeys flat := by
  unfold flattenSubs at h
  cases hr : resolveLoop (resolve d (d.length + 1)) (dkeys d) {} with
  | none => simp [hr] at h
  | some o =>
    cases o with
    | none => simp [hr] at h
    | some st =>
      simp [hr] at h
      obtain ⟨p, m⟩ := (resolve_ok d P hP (d.length + 1)).2 _ _ _ (fun _ h => h) (empty_inv d P) hr
      exact ⟨st, h, p.inv, by rw [← h]; exact m⟩

theorem subsSeq_same_value {K} (V : Valuation K) (t : Int) (e : SExpr) (l : List (Sym × SExpr))
    (h : ∀ p ∈ l, p.2.at V t = V.symAt t p.1) : (e.subsSeq l).at V t = e.at V t := by
  unfold SExpr.subsSeq
  induction l generalizing e with
  | nil => rfl
  | cons p l ih =>
    rw [List.foldl_cons, ih _ fun q hq => h q (List.mem_cons_of_mem _ hq)]
    refine replace_at V V t t e _ ⟨rfl, rfl, rfl, rfl, rfl, rfl⟩ ?_
    intro s _
    split
    · rename_i hs; rw [hs]; exact h p (List.mem_cons_self ..)
    · rfl

theorem syms_subsSeq (e : SExpr) (l : List (Sym × SExpr)) (s : Sym)
    (hs : s ∈ (e.subsSeq l).syms) : (s ∈ e.syms ∧ s ∉ l.map Prod.fst) ∨ ∃ p ∈ l, s ∈ p.2.syms := by
  unfold SExpr.subsSeq at hs
  suffices H : ∀ (l' : List (Sym × SExpr)) (e : SExpr), (∀ p ∈ l', p ∈ l) →
      s ∈ (l'.foldl (fun e p => e.subs1 p.1 p.2) e).syms →
      (s ∈ e.syms ∧ s ∉ l'.map Prod.fst) ∨ ∃ p ∈ l, s ∈ p.2.syms from H l e (fun _ h => h) hs
  intro l'
  induction l' with
  | nil => intro e _ h; exact Or.inl ⟨h, by simp⟩
  | cons p l' ih =>
    intro e hsub h
    rw [List.foldl_cons] at h
    rcases ih _ (fun q hq => hsub q (List.mem_cons_of_mem _ hq)) h with ⟨h1, h2⟩ | h1
    · rw [SExpr.subs1, syms_replace] at h1
      obtain ⟨q, hq, h1⟩ := h1
      split at h1
      · exact Or.inr ⟨p, hsub p (List.mem_cons_self ..), h1⟩
      · simp only [SExpr.syms, List.mem_singleton] at h1
        subst h1
        refine Or.inl ⟨hq, ?_⟩
        simp only [List.map_cons, List.mem_cons, not_or]
        exact ⟨by assumption, h2⟩
    · exact Or.inr h1

/-! ## C15 -/

/-- **C15** the ValueError is raised exactly when some definition depends on itself through others. -/
theorem C15_cycle_iff : flattenSubs d = some none ↔ Circular d := by
  constructor
  · intro h
    unfold flattenSubs at h
    cases hr : resolveLoop (resolve d (d.length + 1)) (dkeys d) {} with
    | none => simp [hr] at h
    | some o =>
      cases o with
      | some st => simp [hr] at h
      | none => exact (resolve_err d _).2 _ _ (fun _ h => h) (empty_inv d _) (by simp) hr
  · intro hc
    cases h : flattenSubs d with
    | none => exact absurd h (flatten_total d)
    | some o =>
      cases o with
      | none => rfl
      | some flat =>
        exfalso
        obtain ⟨st, hst, hi, hall⟩ := flatten_ok h Any (any_inherits d)
        -- a key's dependencies come strictly earlier in `flat`
        have step : ∀ l1 k v l2, flat = l1 ++ (k, v) :: l2 → ∀ j, DependsOn d k j → j ∈ dkeys l1 := by
          intro l1 k v l2 h1 j hj
          exact (hi.topo l1 k v l2 (hst.trans h1)).1 j (mem_flatDeps.mpr hj)
        have reach : ∀ k j, Relation.TransGen (DependsOn d) k j → ∀ l1 v l2, flat = l1 ++ (k, v) :: l2 → j ∈ dkeys l1 := by
          intro k j hr
          induction hr with
          | single h1 => intro l1 v l2 h2; exact step l1 k v l2 h2 _ h1
          | tail _ h1 ih =>
            intro l1 v l2 h2
            have := ih l1 v l2 h2
            simp only [dkeys, List.mem_map] at this
            obtain ⟨⟨b', w⟩, hb, rfl⟩ := this
            obtain ⟨m1, m2, rfl⟩ := List.append_of_mem hb
            have := step m1 b' w (m2 ++ (k, v) :: l2) (by rw [h2]; simp) _ h1
            simp only [dkeys, List.map_append, List.mem_append]
            exact Or.inl this
        obtain ⟨k, hk⟩ := hc
        have hkd : k ∈ dkeys d := by
          have : ∀ a b, Relation.TransGen (DependsOn d) a b → b ∈ dkeys d := by
            intro a b h; cases h with
            | single h => exact h.2.1
            | tail _ h => exact h.2.1
          exact this k k hk
        have hkf := hall k hkd
        simp only [dkeys, List.mem_map] at hkf
        obtain ⟨⟨k', v⟩, hm, rfl⟩ := hkf
        obtain ⟨m1, m2, he⟩ := List.append_of_mem hm
        exact (hi.topo m1 k' v m2 (hst.trans he)).2.1 (reach _ _ hk m1 v m2 he)

/-- **C15** the result has exactly the given keys, each once. -/
theorem C15_keys {flat} (h : flattenSubs d = some (some flat)) :
    (dkeys flat).Nodup ∧ ∀ k, k ∈ dkeys flat ↔ k ∈ dkeys d := by
  obtain ⟨st, hst, hi, hall⟩ := flatten_ok h Any (any_inherits d)
  have key : ∀ l1 k v l2, flat = l1 ++ (k, v) :: l2 → k ∉ dkeys l1 ∧ k ∈ dkeys d := fun l1 k v l2 h1 =>
    (hi.topo l1 k v l2 (hst.trans h1)).2
  constructor
  · clear hi hall hst st h
    have : ∀ (l pre : List (Sym × SExpr)), flat = pre ++ l → (dkeys pre).Nodup → (dkeys (pre ++ l)).Nodup := by
      intro l
      induction l with
      | nil => intro pre _ hn; simpa using hn
      | cons p l ih =>
        intro pre h1 hn
        have h2 := (key pre p.1 p.2 l h1).1
        have := ih (pre ++ [p]) (by rw [h1]; simp) (by
          simp only [dkeys, List.map_append, List.map_cons, List.map_nil]
          rw [List.nodup_append]
          refine ⟨hn, by simp, ?_⟩
          intro a ha b hb
          simp at hb; subst hb
          rintro rfl; exact h2 ha)
        simpa using this
    simpa using this flat [] rfl (by simp [dkeys])
  · intro k
    refine ⟨?_, hall k⟩
    intro hk
    simp only [dkeys, List.mem_map] at hk
    obtain ⟨⟨k', v⟩, hm, rfl⟩ := hk
    obtain ⟨m1, m2, he⟩ := List.append_of_mem hm
    exact (key m1 k' v m2 he).2

/-- **C15** every flattened value equals the defined symbol under every valuation that satisfies the definitions. -/
theorem C15_same_values {flat} (h : flattenSubs d = some (some flat)) {K} (V : Valuation K) (t : Int)
    (hV : Satisfies d V t) (k : Sym) (v : SExpr) (hk : (k, v) ∈ flat) : v.at V t = V.symAt t k := by
  obtain ⟨st, hst, hi, _⟩ := flatten_ok h (fun k v => v.at V t = V.symAt t k) (by
    intro k g hk hg
    have : ∃ v, dget d k = some v := Option.isSome_iff_exists.mp ((dget_isSome d k).mpr hk)
    obtain ⟨v, hv⟩ := this
    simp only [hv, Option.getD_some]
    rw [subsSeq_same_value, hV k v hv]
    intro p hp
    simp only [List.mem_map] at hp
    obtain ⟨j, hj, rfl⟩ := hp
    exact hg j hj)
  exact hi.val k v (by rw [hst]; exact hk)

/-- **C15 (partial)** when no definition mentions its own symbol, no flattened value mentions any defined symbol. -/
theorem C15_resolved_partial {flat} (h : flattenSubs d = some (some flat))
    (hself : ∀ k v, dget d k = some v → k ∉ v.syms) (k : Sym) (v : SExpr) (hk : (k, v) ∈ flat) :
    ∀ s ∈ v.syms, s ∉ dkeys d := by
  obtain ⟨st, hst, hi, _⟩ := flatten_ok h (fun _ v => ∀ s ∈ v.syms, s ∉ dkeys d) (by
    intro k g hk hg s hs
    have : ∃ v, dget d k = some v := Option.isSome_iff_exists.mp ((dget_isSome d k).mpr hk)
    obtain ⟨v, hv⟩ := this
    simp only [hv, Option.getD_some] at hs
    have hl : (flatDeps d k).map (Prod.fst ∘ fun j => (j, g j)) = flatDeps d k := by
      simp [Function.comp_def]
    rcases syms_subsSeq v _ s hs with ⟨h1, h2⟩ | ⟨p, hp, h1⟩
    · rw [List.map_map, hl] at h2
      intro hsd
      apply h2
      rw [mem_flatDeps]
      exact ⟨by rintro rfl; exact hself _ v hv h1, hsd, v, hv, h1⟩
    · simp only [List.mem_map] at hp
      obtain ⟨j, hj, rfl⟩ := hp
      exact hg j hj s h1)
  exact hi.val k v (by rw [hst]; exact hk)

/-- **C15 is false with a self-referring definition** `a = a + 1, b = a`: it is accepted, and the flattened value of `b` still
mentions the defined symbol `a`, although the docstring promises that values reference no other keys. -/
theorem C15_self_reference_violated (a b : Str) (hab : a ≠ b) :
    let d : List (Sym × SExpr) := [(.par a, .add (.sym (.par a)) (.num 1)), (.par b, .sym (.par a))]
    ∃ flat v, flattenSubs d = some (some flat) ∧ (Sym.par b, v) ∈ flat ∧ Sym.par a ∈ v.syms ∧ Sym.par a ∈ dkeys d := by
  have hba : b ≠ a := fun h => hab h.symm
  refine ⟨[(.par a, .add (.sym (.par a)) (.num 1)), (.par b, .add (.sym (.par a)) (.num 1))], _, ?_,
    List.mem_cons_of_mem _ (List.mem_singleton.mpr rfl), by simp [SExpr.syms], by simp [dkeys]⟩
  simp [flattenSubs, resolveLoop, resolve, dkeys, flatDeps, dget, dset, SExpr.syms, hab, hba, List.eraseDups_cons,
    SExpr.subsSeq, SExpr.subs1, SExpr.replace]

/-- non-vacuity: a chain of three definitions, and a two-cycle -/
example : flattenSubs [(.par ['c'], .mul (.sym (.par ['b'])) (.num 2)), (.par ['b'], .add (.sym (.par ['a'])) (.sym (.par ['x']))),
    (.par ['a'], .num 3)] = some (some [(.par ['a'], .num 3), (.par ['b'], .add (.num 3) (.sym (.par ['x']))),
      (.par ['c'], .mul (.add (.num 3) (.sym (.par ['x']))) (.num 2))]) := by
  simp [flattenSubs, resolveLoop, resolve, dkeys, flatDeps, dget, dset, SExpr.syms, List.eraseDups_cons,
    SExpr.subsSeq, SExpr.subs1, SExpr.replace]

example : Circular [(.par ['a'], .sym (.par ['b'])), (.par ['b'], .sym (.par ['a']))] :=
  ⟨.par ['a'], .tail (.single (b := .par ['b']) ⟨by decide, by decide, _, rfl, by decide⟩)
    ⟨by decide, by decide, _, rfl, by decide⟩⟩

end GE
