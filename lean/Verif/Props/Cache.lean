import Verif.Model.Cache
/-! # C90: memoisation never changes a result -/

namespace GE

namespace Mem

variable {κ ν : Type} [DecidableEq κ]

theorem eraseDups_filter (l : List κ) (k : κ) : (l.eraseDups).filter (fun x => decide (x ≠ k)) = (l.filter fun x => decide (x ≠ k)).eraseDups := by
  induction hn : l.length using Nat.strong_induction_on generalizing l with
  | _ n ih =>
    cases l with
    | nil => rfl
    | cons a l =>
      have hl : ∀ p : κ → Bool, (l.filter p).length < n := fun p => by
        have := List.length_filter_le p l
        simp only [List.length_cons] at hn; omega
      rw [List.eraseDups_cons]
      by_cases hak : a = k
      · subst hak
        rw [List.filter_cons_of_neg (by simp), List.filter_cons_of_neg (by simp), ih _ (hl _) _ rfl, List.filter_filter]
        congr 1
        apply List.filter_congr
        intro x _
        by_cases h : x = a <;> simp [h]
      · rw [List.filter_cons_of_pos (by simpa using hak), List.filter_cons_of_pos (by simpa using hak), List.eraseDups_cons, ih _ (hl _) _ rfl, List.filter_filter,
          List.filter_filter]
        congr 2
        apply List.filter_congr
        intro x _
        rw [Bool.and_comm]

theorem nodup_eraseDups (l : List κ) : l.eraseDups.Nodup := by
  induction hn : l.length using Nat.strong_induction_on generalizing l with
  | _ n ih =>
    cases l with
    | nil => simp
    | cons a l =>
      rw [List.eraseDups_cons, List.nodup_cons]
      refine ⟨?_, ih _ ?_ _ rfl⟩
      · rw [List.mem_eraseDups]; simp
      · have := List.length_filter_le (fun b => !b == a) l
        simp only [List.length_cons] at hn; omega

theorem take_filter_mem (k : κ) : ∀ (E : List κ) (c : ℕ), E.Nodup → k ∈ E.take (c + 1) →
    (E.take (c + 1)).filter (fun x => decide (x ≠ k)) = (E.filter fun x => decide (x ≠ k)).take c := by
  intro E
  induction E with
  | nil => intro c _ h; simp at h
  | cons a E ih =>
    intro c hn h
    rw [List.nodup_cons] at hn
    rw [List.take_succ_cons]
    by_cases hak : a = k
    · subst hak
      have h1 : ∀ l : List κ, a ∉ l → l.filter (fun x => decide (x ≠ a)) = l := fun l hl =>
        List.filter_eq_self.2 fun x hx => by simp; rintro rfl; exact hl hx
      rw [List.filter_cons_of_neg (by simp), List.filter_cons_of_neg (by simp), h1 _ (fun h => hn.1 (List.mem_of_mem_take h)), h1 _ hn.1]
    · rw [List.filter_cons_of_pos (by simpa using hak), List.filter_cons_of_pos (by simpa using hak)]
      rw [List.take_succ_cons] at h
      have hk : k ∈ E.take c := by
        rcases List.mem_cons.1 h with h | h
        · exact absurd h.symm hak
        · exact h
      cases c with
      | zero => simp at hk
      | succ c => rw [List.take_succ_cons, ih c hn.2 hk]

theorem take_filter_not (k : κ) : ∀ (E : List κ) (c : ℕ), k ∉ E.take c → (E.filter fun x => decide (x ≠ k)).take c = E.take c ∨ k ∈ E := by
  intro E c _
  by_cases h : k ∈ E
  · exact Or.inr h
  · left
    rw [List.filter_eq_self.2 fun x hx => by simp; rintro rfl; exact h hx]

theorem take_filter_miss (k : κ) : ∀ (E : List κ) (c : ℕ), k ∉ E.take c → (E.filter fun x => decide (x ≠ k)).take c = E.take c := by
  intro E
  induction E with
  | nil => intros; rfl
  | cons a E ih =>
    intro c h
    cases c with
    | zero => simp
    | succ c =>
      rw [List.take_succ_cons, List.mem_cons, not_or] at h
      rw [List.filter_cons_of_pos (by simpa using Ne.symm h.1), List.take_succ_cons, List.take_succ_cons, ih c h.2]

/-- the cached values are right -/
def Good (compute : κ → ν) (s : Lru κ ν) : Prop := ∀ e ∈ s.entries, e.2 = compute e.1

theorem call_good (cap : ℕ) (compute : κ → ν) (s : Lru κ ν) (h : Good compute s) (k : κ) : (s.call cap compute k).1 = compute k ∧ Good compute (s.call cap compute k).2 := by
  unfold Lru.call
  cases hd : dget s.entries k with
  | some v =>
    have hv : v = compute k := h _ (mem_of_dget _ _ _ hd)
    refine ⟨hv, fun e he => ?_⟩
    rcases List.mem_cons.1 he with rfl | he
    · exact hv
    · exact h e (List.mem_of_mem_filter he)
  | none =>
    refine ⟨rfl, fun e he => ?_⟩
    rcases List.mem_cons.1 (List.mem_of_mem_take he) with rfl | he
    · rfl
    · exact h e he

theorem dkeys_filter (l : List (κ × ν)) (k : κ) : dkeys (l.filter fun e => decide (e.1 ≠ k)) = (dkeys l).filter fun x => decide (x ≠ k) := by
  unfold dkeys
  rw [List.filter_map]
  rfl

/-- the keys after one more call -/
theorem call_keys (cap : ℕ) (compute : κ → ν) (s : Lru κ ν) (hist : List κ) (hs : dkeys s.entries = hist.eraseDups.take (cap + 1)) (k : κ) :
    dkeys (s.call (cap + 1) compute k).2.entries = ((k :: hist).eraseDups).take (cap + 1) ∧
      ((s.call (cap + 1) compute k).2.hits = s.hits + (if k ∈ hist.eraseDups.take (cap + 1) then 1 else 0)) ∧
      (s.call (cap + 1) compute k).2.hits + (s.call (cap + 1) compute k).2.misses = s.hits + s.misses + 1 := by
  have hcons : (k :: hist).eraseDups = k :: (hist.eraseDups.filter fun x => decide (x ≠ k)) := by
    rw [List.eraseDups_cons, eraseDups_filter]
    congr 2
    apply List.filter_congr
    intro x _
    by_cases h : x = k <;> simp [h]
  unfold Lru.call
  cases hd : dget s.entries k with
  | some v =>
    have hk : k ∈ hist.eraseDups.take (cap + 1) := by
      rw [← hs]
      by_contra hc
      rw [← dget_eq_none] at hc
      rw [hc] at hd; cases hd
    refine ⟨?_, by simp [hk], by simp; omega⟩
    rw [hcons, List.take_succ_cons]
    change k :: dkeys (s.entries.filter _) = _
    rw [dkeys_filter, hs, take_filter_mem k _ cap (nodup_eraseDups hist) hk]
  | none =>
    have hk : k ∉ hist.eraseDups.take (cap + 1) := by
      rw [← hs]
      exact (dget_eq_none _ _).1 hd
    refine ⟨?_, by simp [hk], by simp; omega⟩
    rw [hcons, List.take_succ_cons]
    simp only [dkeys, List.take_succ_cons, List.map_cons]
    congr 1
    rw [List.map_take]
    change (dkeys s.entries).take cap = _
    have hk' : k ∉ hist.eraseDups.take cap := fun h => hk (by
      have := List.take_sublist_take_left (l := hist.eraseDups) (show cap ≤ cap + 1 by omega)
      exact this.subset h)
    rw [hs, List.take_take, take_filter_miss k _ cap hk', min_eq_left (by omega)]

end Mem

/-- the keys compiled by a program, in order -/
def LruOp.calls {κ : Type} (ops : List (LruOp κ)) : List κ :=
  ops.filterMap fun o => match o with
    | .call k => some k
    | .clear => none

/-- **C90.** Whatever the size of the cache and whatever was compiled and cleared before, each compilation returns what compiling anew would return. -/
theorem C90_compile_transparent {κ ν : Type} [DecidableEq κ] (cap : ℕ) (compute : κ → ν) (ops : List (LruOp κ)) :
    (Lru.run cap compute Lru.empty ops).1 = (LruOp.calls ops).map compute := by
  have key : ∀ (ops : List (LruOp κ)) (s : Lru κ ν), Mem.Good compute s → (Lru.run cap compute s ops).1 = (LruOp.calls ops).map compute := by
    intro ops
    induction ops with
    | nil => intro s _; rfl
    | cons op ops ih =>
      intro s hs
      cases op with
      | call k =>
        obtain ⟨h1, h2⟩ := Mem.call_good cap compute s hs k
        unfold Lru.run
        simp only [LruOp.calls, List.filterMap_cons, List.map_cons]
        rw [h1, ih _ h2]
        rfl
      | clear =>
        unfold Lru.run
        exact ih _ (fun e he => by simp [Lru.empty] at he)
  exact key ops _ (fun e he => by simp [Lru.empty] at he)

/-- **C90.** The cache holds exactly the most recently used compilations, at most `maxsize` of them: after compiling `ks` (oldest first) its keys are the first
`cap` distinct elements of `ks` read backwards. Hence a graph is recompiled exactly when it is new or `cap` others were used since. The counters add
up to the number of calls. -/
theorem C90_lru {κ ν : Type} [DecidableEq κ] (cap : ℕ) (compute : κ → ν) (ks : List κ) :
    let s := (Lru.run (cap + 1) compute Lru.empty (ks.map .call)).2
    s.entries.map Prod.fst = (ks.reverse.eraseDups).take (cap + 1) ∧ s.entries.length ≤ cap + 1 ∧ s.hits + s.misses = ks.length ∧
      ∀ k, (s.call (cap + 1) compute k).2.misses = s.misses ↔ k ∈ (ks.reverse.eraseDups).take (cap + 1) := by
  have key : ∀ (ks : List κ) (hist : List κ) (s : Lru κ ν), dkeys s.entries = hist.eraseDups.take (cap + 1) →
      let r := (Lru.run (cap + 1) compute s (ks.map .call)).2
      dkeys r.entries = ((ks.reverse ++ hist).eraseDups).take (cap + 1) ∧ r.hits + r.misses = s.hits + s.misses + ks.length := by
    intro ks
    induction ks with
    | nil => intro hist s hs; exact ⟨by simpa [Lru.run] using hs, rfl⟩
    | cons k ks ih =>
      intro hist s hs
      obtain ⟨h1, -, h3⟩ := Mem.call_keys cap compute s hist hs k
      obtain ⟨h4, h5⟩ := ih (k :: hist) _ h1
      simp only [List.map_cons, Lru.run]
      refine ⟨?_, ?_⟩
      · rw [h4]; simp
      · rw [h5, h3, List.length_cons]; omega
  obtain ⟨h1, h2⟩ := key ks [] Lru.empty rfl
  rw [List.append_nil] at h1
  intro s
  have h1' : s.entries.map Prod.fst = (ks.reverse.eraseDups).take (cap + 1) := h1
  refine ⟨h1', ?_, (show s.hits + s.misses = ks.length from h2.trans (by simp [Lru.empty])), fun k => ?_⟩
  · have := congrArg List.length h1'
    rw [List.length_map, List.length_take] at this
    omega
  · obtain ⟨-, h4, h5⟩ := Mem.call_keys cap compute s ks.reverse h1 k
    by_cases hk : k ∈ ks.reverse.eraseDups.take (cap + 1)
    · rw [if_pos hk] at h4
      exact ⟨fun _ => hk, fun _ => by omega⟩
    · rw [if_neg hk] at h4
      exact ⟨fun h => by omega, fun h => absurd h hk⟩

namespace Mem

theorem sublist_filter {α : Type} [DecidableEq α] {l vars : List α} (h : l.Sublist vars) (hn : vars.Nodup) : l = vars.filter fun x => decide (x ∈ l) := by
  induction h with
  | slnil => rfl
  | @cons l vars a h ih =>
    rw [List.nodup_cons] at hn
    have ha : a ∉ l := fun hc => hn.1 (h.subset hc)
    rw [List.filter_cons_of_neg (by simpa using ha)]
    exact ih hn.2
  | @cons_cons l vars a h ih =>
    rw [List.nodup_cons] at hn
    rw [List.filter_cons_of_pos (by simp)]
    congr 1
    conv_lhs => rw [ih hn.2]
    apply List.filter_congr
    intro x hx
    have : x ≠ a := by rintro rfl; exact hn.1 hx
    simp [this]

theorem selected_sublist (vars : List Str) (fl : List Bool) : (loglinSelected vars fl).Sublist vars := by
  unfold loglinSelected
  have h1 : (((vars.zip fl).filter fun p => !p.2).map Prod.fst).Sublist ((vars.zip fl).map Prod.fst) := List.filter_sublist.map _
  refine h1.trans ?_
  clear h1
  induction vars generalizing fl with
  | nil => simp
  | cons v vars ih =>
    cases fl with
    | nil => simp
    | cons b fl => simpa using ih fl

theorem selected_eq {vars : List Str} (hn : vars.Nodup) {fl fl' : List Bool} (h : (loglinSelected vars fl).toFinset = (loglinSelected vars fl').toFinset) :
    loglinSelected vars fl = loglinSelected vars fl' := by
  rw [sublist_filter (selected_sublist vars fl) hn, sublist_filter (selected_sublist vars fl') hn]
  apply List.filter_congr
  intro x _
  have := congrArg (x ∈ ·) h
  simp only [List.mem_toFinset, eq_iff_iff] at this
  simp [this]

variable {G F E : Type}

/-- the invariant of a model's caches -/
structure Inv (vars : List Str) (build : List Str → G) (compile : G → F) (buildEqs : Bool → E) (s : ModelCache G F E) : Prop where
  nodeKeys : (dkeys s.nodes).Nodup
  nodeIds : (s.nodes.map Prod.snd).Nodup
  nodeLt : ∀ p ∈ s.nodes, p.2 < s.next
  symVal : ∀ p ∈ s.sym, ∀ fl, (loglinSelected vars fl).toFinset = p.1 → p.2.2 = build (loglinSelected vars fl)
  symLt : ∀ p ∈ s.sym, p.2.1 < s.next
  symIds : ∀ p ∈ s.sym, ∀ q ∈ s.sym, p.2.1 = q.2.1 → p = q
  lin : ∀ p ∈ s.lin, ∃ q ∈ s.sym, q.2.1 = p.1 ∧ p.2 = compile q.2.2
  eqs : ∀ e, s.eqs = some e → e = buildEqs true
  fullEqs : ∀ e, s.fullEqs = some e → e = buildEqs false

variable {vars : List Str} {build : List Str → G} {compile : G → F} {buildEqs : Bool → E}

theorem dget_append_some {κ ν : Type} [DecidableEq κ] (a b : List (κ × ν)) (k : κ) (v : ν) (h : dget a k = some v) : dget (a ++ b) k = some v := by
  induction a with
  | nil => simp [dget] at h
  | cons p a ih =>
    simp only [dget, List.cons_append] at h ⊢
    split
    · rename_i hp; rw [if_pos hp] at h; exact h
    · rename_i hp; rw [if_neg hp] at h; exact ih h

theorem dget_append_new {κ ν : Type} [DecidableEq κ] (a : List (κ × ν)) (k : κ) (v : ν) (h : dget a k = none) : dget (a ++ [(k, v)]) k = some v := by
  induction a with
  | nil => simp [dget]
  | cons p a ih =>
    simp only [dget, List.cons_append] at h ⊢
    split
    · rename_i hp; rw [if_pos hp] at h; cases h
    · rename_i hp; rw [if_neg hp] at h; exact ih h

theorem inv_node {s : ModelCache G F E} (h : Inv vars build compile buildEqs s) (k : Str × Bool) :
    Inv vars build compile buildEqs (nodeOf s k).2 ∧ dget (nodeOf s k).2.nodes k = some (nodeOf s k).1 ∧
      ∀ k' i, dget s.nodes k' = some i → dget (nodeOf s k).2.nodes k' = some i := by
  unfold nodeOf
  cases hd : dget s.nodes k with
  | some i => exact ⟨h, hd, fun _ _ h => h⟩
  | none =>
    refine ⟨⟨?_, ?_, ?_, h.symVal, ?_, h.symIds, h.lin, h.eqs, h.fullEqs⟩, dget_append_new _ _ _ hd, fun _ _ h => dget_append_some _ _ _ _ h⟩
    · have := (dget_eq_none _ _).1 hd
      simp only [dkeys, List.map_append, List.map_cons, List.map_nil]
      rw [List.nodup_append]
      exact ⟨h.nodeKeys, by simp, fun a ha b hb => by simp at hb; subst hb; rintro rfl; exact this ha⟩
    · simp only [List.map_append, List.map_cons, List.map_nil]
      rw [List.nodup_append]
      refine ⟨h.nodeIds, by simp, fun a ha b hb => ?_⟩
      simp at hb; subst hb; rintro rfl
      obtain ⟨p, hp, hpe⟩ := List.mem_map.1 ha
      have := h.nodeLt p hp
      omega
    · intro p hp
      rcases List.mem_append.1 hp with hp | hp
      · exact Nat.lt_succ_of_lt (h.nodeLt p hp)
      · simp at hp; subst hp; exact Nat.lt_succ_self _
    · intro p hp; exact Nat.lt_succ_of_lt (h.symLt p hp)

theorem inv_nodes : ∀ (ks : List (Str × Bool)) {s : ModelCache G F E}, Inv vars build compile buildEqs s →
    Inv vars build compile buildEqs (nodesOf s ks).2 ∧ (∀ k' i, dget s.nodes k' = some i → dget (nodesOf s ks).2.nodes k' = some i) ∧
      ks.map (fun k => dget (nodesOf s ks).2.nodes k) = (nodesOf s ks).1.map some := by
  intro ks
  induction ks with
  | nil => intro s h; exact ⟨h, fun _ _ h => h, rfl⟩
  | cons k ks ih =>
    intro s h
    obtain ⟨h1, h2, h3⟩ := inv_node h k
    obtain ⟨h4, h5, h6⟩ := ih h1
    refine ⟨h4, fun k' i hk => h5 _ _ (h3 _ _ hk), ?_⟩
    simp only [nodesOf, List.map_cons]
    rw [h5 _ _ h2, h6]

theorem inv_eqs {s : ModelCache G F E} (h : Inv vars build compile buildEqs s) (b : Bool) :
    Inv vars build compile buildEqs (equationTensors buildEqs s b).2 ∧ (equationTensors buildEqs s b).1 = buildEqs b ∧
      (equationTensors buildEqs s b).2.nodes = s.nodes := by
  unfold equationTensors
  cases b with
  | true =>
    simp only [if_true]
    cases he : s.eqs with
    | some e => exact ⟨h, h.eqs e he, rfl⟩
    | none => exact ⟨⟨h.nodeKeys, h.nodeIds, h.nodeLt, h.symVal, h.symLt, h.symIds, h.lin, fun e h' => by cases h'; rfl, h.fullEqs⟩, rfl, rfl⟩
  | false =>
    simp only [Bool.false_eq_true, if_false]
    cases he : s.fullEqs with
    | some e => exact ⟨h, h.fullEqs e he, rfl⟩
    | none => exact ⟨⟨h.nodeKeys, h.nodeIds, h.nodeLt, h.symVal, h.symLt, h.symIds, h.lin, h.eqs, fun e h' => by cases h'; rfl⟩, rfl, rfl⟩

theorem inv_sym (hn : vars.Nodup) {s : ModelCache G F E} (h : Inv vars build compile buildEqs s) (fl : List Bool) :
    Inv vars build compile buildEqs (symbolicLinearization vars build s fl).2 ∧ (symbolicLinearization vars build s fl).1.2 = build (loglinSelected vars fl) ∧
      (symbolicLinearization vars build s fl).2.nodes = s.nodes ∧
      ((loglinSelected vars fl).toFinset, (symbolicLinearization vars build s fl).1) ∈ (symbolicLinearization vars build s fl).2.sym := by
  unfold symbolicLinearization
  dsimp only
  cases hd : dget s.sym (loglinSelected vars fl).toFinset with
  | some g =>
    have := mem_of_dget _ _ _ hd
    exact ⟨h, h.symVal _ this fl rfl, rfl, this⟩
  | none =>
    refine ⟨⟨h.nodeKeys, h.nodeIds, fun p hp => Nat.lt_succ_of_lt (h.nodeLt p hp), ?_, ?_, ?_, ?_, h.eqs, h.fullEqs⟩, rfl, rfl, by simp⟩
    · intro p hp fl' hfl
      rcases List.mem_append.1 hp with hp | hp
      · exact h.symVal p hp fl' hfl
      · simp at hp; subst hp
        exact congrArg build (selected_eq hn hfl.symm)
    · intro p hp
      rcases List.mem_append.1 hp with hp | hp
      · exact Nat.lt_succ_of_lt (h.symLt p hp)
      · simp at hp; subst hp; exact Nat.lt_succ_self _
    · intro p hp q hq he
      rcases List.mem_append.1 hp with hp | hp <;> rcases List.mem_append.1 hq with hq | hq
      · exact h.symIds p hp q hq he
      · simp at hq; subst hq; have := h.symLt p hp; simp only at he; omega
      · simp at hp; subst hp; have := h.symLt q hq; simp only at he; omega
      · simp at hp hq; subst hp hq; rfl
    · intro p hp
      obtain ⟨q, hq, h1⟩ := h.lin p hp
      exact ⟨q, List.mem_append.2 (Or.inl hq), h1⟩

theorem inv_lin (hn : vars.Nodup) {s : ModelCache G F E} (h : Inv vars build compile buildEqs s) (fl : List Bool) :
    Inv vars build compile buildEqs (linearizeFunction vars build compile s fl).2 ∧
      (linearizeFunction vars build compile s fl).1 = compile (build (loglinSelected vars fl)) ∧ (linearizeFunction vars build compile s fl).2.nodes = s.nodes := by
  obtain ⟨h1, h2, h3, h4⟩ := inv_sym hn h fl
  unfold linearizeFunction
  dsimp only
  cases hd : dget (symbolicLinearization vars build s fl).2.lin (symbolicLinearization vars build s fl).1.1 with
  | some f =>
    obtain ⟨q, hq, e1, e2⟩ := h1.lin _ (mem_of_dget _ _ _ hd)
    have := h1.symIds _ hq _ h4 e1
    refine ⟨h1, ?_, h3⟩
    simp only at e2
    rw [e2, this, ← h2]
  | none =>
    refine ⟨⟨h1.nodeKeys, h1.nodeIds, h1.nodeLt, h1.symVal, h1.symLt, h1.symIds, ?_, h1.eqs, h1.fullEqs⟩, by rw [← h2], h3⟩
    intro p hp
    rcases List.mem_append.1 hp with hp | hp
    · exact h1.lin p hp
    · simp at hp; subst hp
      exact ⟨_, h4, rfl, rfl⟩

theorem init_inv : Inv vars build compile buildEqs (ModelCache.init : ModelCache G F E) := by
  constructor <;> simp [ModelCache.init, dkeys]

/-- what a call should return, when graph nodes are numbered by `ι` -/
def expected (vars : List Str) (build : List Str → G) (compile : G → F) (buildEqs : Bool → E) (ι : Str × Bool → ℕ) : ModelOp → ModelRes G F E
  | .nodes ks => .nodes (ks.map ι)
  | .equations b => .equations (buildEqs b)
  | .symbolic fl => .symbolic (build (loglinSelected vars fl))
  | .linearize fl => .linearize (compile (build (loglinSelected vars fl)))

end Mem

/-- **C90.** On one model, any sequence of requests — for graph nodes of symbols, for the equations with or without the known values, for symbolic or compiled
linearisations with any choice of variables kept in levels — is answered as a model without caches would answer, request by request; and the nodes handed
out identify symbols: equal symbols always get the same node, different ones different nodes. Variable names are assumed distinct. -/
theorem C90_history {G F E : Type} (vars : List Str) (hn : vars.Nodup) (build : List Str → G) (compile : G → F) (buildEqs : Bool → E) (ops : List ModelOp) :
    ∃ ι : Str × Bool → ℕ,
      (modelRun vars build compile buildEqs ModelCache.init ops).1 = ops.map (Mem.expected vars build compile buildEqs ι) ∧
      ∀ k k', (∃ ks, ModelOp.nodes ks ∈ ops ∧ k ∈ ks) → (∃ ks, ModelOp.nodes ks ∈ ops ∧ k' ∈ ks) → ι k = ι k' → k = k' := by
  have key : ∀ (ops : List ModelOp) (s : ModelCache G F E), Mem.Inv vars build compile buildEqs s →
      Mem.Inv vars build compile buildEqs (modelRun vars build compile buildEqs s ops).2 ∧
      (∀ k i, dget s.nodes k = some i → dget (modelRun vars build compile buildEqs s ops).2.nodes k = some i) ∧
      (modelRun vars build compile buildEqs s ops).1 =
        ops.map (Mem.expected vars build compile buildEqs fun k => (dget (modelRun vars build compile buildEqs s ops).2.nodes k).getD 0) ∧
      ∀ k, (∃ ks, ModelOp.nodes ks ∈ ops ∧ k ∈ ks) → ∃ i, dget (modelRun vars build compile buildEqs s ops).2.nodes k = some i := by
    intro ops
    induction ops with
    | nil => intro s h; exact ⟨h, fun _ _ h => h, rfl, fun k ⟨_, h, _⟩ => by simp at h⟩
    | cons op ops ih =>
      intro s h
      have hstep : Mem.Inv vars build compile buildEqs (modelStep vars build compile buildEqs s op).2 ∧
          (∀ k i, dget s.nodes k = some i → dget (modelStep vars build compile buildEqs s op).2.nodes k = some i) ∧
          (∀ ks, op = .nodes ks → ∃ ids, (modelStep vars build compile buildEqs s op).1 = .nodes ids ∧
            ks.map (fun k => dget (modelStep vars build compile buildEqs s op).2.nodes k) = ids.map some) ∧
          ((∀ ks, op ≠ .nodes ks) → ∀ ι, (modelStep vars build compile buildEqs s op).1 = Mem.expected vars build compile buildEqs ι op) := by
        cases op with
        | nodes ks =>
          obtain ⟨h1, h2, h3⟩ := Mem.inv_nodes ks h
          exact ⟨h1, h2, fun ks' e => by cases e; exact ⟨_, rfl, h3⟩, fun hc => absurd rfl (hc ks)⟩
        | equations b =>
          obtain ⟨h1, h2, h3⟩ := Mem.inv_eqs h b
          exact ⟨h1, (fun k i hk => by simp only [modelStep]; rw [h3]; exact hk), (fun _ e => by cases e), fun _ _ => by simp only [modelStep, Mem.expected, h2]⟩
        | symbolic fl =>
          obtain ⟨h1, h2, h3, -⟩ := Mem.inv_sym hn h fl
          exact ⟨h1, (fun k i hk => by simp only [modelStep]; rw [h3]; exact hk), (fun _ e => by cases e), fun _ _ => by simp only [modelStep, Mem.expected, h2]⟩
        | linearize fl =>
          obtain ⟨h1, h2, h3⟩ := Mem.inv_lin hn h fl
          exact ⟨h1, (fun k i hk => by simp only [modelStep]; rw [h3]; exact hk), (fun _ e => by cases e), fun _ _ => by simp only [modelStep, Mem.expected, h2]⟩
      obtain ⟨h1, h2, h3, h4⟩ := hstep
      obtain ⟨i1, i2, i3, i4⟩ := ih _ h1
      refine ⟨i1, fun k i hk => i2 _ _ (h2 _ _ hk), ?_, ?_⟩
      · simp only [modelRun, List.map_cons]
        congr 1
        by_cases hop : ∃ ks, op = .nodes ks
        · obtain ⟨ks, rfl⟩ := hop
          obtain ⟨ids, e1, e2⟩ := h3 ks rfl
          rw [e1]
          simp only [Mem.expected, ModelRes.nodes.injEq]
          have e3 : ∀ (ks : List (Str × Bool)) (ids : List ℕ),
              ks.map (fun k => dget (modelStep vars build compile buildEqs s (.nodes ks)).2.nodes k) = ids.map some → True := fun _ _ _ => trivial
          clear e3 e1 h3
          generalize (modelStep vars build compile buildEqs s (.nodes ks)).2 = s1 at *
          induction ks generalizing ids with
          | nil => cases ids <;> simp at e2 ⊢
          | cons k ks ihk =>
            cases ids with
            | nil => simp at e2
            | cons a ids =>
              simp only [List.map_cons, List.cons.injEq] at e2 ⊢
              refine ⟨?_, ihk (by intro hc; exact absurd rfl (hc ks)) ids e2.2⟩
              rw [i2 _ _ e2.1]; rfl
        · push Not at hop
          exact h4 hop _
      · rintro k ⟨ks, hk1, hk2⟩
        rcases List.mem_cons.1 hk1 with hk1 | hk1
        · obtain ⟨ids, -, e2⟩ := h3 ks hk1.symm
          have : dget (modelStep vars build compile buildEqs s op).2.nodes k ∈ ids.map some := by
            rw [← e2]; exact List.mem_map.2 ⟨k, hk2, rfl⟩
          obtain ⟨i, -, hi⟩ := List.mem_map.1 this
          exact ⟨i, i2 _ _ hi.symm⟩
        · exact i4 k ⟨ks, hk1, hk2⟩
  obtain ⟨h1, -, h3, h4⟩ := key ops _ Mem.init_inv
  refine ⟨_, h3, fun k k' hk hk' he => ?_⟩
  obtain ⟨i, hi⟩ := h4 k hk
  obtain ⟨j, hj⟩ := h4 k' hk'
  rw [hi, hj] at he
  simp only [Option.getD_some] at he
  subst he
  have := List.inj_on_of_nodup_map h1.nodeIds (mem_of_dget _ _ _ hi) (mem_of_dget _ _ _ hj) rfl
  exact (Prod.mk.inj this).1

/-- a history with a cache hit: the second linearisation keeps the same variable in levels -/
example : (modelRun (G := List Str) (F := List Str) (E := Bool) ["K".toList, "Y".toList] id id id ModelCache.init
      [.linearize [false, true], .symbolic [false, true], .nodes [("a".toList, true), ("a".toList, true)]]).1 =
    [.linearize ["K".toList], .symbolic ["K".toList], .nodes [1, 1]] := by rfl

end GE
