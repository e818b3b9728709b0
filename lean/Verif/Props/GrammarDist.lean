import Verif.Props.GrammarStmt
import Mathlib.Data.List.Induction
/-! # C107, priors and shocks -/

namespace GE.Gcn

/-! ### distributions as written -/

theorem optargs_sound {f ts as r} (h : pOptArgs f ts = some (as, r)) : ∃ w, ts = w ++ .rpar :: r ∧ IsOptArgs IsRawVal w as := by
  unfold pOptArgs at h
  split at h
  · simp only [Option.some.injEq, Prod.mk.injEq] at h
    obtain ⟨rfl, rfl⟩ := h
    exact ⟨[], rfl, .none⟩
  · split at h
    · rename_i hl
      simp only [Option.some.injEq, Prod.mk.injEq] at h
      obtain ⟨rfl, rfl⟩ := h
      obtain ⟨w, hw, hs⟩ := listed_sound arg_sound _ _ _ _ hl
      exact ⟨w, hw, .some hs⟩
    · simp at h

theorem args_ev {w as r} (h : Listed (IsArg IsRawVal) w as) : Ev (fun f => pListed pArg f (w ++ .rpar :: r)) (as, .rpar :: r) :=
  listed_full arg_full (by simp [okN]) _ _ _ h ⟨by simp [okN], by simp⟩

theorem args_head {V w as} (h : Listed (IsArg V) w as) : ∃ n r, w = .id n :: r := by
  cases h with
  | one h => cases h; exact ⟨_, _, rfl⟩
  | cons h _ => cases h; exact ⟨_, _, rfl⟩

theorem optargs_full {w as} (h : IsOptArgs IsRawVal w as) (r : List Tok) : Ev (fun f => pOptArgs f (w ++ .rpar :: r)) (as, r) := by
  cases h with
  | none => exact Ev.const fun _ => rfl
  | some hl =>
    refine (args_ev (r := r) hl).one fun f h1 => ?_
    obtain ⟨n, w', rfl⟩ := args_head hl
    rw [List.cons_append] at h1 ⊢
    unfold pOptArgs
    split
    · rename_i heq; cases heq
    · rw [h1]

theorem call_sound {f ts d as r} (h : pDistCall f ts = some ((d, as), r)) :
    ∃ w, ts = .id d :: .lpar :: (w ++ .rpar :: r) ∧ d ∈ dists ∧ IsOptArgs IsRawVal w as := by
  unfold pDistCall at h
  split at h
  · split at h
    · rename_i hd
      split at h
      · rename_i ho
        simp only [Option.some.injEq, Prod.mk.injEq] at h
        obtain ⟨⟨rfl, rfl⟩, rfl⟩ := h
        obtain ⟨w, hw, hs⟩ := optargs_sound ho
        exact ⟨w, by rw [hw], hd, hs⟩
      · simp at h
    · simp at h
  · simp at h

theorem call_full {w d as} (hd : d ∈ dists) (h : IsOptArgs IsRawVal w as) (r : List Tok) :
    Ev (fun f => pDistCall f (.id d :: .lpar :: (w ++ .rpar :: r))) ((d, as), r) := by
  refine (optargs_full h r).one fun f h1 => ?_
  rw [pDistCall, if_pos hd, h1]

theorem wrapargs_sound {f ts as r} (h : pWrapArgs f ts = some (as, r)) : ∃ w, ts = w ++ .rpar :: r ∧ IsWrapArgs IsRawVal w as := by
  unfold pWrapArgs at h
  split at h
  · simp only [Option.some.injEq, Prod.mk.injEq] at h
    obtain ⟨rfl, rfl⟩ := h
    exact ⟨[], rfl, .none⟩
  · split at h
    · rename_i hl
      simp only [Option.some.injEq, Prod.mk.injEq] at h
      obtain ⟨rfl, rfl⟩ := h
      obtain ⟨w, hw, hs⟩ := listed_sound arg_sound _ _ _ _ hl
      exact ⟨.comma :: w, by rw [hw]; rfl, .some hs⟩
    · simp at h
  · simp at h

theorem wrapargs_full {w as} (h : IsWrapArgs IsRawVal w as) (r : List Tok) : Ev (fun f => pWrapArgs f (w ++ .rpar :: r)) (as, r) := by
  cases h with
  | none => exact Ev.const fun _ => rfl
  | some hl =>
    refine (args_ev (r := r) hl).one fun f h1 => ?_
    rw [List.cons_append, pWrapArgs, h1]

theorem dist_sound : Sound pDistExpr (IsDist IsRawVal) := by
  intro f ts x r h
  unfold pDistExpr at h
  split at h
  · split at h
    · rename_i hw
      split at h
      · rename_i hc
        obtain ⟨w, hw1, hd, hs⟩ := call_sound hc
        split at h
        · rename_i ha
          simp only [Option.some.injEq, Prod.mk.injEq] at h
          obtain ⟨rfl, rfl⟩ := h
          obtain ⟨w2, hw2, hs2⟩ := wrapargs_sound ha
          exact ⟨_, by rw [hw1, hw2]; simp, .wrapped hw hd hs hs2⟩
        · simp at h
      · simp at h
    · split at h
      · rename_i hc
        simp only [Option.some.injEq, Prod.mk.injEq] at h
        obtain ⟨rfl, rfl⟩ := h
        obtain ⟨w, hw1, hd, hs⟩ := call_sound hc
        exact ⟨_, by rw [hw1]; simp, .plain hd hs⟩
      · simp at h
  · simp at h

theorem dist_not_wrapper : ∀ d ∈ dists, d ∉ wrappers := by decide +kernel

theorem dist_full : Full pDistExpr (IsDist IsRawVal) fun _ => True := by
  intro w x r h _
  cases h with
  | @plain d ts as hd ha =>
    refine (call_full hd ha r).one fun f h1 => ?_
    have e : Tok.id d :: .lpar :: (ts ++ [.rpar]) ++ r = .id d :: .lpar :: (ts ++ .rpar :: r) := by simp
    rw [e]
    unfold pDistExpr
    dsimp only
    rw [if_neg (dist_not_wrapper d hd), h1]
  | @wrapped w d ts as us ws hw hd ha hu =>
    refine (call_full hd ha (us ++ .rpar :: r)).two (wrapargs_full hu r) fun f h1 h2 => ?_
    have e : Tok.id w :: .lpar :: .id d :: .lpar :: (ts ++ .rpar :: (us ++ [.rpar])) ++ r
        = .id w :: .lpar :: .id d :: .lpar :: (ts ++ .rpar :: (us ++ .rpar :: r)) := by simp
    rw [e]
    unfold pDistExpr
    dsimp only
    rw [if_pos hw, h1]
    dsimp only
    rw [h2]

/-! ### values -/

theorem raw_eval {ts v v'} (h : IsRawVal ts v) (he : evalVal v = some v') : IsPriorVal ts v' := by
  cases h with
  | none => simp [evalVal, evalNumber] at he; subst he; exact .none
  | name hn => simp [evalVal, evalNumber] at he; subst he; exact .name hn
  | @number ts c hc =>
    unfold evalVal at he
    split at he
    · rename_i h; exact absurd (C46_sound c _ h) (by simp)
    · rename_i h; exact absurd (C46_sound c _ h) (by simp)
    · rename_i q h
      have := C46_sound c _ h
      simp only [NVal.num.injEq] at this
      simp only [Option.some.injEq] at he
      subst he
      rw [this]
      exact .number hc ⟨_, h⟩
    · simp at he

theorem prior_raw {ts v'} (h : IsPriorVal ts v') : ∃ v, IsRawVal ts v ∧ evalVal v = some v' := by
  cases h with
  | none => exact ⟨_, .none, rfl⟩
  | name hn => exact ⟨_, .name hn, rfl⟩
  | @number ts c hc he =>
    obtain ⟨v, hv⟩ := he
    refine ⟨_, .number hc, ?_⟩
    have := C46_sound c _ hv
    subst this
    unfold evalVal
    rw [hv]

/-- the values of the arguments -/
def evalAll (as : List (Str × NTree)) : Option (List (Str × NTree)) := as.mapM fun a => (evalVal a.2).map fun v => (a.1, v)

theorem evalArgs_eq (as : List (Str × NTree)) : evalArgs as = (evalAll as).map dictOf := rfl

theorem arg_eval {ts a b} (h : IsArg IsRawVal ts a) (he : (evalVal a.2).map (fun v => (a.1, v)) = some b) : IsArg IsPriorVal ts b := by
  cases h with
  | mk hv =>
    simp only [Option.map_eq_some_iff] at he
    obtain ⟨v', h1, rfl⟩ := he
    exact .mk (raw_eval hv h1)

theorem arg_raw {ts b} (h : IsArg IsPriorVal ts b) : ∃ a, IsArg IsRawVal ts a ∧ (evalVal a.2).map (fun v => (a.1, v)) = some b := by
  cases h with
  | mk hv =>
    obtain ⟨v, h1, h2⟩ := prior_raw hv
    exact ⟨_, .mk h1, by rw [h2]; rfl⟩

theorem listed_eval {ts as bs} (h : Listed (IsArg IsRawVal) ts as) (he : evalAll as = some bs) : Listed (IsArg IsPriorVal) ts bs := by
  induction h generalizing bs with
  | one ha =>
    simp only [evalAll, List.mapM_cons, List.mapM_nil, Option.pure_def, Option.bind_eq_bind, Option.bind_some, Option.bind_eq_some_iff,
      Option.some.injEq] at he
    obtain ⟨b, h1, rfl⟩ := he
    exact .one (arg_eval ha h1)
  | cons ha _ ih =>
    simp only [evalAll, List.mapM_cons, Option.pure_def, Option.bind_eq_bind, Option.bind_eq_some_iff,
      Option.some.injEq] at he
    obtain ⟨b, h1, bs', h2, rfl⟩ := he
    exact .cons (arg_eval ha h1) (ih h2)

theorem listed_raw {ts bs} (h : Listed (IsArg IsPriorVal) ts bs) : ∃ as, Listed (IsArg IsRawVal) ts as ∧ evalAll as = some bs := by
  induction h with
  | one hb =>
    obtain ⟨a, h1, h2⟩ := arg_raw hb
    exact ⟨[a], .one h1, by simp [evalAll, h2]⟩
  | cons hb _ ih =>
    obtain ⟨a, h1, h2⟩ := arg_raw hb
    obtain ⟨as, h3, h4⟩ := ih
    refine ⟨a :: as, .cons h1 h3, ?_⟩
    unfold evalAll at h4 ⊢
    rw [List.mapM_cons, h2, h4]
    rfl

theorem dist_eval {ts x as ws} (h : IsDist IsRawVal ts x) (ha : evalAll x.args = some as) (hw : evalAll x.wargs = some ws) :
    IsDist IsPriorVal ts { dist := x.dist, args := as, wrapper := x.wrapper, wargs := ws } := by
  have opt : ∀ {ts as bs}, IsOptArgs IsRawVal ts as → evalAll as = some bs → IsOptArgs IsPriorVal ts bs := by
    intro ts as bs h he
    cases h with
    | none => simp [evalAll] at he; subst he; exact .none
    | some hl => exact .some (listed_eval hl he)
  cases h with
  | plain hd ho =>
    simp [evalAll] at hw
    subst hw
    exact .plain hd (opt ho ha)
  | wrapped hwr hd ho hu =>
    refine .wrapped hwr hd (opt ho ha) ?_
    cases hu with
    | none => simp [evalAll] at hw; subst hw; exact .none
    | some hl => exact .some (listed_eval hl hw)

theorem dist_raw {ts y} (h : IsDist IsPriorVal ts y) : ∃ x, IsDist IsRawVal ts x ∧ x.dist = y.dist ∧ x.wrapper = y.wrapper ∧
    evalAll x.args = some y.args ∧ evalAll x.wargs = some y.wargs := by
  have opt : ∀ {ts bs}, IsOptArgs IsPriorVal ts bs → ∃ as, IsOptArgs IsRawVal ts as ∧ evalAll as = some bs := by
    intro ts bs h
    cases h with
    | none => exact ⟨[], .none, rfl⟩
    | some hl =>
      obtain ⟨as, h1, h2⟩ := listed_raw hl
      exact ⟨as, .some h1, h2⟩
  cases h with
  | plain hd ho =>
    obtain ⟨as, h1, h2⟩ := opt ho
    exact ⟨_, .plain hd h1, rfl, rfl, h2, rfl⟩
  | wrapped hwr hd ho hu =>
    obtain ⟨as, h1, h2⟩ := opt ho
    cases hu with
    | none => exact ⟨_, .wrapped hwr hd h1 .none, rfl, rfl, h2, rfl⟩
    | some hl =>
      obtain ⟨ws, h3, h4⟩ := listed_raw hl
      exact ⟨_, .wrapped hwr hd h1 (.some h3), rfl, rfl, h2, h4⟩

/-! ### dictionaries -/

theorem firstOcc_snoc (ks : List Str) (k : Str) : firstOcc (ks ++ [k]) = if k ∈ ks then firstOcc ks else firstOcc ks ++ [k] := by
  induction ks with
  | nil => simp [firstOcc]
  | cons a ks ih =>
    rw [List.cons_append, firstOcc, ih, firstOcc]
    by_cases hk : k ∈ ks
    · rw [if_pos hk, if_pos (by simp [hk])]
    · rw [if_neg hk]
      by_cases ha : k = a
      · subst ha
        simp [List.filter_append]
      · rw [if_neg (by simp [hk, ha])]
        simp [List.filter_append, ha]

theorem mem_firstOcc (ks : List Str) (k : Str) : k ∈ firstOcc ks ↔ k ∈ ks := by
  induction ks with
  | nil => simp [firstOcc]
  | cons a ks ih =>
    simp only [firstOcc, List.mem_cons, List.mem_filter, ih, decide_eq_true_eq]
    tauto

theorem firstOcc_nodup (ks : List Str) : (firstOcc ks).Nodup := by
  induction ks with
  | nil => simp [firstOcc]
  | cons a ks ih =>
    simp only [firstOcc, List.nodup_cons]
    exact ⟨by simp, ih.filter _⟩

theorem lastFor_snoc {α} (l : List (Str × α)) (p : Str × α) (k : Str) :
    lastFor (l ++ [p]) k = if p.1 = k then some p.2 else lastFor l k := by
  unfold lastFor
  rw [List.filter_append]
  by_cases h : p.1 = k
  · simp [h]
  · simp [h]

theorem dset_keys {α} (d : List (Str × α)) (k : Str) (v : α) :
    (dset d k v).map Prod.fst = if k ∈ d.map Prod.fst then d.map Prod.fst else d.map Prod.fst ++ [k] := by
  induction d with
  | nil => simp [dset]
  | cons p d ih =>
    obtain ⟨a, b⟩ := p
    simp only [dset]
    by_cases h : a = k
    · simp [h]
    · rw [if_neg h, List.map_cons, ih]
      by_cases h2 : k ∈ d.map Prod.fst
      · rw [if_pos h2, if_pos (by simp [h2])]; rfl
      · rw [if_neg h2, if_neg (by simp only [List.map_cons, List.mem_cons, not_or]; exact ⟨fun e => h e.symm, h2⟩)]; rfl

theorem dictOf_snoc {α} (l : List (Str × α)) (p : Str × α) : dictOf (l ++ [p]) = dset (dictOf l) p.1 p.2 := by
  unfold dictOf; rw [List.foldl_append]; rfl

theorem dictOf_spec {α} (l : List (Str × α)) : IsDict l (dictOf l) := by
  induction l using List.reverseRecOn with
  | nil => exact ⟨rfl, fun k => rfl⟩
  | append_singleton l p ih =>
    obtain ⟨h1, h2⟩ := ih
    rw [dictOf_snoc]
    constructor
    · rw [dset_keys, h1, List.map_append, List.map_cons, List.map_nil, firstOcc_snoc]
      simp only [mem_firstOcc]
    · intro k
      rw [dget_dset, lastFor_snoc, h2]

theorem dict_ext {α} : ∀ (d d' : List (Str × α)), d.map Prod.fst = d'.map Prod.fst → (d.map Prod.fst).Nodup →
    (∀ k, dget d k = dget d' k) → d = d'
  | [], [], _, _, _ => rfl
  | [], _ :: _, h, _, _ => by simp at h
  | _ :: _, [], h, _, _ => by simp at h
  | (k, v) :: d, (k', v') :: d', h, hn, hg => by
    simp only [List.map_cons, List.cons.injEq] at h
    obtain ⟨rfl, h⟩ := h
    simp only [List.map_cons, List.nodup_cons] at hn
    have hv : v = v' := by
      have := hg k
      simpa [dget] using this
    subst hv
    have : d = d' := by
      refine dict_ext d d' h hn.2 fun k2 => ?_
      by_cases hk : k = k2
      · subst hk
        have h1 : dget d k = none := (dget_eq_none _ _).2 hn.1
        have h2 : dget d' k = none := (dget_eq_none _ _).2 (by
          have := hn.1
          rw [h] at this
          exact this)
        rw [h1, h2]
      · have := hg k2
        simpa [dget, hk] using this
    rw [this]

theorem dict_unique {α} {l d : List (Str × α)} (h : IsDict l d) : d = dictOf l := by
  obtain ⟨h1, h2⟩ := dictOf_spec l
  refine dict_ext _ _ (by rw [h.1, h1]) (by rw [h.1]; exact firstOcc_nodup _) fun k => by rw [h.2, h2]

theorem describes_unique {p x i d} (h : Describes p x i d) :
    d = { param := p, dist := x.dist, kwargs := dictOf x.args, wrapper := x.wrapper, wrapperKwargs := dictOf x.wargs, initial := i } := by
  obtain ⟨h1, h2, h3, h4, h5, h6⟩ := h
  have e1 := dict_unique h5
  have e2 := dict_unique h6
  cases d
  simp only at *
  subst h1 h2 h3 h4 e1 e2
  rfl

theorem describes_mk (p : Str) (x : DistX) (i : Option Rat) :
    Describes p x i { param := p, dist := x.dist, kwargs := dictOf x.args, wrapper := x.wrapper, wrapperKwargs := dictOf x.wargs, initial := i } :=
  ⟨rfl, rfl, rfl, rfl, dictOf_spec _, dictOf_spec _⟩

/-! ### priors -/

theorem initial_sound {f ts i r} (h : pInitial f ts = some (i, r)) : ∃ w, ts = w ++ .semi :: r ∧ IsInitial w i := by
  unfold pInitial at h
  split at h
  · simp only [Option.some.injEq, Prod.mk.injEq] at h
    obtain ⟨rfl, rfl⟩ := h
    exact ⟨[], rfl, .none⟩
  · split at h
    · rename_i c r' hc
      split at h
      · rename_i q hq
        simp only [Option.some.injEq, Prod.mk.injEq] at h
        obtain ⟨rfl, rfl⟩ := h
        obtain ⟨w, hw, hs⟩ := (chain_sound f).2.1 _ _ _ hc
        have := C46_sound c _ hq
        simp only [NVal.num.injEq] at this
        rw [this]
        exact ⟨.eq :: w, by rw [hw]; rfl, .some hs ⟨_, hq⟩⟩
      · simp at h
    · simp at h
  · simp at h

theorem initial_full {w i} (h : IsInitial w i) (r : List Tok) : Ev (fun f => pInitial f (w ++ .semi :: r)) (i, r) := by
  cases h with
  | none => exact Ev.const fun _ => rfl
  | @some ts c hc he =>
    refine (chain_ev hc (r := .semi :: r) (by simp [okN])).one fun f h1 => ?_
    obtain ⟨v, hv⟩ := he
    have := C46_sound c _ hv
    subst this
    rw [List.cons_append, pInitial, h1]
    dsimp only
    rw [hv]

theorem prior_sound : Sound pPrior IsPrior := by
  intro f ts d r h
  unfold pPrior at h
  split at h
  · split at h
    · rename_i x r1 hx
      obtain ⟨w, hw, hs⟩ := dist_sound _ _ _ _ hx
      split at h
      · rename_i i r2 hi
        obtain ⟨w2, hw2, hs2⟩ := initial_sound hi
        split at h
        · rename_i as ws ha hws
          simp only [Option.some.injEq, Prod.mk.injEq] at h
          obtain ⟨rfl, rfl⟩ := h
          simp only [evalArgs_eq, Option.map_eq_some_iff] at ha hws
          obtain ⟨as', ha, rfl⟩ := ha
          obtain ⟨ws', hws, rfl⟩ := hws
          refine ⟨_, ?_, .mk (dist_eval hs ha hws) hs2 (describes_mk _ _ _)⟩
          rw [hw, hw2]; simp
        · simp at h
      · simp at h
    · simp at h
  · simp at h

theorem prior_full : Full pPrior IsPrior fun _ => True := by
  intro w d r h _
  cases h with
  | @mk p ts y is i d hd hi hdes =>
    obtain ⟨x, hx, e1, e2, e3, e4⟩ := dist_raw hd
    refine (dist_full _ _ (is ++ .semi :: r) hx trivial).two (initial_full hi r) fun f h1 h2 => ?_
    have e : Tok.id p :: .tilde :: (ts ++ (is ++ [.semi])) ++ r = .id p :: .tilde :: (ts ++ (is ++ .semi :: r)) := by simp
    rw [e, pPrior, h1]
    dsimp only
    rw [h2]
    dsimp only
    rw [evalArgs_eq, evalArgs_eq, e3, e4, describes_unique hdes, e1, e2]
    rfl

/-! ### shocks -/

theorem varlist_sound : ∀ ts vs r, pVarList ts = some (vs, r) → ∃ w, ts = w ++ r ∧ Listed IsVarRef w vs := by
  intro ts
  induction ts using pVarList.induct with
  | case1 n t ts vs' r' hp ih =>
    intro vs r h
    rw [pVarList, hp] at h
    simp only [Option.some.injEq, Prod.mk.injEq] at h
    obtain ⟨rfl, rfl⟩ := h
    obtain ⟨w, hw, hs⟩ := ih _ _ hp
    exact ⟨_, by rw [hw]; simp, .cons (w := [.id n, .tix t]) .mk hs⟩
  | case2 n t ts hp ih =>
    intro vs r h
    rw [pVarList, hp] at h
    simp at h
  | case3 n t ts hne =>
    intro vs r h
    have : pVarList (.id n :: .tix t :: ts) = some ([⟨n, t⟩], ts) := by
      unfold pVarList
      split
      · rename_i heq; simp only [List.cons.injEq] at heq; exact absurd heq.2.2 (hne _)
      · rename_i heq
        simp only [List.cons.injEq, Tok.id.injEq, Tok.tix.injEq] at heq
        obtain ⟨rfl, rfl, rfl⟩ := heq
        rfl
      · rename_i hx; exact absurd rfl (hx n t ts)
    rw [this] at h
    simp only [Option.some.injEq, Prod.mk.injEq] at h
    obtain ⟨rfl, rfl⟩ := h
    exact ⟨[.id n, .tix t], rfl, .one .mk⟩
  | case4 ts h1 h2 =>
    intro vs r h
    have : pVarList ts = none := by
      unfold pVarList
      split
      · exact absurd rfl (h1 _ _ _)
      · exact absurd rfl (h2 _ _ _)
      · rfl
    rw [this] at h
    simp at h

theorem varlist_full {w vs} (h : Listed IsVarRef w vs) {r : List Tok} (hr : ∀ r', r ≠ .comma :: r') : pVarList (w ++ r) = some (vs, r) := by
  induction h with
  | one hv =>
    cases hv
    cases r with
    | nil => rfl
    | cons t r => cases t <;> first | rfl | exact absurd rfl (hr _)
  | cons hv _ ih =>
    cases hv
    simp only [List.cons_append, List.nil_append, pVarList, ih]

theorem varlist_head {w vs} (h : Listed IsVarRef w vs) : ∃ n t, w = [.id n, .tix t] ∨ ∃ r, w = .id n :: .tix t :: .comma :: r := by
  cases h with
  | one hv => cases hv; exact ⟨_, _, .inl rfl⟩
  | cons hv _ => cases hv; exact ⟨_, _, .inr ⟨_, rfl⟩⟩

theorem shockinit_sound {ts i r} (h : pShockInitial ts = some (i, r)) : ∃ w, ts = w ++ .semi :: r ∧ IsShockInitial w i := by
  unfold pShockInitial at h
  split at h
  · simp only [Option.some.injEq, Prod.mk.injEq] at h
    obtain ⟨rfl, rfl⟩ := h
    exact ⟨[], rfl, .none⟩
  · simp only [Option.some.injEq, Prod.mk.injEq] at h
    obtain ⟨rfl, rfl⟩ := h
    exact ⟨_, rfl, .some⟩
  · simp at h

theorem shockinit_full {w i} (h : IsShockInitial w i) (r : List Tok) : pShockInitial (w ++ .semi :: r) = some (i, r) := by
  cases h <;> rfl

theorem shock_sound : Sound pShock IsShock := by
  intro f ts s r h
  unfold pShock at h
  split at h
  · rename_i n t us
    split at h
    · rename_i x r1 hx
      obtain ⟨w, hw, hs⟩ := dist_sound _ _ _ _ hx
      split at h
      · rename_i i r2 hi
        obtain ⟨w2, hw2, hs2⟩ := shockinit_sound hi
        simp only [Option.some.injEq, Prod.mk.injEq] at h
        obtain ⟨rfl, rfl⟩ := h
        refine ⟨_, ?_, .dist (t := t) hs hs2 (describes_mk _ _ _)⟩
        rw [hw, hw2]; simp
      · simp at h
    · simp at h
  · split at h
    · rename_i hv
      simp only [Option.some.injEq, Prod.mk.injEq] at h
      obtain ⟨rfl, rfl⟩ := h
      obtain ⟨w, hw, hs⟩ := varlist_sound _ _ _ hv
      exact ⟨_, by rw [hw]; simp, .vars hs⟩
    · simp at h

theorem shock_full : Full pShock IsShock fun _ => True := by
  intro w s r h _
  cases h with
  | @dist n t ts x is i d hd hi hdes =>
    refine (dist_full _ _ (is ++ .semi :: r) hd trivial).one fun f h1 => ?_
    have e : Tok.id n :: .tix t :: .tilde :: (ts ++ (is ++ [.semi])) ++ r = .id n :: .tix t :: .tilde :: (ts ++ (is ++ .semi :: r)) := by simp
    rw [e, pShock, h1]
    dsimp only
    rw [shockinit_full hi, describes_unique hdes]
  | @vars ts vs hl =>
    refine Ev.const fun f => ?_
    have hv := varlist_full hl (r := .semi :: r) (by simp)
    rw [List.append_assoc, List.singleton_append]
    unfold pShock
    split
    · rename_i heq
      exfalso
      obtain ⟨n, t, rfl | ⟨r', rfl⟩⟩ := varlist_head hl <;> simp at heq
    · rw [hv]

end GE.Gcn
