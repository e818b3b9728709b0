import Verif.Props.GrammarDist
import Verif.Props.Lexer
/-! # C107: the grammar of GCN files -/

namespace GE.Gcn

/-! ### calibration -/

theorem startsDist_iff (n : Str) : startsDist n = true ↔ ∃ d ∈ wrappers ++ dists, d <+: n := by
  unfold startsDist
  rw [List.any_eq_true]
  simp only [List.isPrefixOf_iff_prefix]

theorem cal_sound : Sound pCal IsCal := by
  intro f ts c r h
  unfold pCal at h
  split at h
  · split at h
    · rename_i hp
      simp only [Option.some.injEq, Prod.mk.injEq] at h
      obtain ⟨rfl, rfl⟩ := h
      obtain ⟨w, hw, hs⟩ := prior_sound _ _ _ _ hp
      exact ⟨w, hw, .prior hs⟩
    · simp at h
  · split at h
    · simp at h
    · rename_i p n us hn
      split at h
      · rename_i hp
        simp only [Option.some.injEq, Prod.mk.injEq] at h
        obtain ⟨rfl, rfl⟩ := h
        obtain ⟨w, hw, hs⟩ := eqn_sound _ _ _ _ hp
        refine ⟨w, hw, .eq hs fun p' n' r' e d hd hpre => hn ?_⟩
        rw [e] at hw
        simp only [List.cons_append, List.cons.injEq, Tok.id.injEq] at hw
        obtain ⟨_, _, rfl, _⟩ := hw
        exact (startsDist_iff _).2 ⟨d, hd, hpre⟩
      · simp at h
  · rename_i h1 h2
    split at h
    · rename_i hp
      simp only [Option.some.injEq, Prod.mk.injEq] at h
      obtain ⟨rfl, rfl⟩ := h
      obtain ⟨w, hw, hs⟩ := eqn_sound _ _ _ _ hp
      refine ⟨w, hw, .eq hs fun p' n' r' e d hd hpre => ?_⟩
      rw [e] at hw
      exact absurd hw (h2 _ _ _)
    · simp at h

theorem par_sum (p : Str) : IsSum [.id p] (.par p) := .one (.one (.base (.atom .par)))

theorem eqn_not_tilde {w e} (h : IsEqn w e) (r : List Tok) (p : Str) (u : List Tok) : w ++ r ≠ .id p :: .tilde :: u := by
  cases h with
  | @mk tags l rr m c le re lag cal hl hr hm hc =>
    intro e
    cases tags with
    | cons t tags => simp at e
    | nil =>
      have e' : l ++ .eq :: (rr ++ (m ++ (c ++ .semi :: r))) = [.id p] ++ .tilde :: u := by simpa using e
      have h1 := add_ev hl (r := .eq :: (rr ++ (m ++ (c ++ .semi :: r)))) (by simp [ok1, ok2, ok3, ok4])
      rw [e'] at h1
      have h2 := add_ev (par_sum p) (r := .tilde :: u) (by simp [ok1, ok2, ok3, ok4])
      have := h1.eq h2
      simp at this

theorem eqn_long {w e} (h : IsEqn w e) : 4 ≤ w.length := by
  cases h with
  | @mk tags l rr m c le re lag cal hl hr hm hc =>
    have h1 := List.length_pos_of_ne_nil (sum_nonempty hl)
    have h2 := List.length_pos_of_ne_nil (sum_nonempty hr)
    simp; omega

theorem prior_shape {w d} (h : IsPrior w d) : ∃ p u, w = .id p :: .tilde :: u := by
  cases h; exact ⟨_, _, rfl⟩

theorem cal_full : Full pCal IsCal fun _ => True := by
  intro w c r h _
  cases h with
  | prior hp =>
    refine (prior_full _ _ r hp trivial).one fun f h1 => ?_
    obtain ⟨p, u, rfl⟩ := prior_shape hp
    rw [List.cons_append, List.cons_append] at h1 ⊢
    rw [pCal, h1]
  | eq he hn =>
    refine (eqn_complete he r).one fun f h1 => ?_
    generalize hW : w ++ r = W at *
    unfold pCal
    split
    · exact absurd hW (eqn_not_tilde he r _ _)
    · rename_i p n us
      have : startsDist n = false := by
        rw [Bool.eq_false_iff]
        intro hs
        obtain ⟨d, hd, hpre⟩ := (startsDist_iff _).1 hs
        have hl := eqn_long he
        match w, hl, hW with
        | a :: b :: c :: w', _, hW =>
          simp only [List.cons_append, List.cons.injEq] at hW
          obtain ⟨rfl, rfl, rfl, _⟩ := hW
          exact hn _ _ _ rfl d hd hpre
      rw [this, if_neg (by simp), h1]
    · rw [h1]

theorem inner_eqn : Inner IsEqn := fun _ _ h => eqn_head h

theorem inner_cal : Inner IsCal := by
  intro w c h
  cases h with
  | prior hp => obtain ⟨p, u, rfl⟩ := prior_shape hp; exact ⟨_, _, rfl, by simp⟩
  | eq he _ => exact eqn_head he

theorem inner_shock : Inner IsShock := by
  intro w s h
  cases h with
  | dist => exact ⟨_, _, rfl, by simp⟩
  | vars hl => obtain ⟨n, t, rfl | ⟨r', rfl⟩⟩ := varlist_head hl <;> exact ⟨_, _, rfl, by simp⟩

/-! ### components -/

theorem eqn_Sound : Sound pEqn IsEqn := eqn_sound
theorem eqn_Full : Full pEqn IsEqn fun _ => True := fun _ _ r h _ => eqn_complete h r

theorem varblock_sound {ts vs r} (h : pVarBlock ts = some (vs, r)) : ∃ w, ts = w ++ r ∧ IsVarBlock w vs := by
  unfold pVarBlock at h
  split at h
  · simp only [Option.some.injEq, Prod.mk.injEq] at h
    obtain ⟨rfl, rfl⟩ := h
    exact ⟨[.lbrace, .rbrace, .semi], rfl, .none⟩
  · split at h
    · rename_i hv
      simp only [Option.some.injEq, Prod.mk.injEq] at h
      obtain ⟨rfl, rfl⟩ := h
      obtain ⟨w, hw, hs⟩ := varlist_sound _ _ _ hv
      exact ⟨_, by rw [hw]; simp, .some hs⟩
    · simp at h
  · simp at h

theorem varblock_full {w vs} (h : IsVarBlock w vs) (r : List Tok) : pVarBlock (w ++ r) = some (vs, r) := by
  cases h with
  | none => rfl
  | @some ts vs hl =>
    have hv := varlist_full hl (r := .semi :: .rbrace :: .semi :: r) (by simp)
    have e : Tok.lbrace :: (ts ++ [.semi, .rbrace, .semi]) ++ r = .lbrace :: (ts ++ .semi :: .rbrace :: .semi :: r) := by simp
    rw [e]
    unfold pVarBlock
    split
    · rename_i heq
      exfalso
      obtain ⟨n, t, rfl | ⟨r', rfl⟩⟩ := varlist_head hl <;> simp at heq
    · rename_i heq; cases heq
      rw [hv]
    · rename_i _ h2; exact absurd rfl (h2 _)

theorem shockVars_eq (l : List GShock) : shockVars l = declared l := by
  induction l with
  | nil => rfl
  | cons s l ih =>
    have : shockVars (s :: l) = (match s with | .dist d => [{ name := d.param }] | .vars vs => vs) ++ shockVars l := by
      unfold shockVars; rw [List.flatMap_cons]; cases s <;> rfl
    rw [this, ih]
    cases s <;> rfl

theorem shockDists_eq (l : List GShock) : shockDists l = declaredDists l := by
  induction l with
  | nil => rfl
  | cons s l ih =>
    have : shockDists (s :: l) = (match s with | .dist d => [d] | .vars _ => []) ++ shockDists l := by
      unfold shockDists; rw [List.flatMap_cons]; cases s <;> rfl
    rw [this, ih]
    cases s <;> rfl

theorem map_eq_some' {α β} {o : Option α} {g : α → β} {b : β} (h : o.map g = some b) : ∃ a, o = some a ∧ g a = b := by
  simpa using h

theorem comp_sound : Sound pComp IsComp := by
  intro f ts c r h
  unfold pComp at h
  split at h
  · rename_i k us
    split at h
    · rename_i hk
      obtain ⟨⟨a, r'⟩, ha, hg⟩ := map_eq_some' h
      cases hg
      obtain ⟨w, rfl, hs⟩ := braced_sound eqn_Sound _ _ _ _ ha
      exact ⟨_, rfl, .definitions hk hs⟩
    · split at h
      · rename_i hk
        obtain ⟨⟨a, r'⟩, ha, hg⟩ := map_eq_some' h
        cases hg
        obtain ⟨w, rfl, hs⟩ := varblock_sound ha
        exact ⟨_, rfl, .controls hk hs⟩
      · split at h
        · rename_i hk
          obtain ⟨⟨a, r'⟩, ha, hg⟩ := map_eq_some' h
          cases hg
          obtain ⟨w, rfl, hs⟩ := braced_sound eqn_Sound _ _ _ _ ha
          exact ⟨_, rfl, .objective hk hs⟩
        · split at h
          · rename_i hk
            obtain ⟨⟨a, r'⟩, ha, hg⟩ := map_eq_some' h
            cases hg
            obtain ⟨w, rfl, hs⟩ := braced_sound eqn_Sound _ _ _ _ ha
            exact ⟨_, rfl, .constraints hk hs⟩
          · split at h
            · rename_i hk
              obtain ⟨⟨a, r'⟩, ha, hg⟩ := map_eq_some' h
              cases hg
              obtain ⟨w, rfl, hs⟩ := braced_sound eqn_Sound _ _ _ _ ha
              exact ⟨_, rfl, .identities hk hs⟩
            · split at h
              · rename_i hk
                obtain ⟨⟨a, r'⟩, ha, hg⟩ := map_eq_some' h
                cases hg
                obtain ⟨w, rfl, hs⟩ := braced_sound shock_sound _ _ _ _ ha
                dsimp only
                rw [shockVars_eq, shockDists_eq]
                exact ⟨_, rfl, .shocks hk hs⟩
              · split at h
                · rename_i hk
                  obtain ⟨⟨a, r'⟩, ha, hg⟩ := map_eq_some' h
                  cases hg
                  obtain ⟨w, rfl, hs⟩ := braced_sound cal_sound _ _ _ _ ha
                  exact ⟨_, rfl, .calibration hk hs⟩
                · simp at h
  · simp at h

theorem comp_full : Full pComp IsComp fun _ => True := by
  intro w c r h _
  cases h with
  | definitions hk hb =>
    have hk : lowerStr _ = _ := hk
    refine (braced_full eqn_Full inner_eqn _ _ r hb trivial).one fun f h1 => ?_
    simp only [List.cons_append, pComp, hk, if_true, h1, Option.map_some]
  | controls hk hb =>
    have hk : lowerStr _ = _ := hk
    refine Ev.const fun f => ?_
    have h1 := varblock_full hb r
    rw [List.cons_append, pComp, hk, if_neg (by decide), if_pos rfl, h1]; rfl
  | objective hk hb =>
    have hk : lowerStr _ = _ := hk
    refine (braced_full eqn_Full inner_eqn _ _ r hb trivial).one fun f h1 => ?_
    rw [List.cons_append, pComp, hk, if_neg (by decide), if_neg (by decide), if_pos rfl, h1]; rfl
  | constraints hk hb =>
    have hk : lowerStr _ = _ := hk
    refine (braced_full eqn_Full inner_eqn _ _ r hb trivial).one fun f h1 => ?_
    rw [List.cons_append, pComp, hk, if_neg (by decide), if_neg (by decide), if_neg (by decide), if_pos rfl, h1]; rfl
  | identities hk hb =>
    have hk : lowerStr _ = _ := hk
    refine (braced_full eqn_Full inner_eqn _ _ r hb trivial).one fun f h1 => ?_
    rw [List.cons_append, pComp, hk, if_neg (by decide), if_neg (by decide), if_neg (by decide), if_neg (by decide), if_pos rfl, h1]; rfl
  | shocks hk hb =>
    have hk : lowerStr _ = _ := hk
    refine (braced_full shock_full inner_shock _ _ r hb trivial).one fun f h1 => ?_
    rw [List.cons_append, pComp, hk, if_neg (by decide), if_neg (by decide), if_neg (by decide), if_neg (by decide), if_neg (by decide),
      if_pos rfl, h1, ← shockVars_eq, ← shockDists_eq]; rfl
  | calibration hk hb =>
    have hk : lowerStr _ = _ := hk
    refine (braced_full cal_full inner_cal _ _ r hb trivial).one fun f h1 => ?_
    rw [List.cons_append, pComp, hk, if_neg (by decide), if_neg (by decide), if_neg (by decide), if_neg (by decide), if_neg (by decide),
      if_neg (by decide), if_pos rfl, h1]; rfl

theorem inner_comp : Inner IsComp := by
  intro w c h
  cases h <;> exact ⟨_, _, rfl, by simp⟩

/-! ### blocks -/

theorem lastOr_cons {γ α} (sel : γ → Option α) (d : α) (c : γ) (l : List γ) : lastOr sel d (c :: l) = lastOr sel ((sel c).getD d) l := by
  unfold lastOr
  rw [List.filterMap_cons]
  cases h : sel c with
  | none => rfl
  | some a =>
    simp only [Option.getD_some]
    cases h2 : List.filterMap sel l with
    | nil => rfl
    | cons x xs => rw [List.getLast?_cons_cons, List.getLast?_eq_some_getLast (List.cons_ne_nil x xs)]; rfl

theorem fold_last {β γ α} (add : β → γ → β) (π : β → α) (sel : γ → Option α) (h : ∀ b c, π (add b c) = (sel c).getD (π b)) :
    ∀ (cs : List γ) (b : β), π (cs.foldl add b) = lastOr sel (π b) cs
  | [], b => rfl
  | c :: cs, b => by rw [List.foldl_cons, fold_last add π sel h cs, h, lastOr_cons]

theorem gathers_fold (n : Str) (cs : List GComp) : Gathers n cs (cs.foldl GBlock.addComp { name := n }) where
  name := by
    have : ∀ (cs : List GComp) (b : GBlock), (cs.foldl GBlock.addComp b).name = b.name := by
      intro cs
      induction cs with
      | nil => intro b; rfl
      | cons c cs ih => intro b; rw [List.foldl_cons, ih]; cases c <;> rfl
    exact this cs _
  definitions := fold_last GBlock.addComp (·.definitions) _ (by intro b c; cases c <;> rfl) cs _
  controls := fold_last GBlock.addComp (·.controls) _ (by intro b c; cases c <;> rfl) cs _
  objective := fold_last GBlock.addComp (·.objective) _ (by intro b c; cases c <;> rfl) cs _
  constraints := fold_last GBlock.addComp (·.constraints) _ (by intro b c; cases c <;> rfl) cs _
  identities := fold_last GBlock.addComp (·.identities) _ (by intro b c; cases c <;> rfl) cs _
  shocks := fold_last GBlock.addComp (·.shocks) _ (by intro b c; cases c <;> rfl) cs _
  shockDists := fold_last GBlock.addComp (·.shockDists) _ (by intro b c; cases c <;> rfl) cs _
  calibration := fold_last GBlock.addComp (·.calibration) _ (by intro b c; cases c <;> rfl) cs _

theorem gathers_unique {n cs b b'} (h : Gathers n cs b) (h' : Gathers n cs b') : b = b' := by
  obtain ⟨h1, h2, h3, h4, h5, h6, h7, h8, h9⟩ := h
  obtain ⟨g1, g2, g3, g4, g5, g6, g7, g8, g9⟩ := h'
  cases b; cases b'
  simp only at *
  subst h1 h2 h3 h4 h5 h6 h7 h8 h9 g1 g2 g3 g4 g5 g6 g7 g8 g9
  rfl

theorem block_sound : Sound pBlock IsBlock := by
  intro f ts b r h
  unfold pBlock at h
  split at h
  · split at h
    · rename_i hk
      obtain ⟨⟨a, r'⟩, ha, hg⟩ := map_eq_some' h
      cases hg
      obtain ⟨w, rfl, hs⟩ := braced_sound comp_sound _ _ _ _ ha
      exact ⟨_, rfl, .mk hk hs (gathers_fold _ _)⟩
    · simp at h
  · simp at h

theorem block_full : Full pBlock IsBlock fun _ => True := by
  intro w b r h _
  cases h with
  | mk hk hb hg =>
    have hk : lowerStr _ = _ := hk
    refine (braced_full comp_full inner_comp _ _ r hb trivial).one fun f h1 => ?_
    rw [List.cons_append, List.cons_append, pBlock, if_pos hk, h1, gathers_unique hg (gathers_fold _ _)]; rfl

/-! ### special blocks -/

theorem words_sound : ∀ ts, ts = (pWords ts).1.map Tok.id ++ (pWords ts).2
  | [] => rfl
  | t :: ts => by
    cases t with
    | id n => simp only [pWords, List.map_cons, List.cons_append]; rw [← words_sound ts]
    | _ => rfl

theorem words_complete : ∀ (ks : List Str) (r : List Tok), pWords (ks.map Tok.id ++ .eq :: r) = (ks, .eq :: r)
  | [], r => rfl
  | k :: ks, r => by simp only [List.map_cons, List.cons_append, pWords, words_complete ks r]

theorem joinWords_eq : ∀ ks : List Str, joinWords ks = [' '].intercalate ks
  | [] => rfl
  | [w] => by simp [joinWords, List.intercalate]
  | w :: w' :: ws => by
    rw [joinWords, joinWords_eq (w' :: ws)]
    · simp [List.intercalate, List.intersperse]
    · simp

theorem optVal_iff (w : Str) (o : OptVal) : IsOptVal w o ↔ o = optVal w := by
  constructor
  · intro h
    unfold optVal
    cases h with
    | yes hk =>
      have hk : lowerStr w = _ := hk
      rw [if_pos hk]
    | no hk =>
      have hk : lowerStr w = _ := hk
      rw [if_neg (by rw [hk]; decide), if_pos hk]
    | word h1 h2 =>
      have h1 : ¬ lowerStr w = _ := h1
      have h2 : ¬ lowerStr w = _ := h2
      rw [if_neg h1, if_neg h2]
  · rintro rfl
    unfold optVal
    split
    · rename_i h; exact .yes h
    · rename_i h
      split
      · rename_i h2; exact .no h2
      · rename_i h2; exact .word h h2

theorem option_sound : Sound pOption IsOption := by
  intro f ts o r h
  unfold pOption at h
  split at h
  · rename_i k ks v r' hp
    simp only [Option.some.injEq, Prod.mk.injEq] at h
    obtain ⟨rfl, rfl⟩ := h
    have := words_sound ts
    rw [hp] at this
    refine ⟨(k :: ks).map Tok.id ++ [.eq, .id v, .semi], by rw [this]; simp, ?_⟩
    rw [joinWords_eq]
    exact .mk (by simp) ((optVal_iff _ _).2 rfl)
  · simp at h

theorem option_full : Full pOption IsOption fun _ => True := by
  intro w o r h _
  cases h with
  | @mk ks v o hk ho =>
    refine Ev.const fun f => ?_
    unfold pOption
    have e : ks.map Tok.id ++ [.eq, .id v, .semi] ++ r = ks.map Tok.id ++ .eq :: .id v :: .semi :: r := by simp
    rw [e, words_complete]
    cases ks with
    | nil => exact absurd rfl hk
    | cons k ks => dsimp only; rw [joinWords_eq, (optVal_iff _ _).1 ho]

theorem inner_option : Inner IsOption := by
  intro w o h
  cases h with
  | @mk ks v o hk ho =>
    cases ks with
    | nil => exact absurd rfl hk
    | cons k ks => exact ⟨_, _, rfl, by simp⟩

theorem asmitem_sound : Sound pAsmItem IsAsmItem := by
  intro f ts n r h
  unfold pAsmItem at h
  split at h
  · simp only [Option.some.injEq, Prod.mk.injEq] at h
    obtain ⟨rfl, rfl⟩ := h
    rename_i n t r
    exact ⟨[.id n, .tix t], rfl, .dated⟩
  · simp only [Option.some.injEq, Prod.mk.injEq] at h
    obtain ⟨rfl, rfl⟩ := h
    exact ⟨_, List.singleton_append.symm, .bare⟩
  · simp at h

theorem asmitem_full : Full pAsmItem IsAsmItem fun r => ∀ t r', r ≠ .tix t :: r' := by
  intro w n r h hr
  cases h with
  | dated => exact Ev.const fun f => rfl
  | bare =>
    refine Ev.const fun f => ?_
    cases r with
    | nil => rfl
    | cons t r => cases t <;> first | rfl | exact absurd rfl (hr _ _)

theorem asmsub_sound : Sound pAsmSub IsAsmSub := by
  intro f ts a r h
  unfold pAsmSub at h
  split at h
  · split at h
    · rename_i hn
      split at h
      · rename_i hl
        simp only [Option.some.injEq, Prod.mk.injEq] at h
        obtain ⟨rfl, rfl⟩ := h
        obtain ⟨w, hw, hs⟩ := listed_sound asmitem_sound _ _ _ _ hl
        exact ⟨_, by rw [hw]; simp, .mk hn hs⟩
      · simp at h
    · simp at h
  · simp at h

theorem asmsub_full : Full pAsmSub IsAsmSub fun _ => True := by
  intro w a r h _
  cases h with
  | @mk n ts vs hn hl =>
    have := listed_full asmitem_full (by simp) ts vs (.semi :: .rbrace :: .semi :: r) hl ⟨by simp, by simp⟩
    refine this.one fun f h1 => ?_
    have e : Tok.id n :: .lbrace :: (ts ++ [.semi, .rbrace, .semi]) ++ r = .id n :: .lbrace :: (ts ++ .semi :: .rbrace :: .semi :: r) := by simp
    have hn : lowerStr n ∈ _ := hn
    rw [e, pAsmSub, if_pos hn, h1]

theorem inner_asmsub : Inner IsAsmSub := by
  intro w c h
  cases h; exact ⟨_, _, rfl, by simp⟩

theorem special_sound : Sound pSpecial IsSpecial := by
  intro f ts s r h
  unfold pSpecial at h
  split at h
  · split at h
    · rename_i hk
      obtain ⟨⟨a, r'⟩, ha, hg⟩ := map_eq_some' h
      cases hg
      obtain ⟨w, rfl, hs⟩ := braced_sound option_sound _ _ _ _ ha
      exact ⟨_, rfl, .options hk hs (dictOf_spec _)⟩
    · split at h
      · rename_i hk
        obtain ⟨⟨a, r'⟩, ha, hg⟩ := map_eq_some' h
        cases hg
        obtain ⟨w, rfl, hs⟩ := varblock_sound ha
        exact ⟨_, rfl, .tryreduce hk hs⟩
      · split at h
        · rename_i hk
          obtain ⟨⟨a, r'⟩, ha, hg⟩ := map_eq_some' h
          cases hg
          obtain ⟨w, rfl, hs⟩ := braced_sound asmsub_sound _ _ _ _ ha
          exact ⟨_, rfl, .assumptions hk hs⟩
        · simp at h
  · simp at h

theorem special_full : Full pSpecial IsSpecial fun _ => True := by
  intro w c r h _
  cases h with
  | options hk hb hd =>
    have hk : lowerStr _ = _ := hk
    refine (braced_full option_full inner_option _ _ r hb trivial).one fun f h1 => ?_
    rw [List.cons_append, pSpecial, if_pos hk, h1, dict_unique hd]; rfl
  | tryreduce hk hb =>
    have hk : lowerStr _ = _ := hk
    refine Ev.const fun f => ?_
    rw [List.cons_append, pSpecial, hk, if_neg (by decide), if_pos rfl, varblock_full hb r]; rfl
  | assumptions hk hb =>
    have hk : lowerStr _ = _ := hk
    refine (braced_full asmsub_full inner_asmsub _ _ r hb trivial).one fun f h1 => ?_
    rw [List.cons_append, pSpecial, hk, if_neg (by decide), if_neg (by decide), if_pos rfl, h1]; rfl

theorem special_head {w s} (h : IsSpecial w s) : ∃ k r, w = .id k :: r ∧ isSpecial k = true := by
  cases h with
  | options hk _ _ =>
    have hk : lowerStr _ = _ := hk
    exact ⟨_, _, rfl, by unfold isSpecial; rw [hk]; decide⟩
  | tryreduce hk _ =>
    have hk : lowerStr _ = _ := hk
    exact ⟨_, _, rfl, by unfold isSpecial; rw [hk]; decide⟩
  | assumptions hk _ =>
    have hk : lowerStr _ = _ := hk
    exact ⟨_, _, rfl, by unfold isSpecial; rw [hk]; decide⟩

theorem specials_sound : Sound pSpecials (Seq IsSpecial) := by
  intro f
  induction f with
  | zero => intro ts a r h; simp [pSpecials] at h
  | succ f ih =>
    intro ts ss r h
    unfold pSpecials at h
    split at h
    · simp at h
    · rename_i heq; cases heq
      split at h
      · split at h
        · rename_i s r1 hs
          obtain ⟨w, hw, hsp⟩ := special_sound _ _ _ _ hs
          split at h
          · rename_i ss' r2 hss
            simp only [Option.some.injEq, Prod.mk.injEq] at h
            obtain ⟨rfl, rfl⟩ := h
            obtain ⟨w2, hw2, hs2⟩ := ih _ _ _ hss
            exact ⟨w ++ w2, by rw [hw, hw2]; simp, .cons hsp hs2⟩
          · simp at h
        · simp at h
      · simp only [Option.some.injEq, Prod.mk.injEq] at h
        obtain ⟨rfl, rfl⟩ := h
        exact ⟨[], rfl, .nil⟩
    · simp only [Option.some.injEq, Prod.mk.injEq] at h
      obtain ⟨rfl, rfl⟩ := h
      exact ⟨[], rfl, .nil⟩

theorem specials_full {w ss} (h : Seq IsSpecial w ss) {r : List Tok} (hr : ∀ k r', r = .id k :: r' → isSpecial k = false) :
    Ev (fun f => pSpecials f (w ++ r)) (ss, r) := by
  induction h with
  | nil =>
    refine Ev.up (Ev.const fun f => ?_)
    cases r with
    | nil => rfl
    | cons t r =>
      cases t with
      | id k => rw [List.nil_append, pSpecials, hr k r rfl]; rfl
      | _ => rfl
  | @cons w u s ss hs _ ih =>
    obtain ⟨k, w', rfl, hk⟩ := special_head hs
    have h1 := special_full _ s (u ++ r) hs trivial
    refine Ev.up (h1.two ih fun f e1 e2 => ?_)
    rw [List.append_assoc]
    rw [List.cons_append] at e1 ⊢
    rw [pSpecials, if_pos hk, e1]
    dsimp only
    rw [e2]

/-! ### files -/

theorem blocks_sound (f : Nat) : ∀ ts bs, pBlocks f ts = some bs → Seq IsBlock ts bs ∧ bs ≠ [] := by
  induction f with
  | zero => intro ts bs h; simp [pBlocks] at h
  | succ f ih =>
    intro ts bs h
    unfold pBlocks at h
    split at h
    · rename_i b hb
      obtain ⟨w, hw, hs⟩ := block_sound _ _ _ _ hb
      simp only [Option.some.injEq] at h
      subst h
      rw [hw]
      exact ⟨.cons hs .nil, by simp⟩
    · rename_i b r _ hb
      obtain ⟨w, hw, hs⟩ := block_sound _ _ _ _ hb
      split at h
      · rename_i bs' hbs
        simp only [Option.some.injEq] at h
        subst h
        rw [hw]
        exact ⟨.cons hs (ih _ _ hbs).1, by simp⟩
      · simp at h
    · simp at h

theorem block_head {w b} (h : IsBlock w b) : ∃ k r, w = .id k :: r ∧ isSpecial k = false := by
  cases h with
  | mk hk _ _ =>
    have hk : lowerStr _ = _ := hk
    exact ⟨_, _, rfl, by unfold isSpecial; rw [hk]; decide⟩

theorem blocks_full {w bs} (h : Seq IsBlock w bs) (hne : bs ≠ []) : Ev (fun f => pBlocks f w) bs := by
  induction h with
  | nil => exact absurd rfl hne
  | @cons w u b bs hb hs ih =>
    have h1 := block_full _ b u hb trivial
    cases hs with
    | nil =>
      refine Ev.up (h1.one fun f e1 => ?_)
      rw [pBlocks, e1]
    | @cons w2 u2 b2 bs2 hb2 hs2 =>
      obtain ⟨k, w', rfl, hk⟩ := block_head hb2
      refine Ev.up (h1.two (ih (by simp)) fun f e1 e2 => ?_)
      rw [pBlocks, e1]
      rw [List.cons_append] at e2 ⊢
      dsimp only
      rw [e2]

theorem seq_block_head {w bs} (h : Seq IsBlock w bs) : ∀ k r, w = .id k :: r → isSpecial k = false := by
  intro k r e
  cases h with
  | nil => simp at e
  | cons hb _ =>
    obtain ⟨k', w', rfl, hk⟩ := block_head hb
    simp only [List.cons_append, List.cons.injEq, Tok.id.injEq] at e
    rw [← e.1]; exact hk

theorem file_fold (ss : List Special) (bs : List GBlock) :
    let m := { ss.foldl GFile.addSpecial {} with blocks := bs }
    m.blocks = bs ∧ m.options = lastOr (fun | .options l => some l | _ => none) [] ss ∧
      m.tryreduce = lastOr (fun | .tryreduce l => some l | _ => none) [] ss ∧
      m.assumptions = lastOr (fun | .assumptions l => some l | _ => none) [] ss :=
  ⟨rfl, fold_last GFile.addSpecial (·.options) _ (by intro b c; cases c <;> rfl) ss _,
    fold_last GFile.addSpecial (·.tryreduce) _ (by intro b c; cases c <;> rfl) ss _,
    fold_last GFile.addSpecial (·.assumptions) _ (by intro b c; cases c <;> rfl) ss _⟩

theorem file_sound {f ts m} (h : pFile f ts = some m) : IsFile ts m := by
  unfold pFile at h
  split at h
  · rename_i ss r hss
    obtain ⟨w, hw, hs⟩ := specials_sound _ _ _ _ hss
    split at h
    · rename_i bs hbs
      obtain ⟨hb, hne⟩ := blocks_sound _ _ _ hbs
      simp only [Option.some.injEq] at h
      subst h
      rw [hw]
      obtain ⟨h1, h2, h3, h4⟩ := file_fold ss bs
      exact .mk hs hb hne h1 h2 h3 h4
    · simp at h
  · simp at h

theorem file_full {ts m} (h : IsFile ts m) : Ev (fun f => pFile f ts) m := by
  cases h with
  | @mk w u ss bs m hs hb hne h1 h2 h3 h4 =>
    refine (specials_full hs (seq_block_head hb)).two (blocks_full hb hne) fun f e1 e2 => ?_
    unfold pFile
    rw [e1]
    dsimp only
    rw [e2]
    dsimp only
    obtain ⟨g1, g2, g3, g4⟩ := file_fold ss bs
    congr 1
    generalize ({ ss.foldl GFile.addSpecial {} with blocks := bs } : GFile) = m' at *
    cases m; cases m'
    simp only at *
    subst h1 h2 h3 h4 g1 g2 g3 g4
    rfl

end GE.Gcn

namespace GE
open Gcn

/-- **C107**: the parser accepts exactly the token sequences that are files, and returns what they stand for -/
theorem C107_grammar (ts : List Tok) (m : GFile) : (∃ f, pFile f ts = some m) ↔ IsFile ts m :=
  ⟨fun ⟨_, h⟩ => file_sound h, fun h => let ⟨F, hF⟩ := file_full h; ⟨F, hF F (Nat.le_refl F)⟩⟩

/-- **C107**: a text is parsed to a model exactly when it spells the tokens of a file that stands for the model -/
theorem C107_parse (s : List Char) (m : GFile) : ParseGcn s m ↔ ∃ ts, SpellsToks s ts ∧ IsFile ts m := by
  unfold ParseGcn
  constructor
  · rintro ⟨ts, h1, h2⟩; exact ⟨ts, (C106_reading s ts).1 h1, (C107_grammar ts m).1 h2⟩
  · rintro ⟨ts, h1, h2⟩; exact ⟨ts, (C106_reading s ts).2 h1, (C107_grammar ts m).2 h2⟩

/-- **C107**: the grammar is unambiguous -/
theorem C107_unique (s : List Char) (m m' : GFile) (h : ParseGcn s m) (h' : ParseGcn s m') : m = m' := by
  obtain ⟨ts, h1, h2⟩ := h
  obtain ⟨ts', h1', h2'⟩ := h'
  rw [h1] at h1'
  cases h1'
  exact (file_full ((C107_grammar ts m).1 h2)).eq (file_full ((C107_grammar ts m').1 h2'))

/-- **C107**: special blocks come first: no file has a special block anywhere after a model block -/
theorem C107_special_first (b sp r : List Tok) (bs : List GBlock) (s : Special) (hb : Seq IsBlock b bs) (hne : bs ≠ []) (hs : IsSpecial sp s) :
    ¬ ∃ m, IsFile (b ++ (sp ++ r)) m := by
  rintro ⟨m, hm⟩
  have key : ∀ {b bs}, Seq IsBlock b bs → ∀ cs, ¬ Seq IsBlock (b ++ (sp ++ r)) cs := by
    intro b bs hb
    induction hb with
    | nil =>
      intro cs h
      obtain ⟨k, w', rfl, hk⟩ := special_head hs
      have := seq_block_head h k (w' ++ r) (by simp)
      rw [hk] at this
      exact absurd this (by simp)
    | @cons w u c cs' hc _ ih =>
      intro cs h
      generalize hW : w ++ u ++ (sp ++ r) = W at h
      cases h with
      | nil =>
        obtain ⟨k, w', rfl, _⟩ := block_head hc
        simp at hW
      | @cons w2 u2 c2 cs2 hc2 hs2 =>
        have h1 := block_full _ c (u ++ (sp ++ r)) hc trivial
        have h2 := block_full _ c2 u2 hc2 trivial
        rw [← List.append_assoc, hW] at h1
        have := h1.eq h2
        simp only [Prod.mk.injEq] at this
        exact ih cs2 (this.2 ▸ hs2)
  generalize hW : b ++ (sp ++ r) = W at hm
  cases hm with
  | @mk w u ss cs m hss hcs hcne _ _ _ _ =>
    cases hss with
    | nil => rw [List.nil_append] at hW; exact key hb cs (hW ▸ hcs)
    | cons hx _ =>
      obtain ⟨k, w', rfl, hk⟩ := special_head hx
      cases hb with
      | nil => exact hne rfl
      | cons hy _ =>
        obtain ⟨k', w'', rfl, hk'⟩ := block_head hy
        simp only [List.cons_append, List.cons.injEq, Tok.id.injEq] at hW
        rw [hW.1, hk] at hk'
        exact absurd hk' (by simp)

/-- **C107**: a minus sign binds tighter than a power: `-x ^ v` is `(-x) ^ v` -/
theorem C107_minus_power (x : Str) (v : Rat) (e : Expr) :
    ParsesAs [.op .sub, .id x, .op .pow, .num v] e ↔ e = .bin .pow (.neg (.par x)) (.num v) := by
  have h : IsSum [.op .sub, .id x, .op .pow, .num v] (.bin .pow (.neg (.par x)) (.num v)) :=
    .one (.one (.pow (ts := [.op .sub, .id x]) (us := [.num v]) (.neg (.atom .par)) (.base (.atom .num))))
  constructor
  · intro he; exact C107_expressions_unique _ _ _ ((C107_expressions _ _).1 he) h
  · rintro rfl; exact (C107_expressions _ _).2 h

/-! ### a file -/

/-- all kinds of phrases -/
def gcnText : List Char := ("options { output logfile = TRUE; language = julia; };\n tryreduce { U[], TC[]; };\n" ++
  "assumptions { Positive { C[], K; }; }; # signs\n" ++
  "block HOUSEHOLD\n{ controls { C[], K[]; };\n objective { U[] = u[] + beta * E[][U[1]]; };\n" ++
  " constraints { @exclude C[] = -K[-1] ^ alpha : lambda[]; };\n" ++
  " shocks { epsilon[] ~ Normal(mu=0, sigma=sigma_eps); eta[]; };\n" ++
  " calibration { beta ~ maxent(Beta(), lower=0.9, upper=2-1.5) = 0.95; K[ss] / C[ss] = 3 -> delta; rho = 0.5; rho = bar; }; };\n").toList

/-- what is in each block: name, controls, shocks, numbers of equations -/
def GBlock.summary (b : GBlock) : Str × List Str × List Str × List Nat :=
  (b.name, b.controls.map (·.name), b.shocks.map (·.name),
    [b.definitions.length, b.objective.length, b.constraints.length, b.identities.length, b.calibration.length])
/-- the priors of a block -/
def GBlock.priors (b : GBlock) : List (Str × Str × List Str × Option Rat) :=
  (b.shockDists ++ b.calibration.filterMap fun | .prior d => some d | _ => none).map fun d =>
      (d.param, d.dist, (d.kwargs ++ d.wrapperKwargs).map Prod.fst, d.initial)

/-- its tokens -/
def gcnToks : List Tok := [
  .id "options".toList, .lbrace, .id "output".toList, .id "logfile".toList, .eq, .id "TRUE".toList, .semi, .id "language".toList,
  .eq, .id "julia".toList, .semi, .rbrace, .semi, .id "tryreduce".toList, .lbrace, .id "U".toList, .tix (.t 0), .comma, .id
  "TC".toList, .tix (.t 0), .semi, .rbrace, .semi, .id "assumptions".toList, .lbrace, .id "Positive".toList, .lbrace, .id
  "C".toList, .tix (.t 0), .comma, .id "K".toList, .semi, .rbrace, .semi, .rbrace, .semi, .id "block".toList, .id
  "HOUSEHOLD".toList, .lbrace, .id "controls".toList, .lbrace, .id "C".toList, .tix (.t 0), .comma, .id "K".toList, .tix (.t 0),
  .semi, .rbrace, .semi, .id "objective".toList, .lbrace, .id "U".toList, .tix (.t 0), .eq, .id "u".toList, .tix (.t 0), .op .add,
  .id "beta".toList, .op .mul, .expectOpen, .id "U".toList, .tix (.t 1), .rbr, .semi, .rbrace, .semi, .id "constraints".toList,
  .lbrace, .tag .exclude, .id "C".toList, .tix (.t 0), .eq, .op .sub, .id "K".toList, .tix (.t (-1)), .op .pow, .id "alpha".toList,
  .colon, .id "lambda".toList, .tix (.t 0), .semi, .rbrace, .semi, .id "shocks".toList, .lbrace, .id "epsilon".toList, .tix (.t 0),
  .tilde, .id "Normal".toList, .lpar, .id "mu".toList, .eq, .num 0, .comma, .id "sigma".toList, .eq, .id "sigma_eps".toList, .rpar,
  .semi, .id "eta".toList, .tix (.t 0), .semi, .rbrace, .semi, .id "calibration".toList, .lbrace, .id "beta".toList, .tilde, .id
  "maxent".toList, .lpar, .id "Beta".toList, .lpar, .rpar, .comma, .id "lower".toList, .eq, .num (9/10), .comma, .id "upper".toList,
  .eq, .num 2, .op .sub, .num (3/2), .rpar, .eq, .num (19/20), .semi, .id "K".toList, .tix .ss, .op .div, .id "C".toList, .tix .ss,
  .eq, .num 3, .arrow, .id "delta".toList, .semi, .id "rho".toList, .eq, .num (1/2), .semi, .id "rho".toList, .eq, .id "bar".toList,
  .semi, .rbrace, .semi, .rbrace, .semi]
theorem gcnText_toks : lexText gcnText = some gcnToks := by decide +kernel
theorem gcnText_parse : (pFile 40 gcnToks).isSome := by decide +kernel
@[irreducible] def gcnParsed : GFile := (pFile 40 gcnToks).get gcnText_parse
theorem gcnText_parsed : pFile 40 gcnToks = some gcnParsed := by unfold gcnParsed; exact (Option.some_get gcnText_parse).symm

/-- the text is a file, with these contents -/
example : ParseGcn gcnText gcnParsed := ⟨gcnToks, gcnText_toks, 40, gcnText_parsed⟩
example : gcnParsed.options.map Prod.fst = ["output logfile".toList, "language".toList] ∧
    gcnParsed.tryreduce = ["U".toList, "TC".toList] ∧ gcnParsed.assumptions.map Prod.fst = ["C".toList, "K".toList] := by decide +kernel
example : gcnParsed.blocks.map GBlock.summary = [("HOUSEHOLD".toList, ["C".toList, "K".toList], ["epsilon".toList, "eta".toList],
    [0, 1, 1, 0, 4])] := by decide +kernel
example : gcnParsed.blocks.flatMap GBlock.priors = [("epsilon".toList, "Normal".toList, ["mu".toList, "sigma".toList], none),
    ("beta".toList, "Beta".toList, ["lower".toList, "upper".toList], some (19 / 20))] := by decide +kernel

/-- **C107**: the names the grammar treats as assumptions, wrappers and distributions are the documented ones -/
theorem C107_names (s : String) :
    (s.toList ∈ assumptionNames ↔ s ∈ docAssumptions) ∧ (s.toList ∈ wrappers ↔ s ∈ docWrappers) ∧ (s.toList ∈ dists ↔ s ∈ docDists) := by
  have key : ∀ l : List String, s ∈ l ↔ s.toList ∈ l.map String.toList := fun l =>
    ⟨fun h => List.mem_map.2 ⟨s, h, rfl⟩, fun h => by
      obtain ⟨t, ht, e⟩ := List.mem_map.1 h
      rwa [← String.toList_injective e]⟩
  have perm : ∀ {a b : List Str}, a.all (fun x => b.contains x) = true → b.all (fun x => a.contains x) = true → ∀ x, x ∈ a ↔ x ∈ b := by
    intro a b h1 h2 x
    rw [List.all_eq_true] at h1 h2
    exact ⟨fun h => List.contains_iff_mem.1 (h1 x h), fun h => List.contains_iff_mem.1 (h2 x h)⟩
  rw [key, key, key]
  exact ⟨perm (by decide +kernel) (by decide +kernel) _, perm (by decide +kernel) (by decide +kernel) _,
    perm (by decide +kernel) (by decide +kernel) _⟩

example : "finite".toList ∈ assumptionNames ∧ "Beta_bar".toList ∉ dists := by
  constructor
  · exact (C107_names "finite").1.2 (by decide)
  · exact fun h => absurd ((C107_names "Beta_bar").2.2.1 h) (by decide)

/-- **C107**, violated: a calibration equation cannot name, first on its right side, a parameter whose name only *starts* like a
distribution (`Beta_bar`): the text is an equation, but no file has it in its calibration -/
theorem C107_prior_prefix_violated :
    ParseGcn "block A { calibration { delta = bar / 2; }; };".toList
      { blocks := [{ name := "A".toList, calibration := [.eq { lhs := .par "delta".toList, rhs := .bin .div (.par "bar".toList) (.num 2), lagrange := none, calibrating := none, tags := [] }] }] } ∧
    ¬ ∃ m, ParseGcn "block A { calibration { delta = Beta_bar / 2; }; };".toList m := by
  constructor
  · exact ⟨_, (by decide +kernel : _ = some [Tok.id "block".toList, .id "A".toList, .lbrace, .id "calibration".toList, .lbrace, .id "delta".toList,
      .eq, .id "bar".toList, .op .div, .num 2, .semi, .rbrace, .semi, .rbrace, .semi]), 20, rfl⟩
  · rintro ⟨m, ts, h1, f, h2⟩
    have e : lexText "block A { calibration { delta = Beta_bar / 2; }; };".toList = some [Tok.id "block".toList, .id "A".toList, .lbrace,
      .id "calibration".toList, .lbrace, .id "delta".toList, .eq, .id "Beta_bar".toList, .op .div, .num 2, .semi, .rbrace, .semi, .rbrace, .semi] := by
      decide +kernel
    rw [e] at h1
    cases h1
    have : ∀ f, pFile f [Tok.id "block".toList, .id "A".toList, .lbrace,
      .id "calibration".toList, .lbrace, .id "delta".toList, .eq, .id "Beta_bar".toList, .op .div, .num 2, .semi, .rbrace, .semi, .rbrace, .semi] = none := by
      intro f
      rcases f with _ | _ | _ | _ | f <;> rfl
    rw [this] at h2
    cases h2

end GE
