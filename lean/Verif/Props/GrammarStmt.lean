import Verif.Props.GrammarExpr
/-! # C107, equations and priors: soundness and completeness of the statement parsers -/

namespace GE.Gcn

/-- for all large fuels -/
def Ev {α} (p : Nat → Option α) (x : α) : Prop := ∃ F, ∀ f, F ≤ f → p f = some x

theorem Ev.up {α} {p : Nat → Option α} {x : α} (h : Ev (fun f => p (f + 1)) x) : Ev p x := by
  obtain ⟨F, h⟩ := h
  refine ⟨F + 1, fun f hf => ?_⟩
  obtain ⟨g, rfl⟩ : ∃ g, f = g + 1 := ⟨f - 1, by omega⟩
  exact h g (by omega)

theorem Ev.two {α β γ} {p : Nat → Option α} {q : Nat → Option β} {s : Nat → Option γ} {x y z} (hp : Ev p x) (hq : Ev q y)
    (h : ∀ f, p f = some x → q f = some y → s f = some z) : Ev s z := by
  obtain ⟨F, hp⟩ := hp; obtain ⟨G, hq⟩ := hq
  exact ⟨max F G, fun f hf => h f (hp f (by omega)) (hq f (by omega))⟩

theorem Ev.one {α γ} {p : Nat → Option α} {s : Nat → Option γ} {x z} (hp : Ev p x)
    (h : ∀ f, p f = some x → s f = some z) : Ev s z := by
  obtain ⟨F, hp⟩ := hp
  exact ⟨F, fun f hf => h f (hp f hf)⟩

theorem Ev.const {α} {p : Nat → Option α} {x : α} (h : ∀ f, p f = some x) : Ev p x := ⟨0, fun f _ => h f⟩

theorem Ev.eq {α} {p : Nat → Option α} {x y : α} (hx : Ev p x) (hy : Ev p y) : x = y := by
  obtain ⟨F, hx⟩ := hx; obtain ⟨G, hy⟩ := hy
  have h1 := hx (max F G) (by omega)
  rw [hy (max F G) (by omega)] at h1
  exact (Option.some.inj h1).symm

theorem add_ev {w e r} (h : IsSum w e) (hr : ok1 r) : Ev (fun f => pAdd f (w ++ r)) (e, r) := by
  obtain ⟨F, hF⟩ := sum_parses h hr
  exact ⟨F, fun f hf => mono_le (fun f => pAdd f (w ++ r)) (fun f x => (mono_all f).2.2.2.2.2.1 _ x) hf hF⟩

/-! ### the first token of an expression -/

/-- an expression can start with it -/
def startTok : Tok → Prop
  | .num _ => True
  | .id _ => True
  | .op .sub => True
  | .lpar => True
  | .expectOpen => True
  | _ => False

def Starts (w : List Tok) : Prop := ∃ t r, w = t :: r ∧ startTok t

theorem Starts.app {w u : List Tok} (h : Starts w) : Starts (w ++ u) := by
  obtain ⟨t, r, rfl, h⟩ := h
  exact ⟨t, r ++ u, rfl, h⟩

theorem atom_starts {w e} (h : IsAtom w e) : Starts w := by
  cases h <;> exact ⟨_, _, rfl, trivial⟩

mutual
theorem signed_starts : ∀ {w e}, IsSigned w e → Starts w
  | _, _, .atom h => atom_starts h
  | _, _, .neg _ => ⟨_, _, rfl, trivial⟩
theorem power_starts : ∀ {w e}, IsPower w e → Starts w
  | _, _, .base h => signed_starts h
  | _, _, .pow h _ => (signed_starts h).app
theorem product_starts : ∀ {w e}, IsProduct w e → Starts w
  | _, _, .one h => power_starts h
  | _, _, .mul h _ => (product_starts h).app
  | _, _, .div h _ => (product_starts h).app
theorem sum_starts : ∀ {w e}, IsSum w e → Starts w
  | _, _, .one h => product_starts h
  | _, _, .add h _ => (sum_starts h).app
  | _, _, .sub h _ => (sum_starts h).app
end

/-! ### equations -/

theorem tags_sound : ∀ ts, ts = (pTags ts).1.map Tok.tag ++ (pTags ts).2
  | [] => rfl
  | t :: ts => by
    cases t with
    | tag t => simp only [pTags, List.map_cons, List.cons_append]; rw [← tags_sound ts]
    | _ => rfl

theorem tags_complete : ∀ (tags : List Tag) {r}, Starts r → pTags (tags.map Tok.tag ++ r) = (tags, r)
  | [], r, ⟨t, r', e, h⟩ => by
    subst e
    cases t <;> first | rfl | exact absurd h (by simp [startTok])
  | t :: tags, r, h => by
    simp only [List.map_cons, List.cons_append, pTags, tags_complete tags h]

theorem mult_sound (ts) : ∃ m, ts = m ++ (pLagrange ts).2 ∧ IsMultiplier m (pLagrange ts).1 := by
  unfold pLagrange
  split
  · rename_i n t r
    exact ⟨[.colon, .id n, .tix t], rfl, .some⟩
  · exact ⟨[], rfl, .none⟩

theorem target_sound (ts) : ∃ c, ts = c ++ (pCalibrating ts).2 ∧ IsTarget c (pCalibrating ts).1 := by
  unfold pCalibrating
  split
  · exact ⟨_, by simp, .some⟩
  · exact ⟨[], rfl, .none⟩

theorem eqn_sound (f : Nat) (ts : List Tok) (e : Eqn) (r : List Tok) (h : pEqn f ts = some (e, r)) : ∃ w, ts = w ++ r ∧ IsEqn w e := by
  unfold pEqn at h
  have ht := tags_sound ts
  dsimp only at h
  split at h
  · rename_i l r1 hl
    obtain ⟨w1, hw1, hs1⟩ := (expr_sound f).2.2.2.2.2.1 _ _ _ hl
    split at h
    · rename_i rhs r2 hr
      obtain ⟨w2, hw2, hs2⟩ := (expr_sound f).2.2.2.2.2.1 _ _ _ hr
      obtain ⟨m, hm, hms⟩ := mult_sound r2
      obtain ⟨c, hc, hcs⟩ := target_sound (pLagrange r2).2
      split at h
      · rename_i r3 h3
        simp only [Option.some.injEq, Prod.mk.injEq] at h
        obtain ⟨rfl, rfl⟩ := h
        refine ⟨_, ?_, .mk (tags := (pTags ts).1) hs1 hs2 hms hcs⟩
        rw [h3] at hc
        rw [hc] at hm
        rw [hm] at hw2
        rw [hw2] at hw1
        rw [hw1] at ht
        simpa using ht
      · simp at h
    · simp at h
  · simp at h

theorem mult_complete {m lag c cal} (hm : IsMultiplier m lag) (hc : IsTarget c cal) (r : List Tok) :
    pLagrange (m ++ (c ++ (.semi :: r))) = (lag, c ++ (.semi :: r)) := by
  cases hm with
  | some => rfl
  | none => cases hc <;> rfl

theorem target_complete {c cal} (hc : IsTarget c cal) (r : List Tok) : pCalibrating (c ++ (.semi :: r)) = (cal, .semi :: r) := by
  cases hc <;> rfl

theorem eqn_complete {w e} (h : IsEqn w e) (r : List Tok) : Ev (fun f => pEqn f (w ++ r)) (e, r) := by
  cases h with
  | @mk tags l rr m c le re lag cal hl hr hm hc =>
    have h1 := add_ev hl (r := .eq :: (rr ++ (m ++ (c ++ (.semi :: r))))) (by simp [ok1, ok2, ok3, ok4])
    have hok : ok1 (m ++ (c ++ (.semi :: r))) := by cases hm <;> cases hc <;> simp [ok1, ok2, ok3, ok4]
    have h2 := add_ev hr hok
    refine h1.two h2 fun f e1 e2 => ?_
    have ha : tags.map Tok.tag ++ (l ++ .eq :: (rr ++ (m ++ (c ++ [.semi])))) ++ r
        = tags.map Tok.tag ++ (l ++ .eq :: (rr ++ (m ++ (c ++ (.semi :: r))))) := by simp
    unfold pEqn
    rw [ha, tags_complete tags (sum_starts hl).app]
    dsimp only
    rw [e1]
    dsimp only
    rw [e2]
    dsimp only
    rw [mult_complete hm hc r]
    dsimp only
    rw [target_complete hc r]

theorem eqn_head {w e} (h : IsEqn w e) : ∃ t r, w = t :: r ∧ t ≠ .rbrace := by
  cases h with
  | @mk tags l rr m c le re lag cal hl hr hm hc =>
    cases tags with
    | nil =>
      obtain ⟨t, r, rfl, ht⟩ := sum_starts hl
      exact ⟨t, _, rfl, by rintro rfl; simp [startTok] at ht⟩
    | cons t tags => exact ⟨_, _, rfl, by simp⟩

/-! ### number expressions -/

theorem chain_sound (f : Nat) :
    (∀ ts a r, pNAtom f ts = some (a, r) → ∃ w, ts = w ++ r ∧ IsOperand w a) ∧
    (∀ ts c r, pNChain f ts = some (c, r) → ∃ w, ts = w ++ r ∧ IsChain w c) ∧
    (∀ c ts c' r u, IsChain u c → pNLoop f c ts = some (c', r) → ∃ w, ts = w ++ r ∧ IsChain (u ++ w) c') := by
  induction f with
  | zero => refine ⟨?_, ?_, ?_⟩ <;> intros <;> simp_all [pNAtom, pNChain, pNLoop]
  | succ f ih =>
    obtain ⟨h1, h2, h3⟩ := ih
    refine ⟨?_, ?_, ?_⟩
    · intro ts a r h
      unfold pNAtom at h
      split at h
      · simp at h
      · simp only [Option.some.injEq, Prod.mk.injEq] at h
        obtain ⟨rfl, rfl⟩ := h
        exact ⟨_, List.singleton_append.symm, .num⟩
      · simp only [Option.some.injEq, Prod.mk.injEq] at h
        obtain ⟨rfl, rfl⟩ := h
        exact ⟨_, by simp, .minus⟩
      · simp only [Option.some.injEq, Prod.mk.injEq] at h
        obtain ⟨rfl, rfl⟩ := h
        exact ⟨_, by simp, .plus⟩
      · rename_i heq; cases heq
        split at h
        · rename_i c r' hc
          simp only [Option.some.injEq, Prod.mk.injEq] at h
          obtain ⟨rfl, rfl⟩ := h
          obtain ⟨w, hw, hs⟩ := h2 _ _ _ hc
          exact ⟨_, by rw [hw]; simp, .paren hs⟩
        · simp at h
      · simp at h
    · intro ts c r h
      unfold pNChain at h
      split at h
      · rename_i a r' ha
        obtain ⟨w, hw, hs⟩ := h1 _ _ _ ha
        obtain ⟨w2, hw2, hs2⟩ := h3 _ _ _ _ _ (.one hs) h
        exact ⟨_, by rw [hw, hw2]; simp, hs2⟩
      · simp at h
    · intro c ts c' r u hu h
      unfold pNLoop at h
      split at h
      · simp at h
      · rename_i o us heq; cases heq
        split at h
        · rename_i o' ho
          split at h
          · rename_i a r' ha
            obtain ⟨w, hw, hs⟩ := h1 _ _ _ ha
            have : ∀ c, IsChain u c → IsChain (u ++ .op o :: w) (.snoc c o' a) := by
              intro c hu
              cases o <;> simp [nop] at ho <;> subst ho
              · exact .add hu hs
              · exact .sub hu hs
              · exact .mul hu hs
              · exact .div hu hs
            obtain ⟨w2, hw2, hs2⟩ := h3 _ _ _ _ _ (this _ hu) h
            exact ⟨.op o :: (w ++ w2), by rw [hw, hw2]; simp, by simpa using hs2⟩
          · simp at h
        · simp only [Option.some.injEq, Prod.mk.injEq] at h
          obtain ⟨rfl, rfl⟩ := h
          exact ⟨[], rfl, by simpa using hu⟩
      · simp only [Option.some.injEq, Prod.mk.injEq] at h
        obtain ⟨rfl, rfl⟩ := h
        exact ⟨[], rfl, by simpa using hu⟩

/-- what follows is no operator of number expressions -/
def okN : List Tok → Prop
  | .op .add :: _ => False
  | .op .sub :: _ => False
  | .op .mul :: _ => False
  | .op .div :: _ => False
  | _ => True

theorem nloop_end {c r} (h : okN r) : Ev (fun f => pNLoop f c r) (c, r) := by
  refine Ev.up (Ev.const fun f => ?_)
  cases r with
  | nil => rfl
  | cons t r =>
    cases t with
    | op o => cases o <;> first | rfl | (simp [okN] at h)
    | _ => rfl

theorem nloop_step {o o' c us a rest x} (ho : nop o = some o') (ha : Ev (fun f => pNAtom f us) (a, rest))
    (hl : Ev (fun f => pNLoop f (.snoc c o' a) rest) x) : Ev (fun f => pNLoop f c (.op o :: us)) x := by
  refine Ev.up (ha.two hl fun f h1 h2 => ?_)
  rw [pNLoop, ho]
  dsimp only
  rw [h1]
  exact h2

mutual
theorem operand_complete : ∀ {w a}, IsOperand w a → ∀ r, Ev (fun f => pNAtom f (w ++ r)) (a, r)
  | _, _, .num, r => Ev.up (Ev.const fun _ => rfl)
  | _, _, .plus, r => Ev.up (Ev.const fun _ => rfl)
  | _, _, .minus, r => Ev.up (Ev.const fun _ => rfl)
  | _, _, .paren (ts := ts) (c := c) h, r => by
    have := chain_complete h (.rpar :: r) _ (nloop_end (by simp [okN]))
    refine Ev.up (this.one fun f h1 => ?_)
    have e : Tok.lpar :: (ts ++ [.rpar]) ++ r = .lpar :: (ts ++ .rpar :: r) := by simp
    rw [e, pNAtom, h1]
theorem chain_complete : ∀ {w c}, IsChain w c → ∀ rest x, Ev (fun f => pNLoop f c rest) x → Ev (fun f => pNChain f (w ++ rest)) x
  | _, _, .one h, rest, x, hl => by
    refine Ev.up ((operand_complete h rest).two hl fun f h1 h2 => ?_)
    rw [pNChain, h1]
    exact h2
  | _, _, .add h h', rest, x, hl => by
    rw [List.append_assoc]
    exact chain_complete h _ _ (nloop_step rfl (operand_complete h' rest) hl)
  | _, _, .sub h h', rest, x, hl => by
    rw [List.append_assoc]
    exact chain_complete h _ _ (nloop_step rfl (operand_complete h' rest) hl)
  | _, _, .mul h h', rest, x, hl => by
    rw [List.append_assoc]
    exact chain_complete h _ _ (nloop_step rfl (operand_complete h' rest) hl)
  | _, _, .div h h', rest, x, hl => by
    rw [List.append_assoc]
    exact chain_complete h _ _ (nloop_step rfl (operand_complete h' rest) hl)
end

theorem chain_ev {w c r} (h : IsChain w c) (hr : okN r) : Ev (fun f => pNChain f (w ++ r)) (c, r) :=
  chain_complete h r _ (nloop_end hr)

theorem operand_head {w a} (h : IsOperand w a) : ∃ t r, w = t :: r ∧ ∀ n, t ≠ .id n := by
  cases h <;> exact ⟨_, _, rfl, by simp⟩

theorem chain_head : ∀ {w c}, IsChain w c → ∃ t r, w = t :: r ∧ ∀ n, t ≠ .id n
  | _, _, .one h => operand_head h
  | _, _, .add h _ => by obtain ⟨t, r, rfl, h2⟩ := chain_head h; exact ⟨t, _, rfl, h2⟩
  | _, _, .sub h _ => by obtain ⟨t, r, rfl, h2⟩ := chain_head h; exact ⟨t, _, rfl, h2⟩
  | _, _, .mul h _ => by obtain ⟨t, r, rfl, h2⟩ := chain_head h; exact ⟨t, _, rfl, h2⟩
  | _, _, .div h _ => by obtain ⟨t, r, rfl, h2⟩ := chain_head h; exact ⟨t, _, rfl, h2⟩

/-! ### arguments -/

/-- soundness of a parser for a phrase -/
def Sound {α} (p : Nat → List Tok → Option (α × List Tok)) (P : List Tok → α → Prop) : Prop :=
  ∀ f ts a r, p f ts = some (a, r) → ∃ w, ts = w ++ r ∧ P w a

/-- completeness of a parser before texts of a kind -/
def Full {α} (p : Nat → List Tok → Option (α × List Tok)) (P : List Tok → α → Prop) (ok : List Tok → Prop) : Prop :=
  ∀ w a r, P w a → ok r → Ev (fun f => p f (w ++ r)) (a, r)

theorem val_sound : Sound pArgVal IsRawVal := by
  intro f ts v r h
  unfold pArgVal at h
  split at h
  · split at h
    · rename_i hn
      simp only [Option.some.injEq, Prod.mk.injEq] at h
      obtain ⟨rfl, rfl⟩ := h
      exact ⟨_, by rw [hn]; exact List.singleton_append.symm, .none⟩
    · rename_i hn
      simp only [Option.some.injEq, Prod.mk.injEq] at h
      obtain ⟨rfl, rfl⟩ := h
      exact ⟨_, List.singleton_append.symm, .name hn⟩
  · split at h
    · rename_i c r' hc
      simp only [Option.some.injEq, Prod.mk.injEq] at h
      obtain ⟨rfl, rfl⟩ := h
      obtain ⟨w, hw, hs⟩ := (chain_sound f).2.1 _ _ _ hc
      exact ⟨w, hw, .number hs⟩
    · simp at h

theorem val_full : Full pArgVal IsRawVal okN := by
  intro w v r h hr
  cases h with
  | none => exact Ev.const fun f => by rw [List.singleton_append, pArgVal, if_pos rfl]
  | name hn => exact Ev.const fun f => by rw [List.singleton_append, pArgVal, if_neg hn]
  | number hc =>
    obtain ⟨t, r', rfl, hne⟩ := chain_head hc
    refine (chain_ev hc hr).one fun f h1 => ?_
    rw [List.cons_append] at h1 ⊢
    unfold pArgVal
    split
    · rename_i heq; simp only [List.cons.injEq] at heq; exact absurd heq.1 (hne _)
    · rw [h1]

theorem arg_sound : Sound pArg (IsArg IsRawVal) := by
  intro f ts v r h
  unfold pArg at h
  split at h
  · split at h
    · rename_i hv
      simp only [Option.some.injEq, Prod.mk.injEq] at h
      obtain ⟨rfl, rfl⟩ := h
      obtain ⟨w, hw, hs⟩ := val_sound _ _ _ _ hv
      exact ⟨_, by rw [hw]; simp, .mk hs⟩
    · simp at h
  · simp at h

theorem arg_full : Full pArg (IsArg IsRawVal) okN := by
  intro w v r h hr
  cases h with
  | mk hv =>
    refine (val_full _ _ _ hv hr).one fun f h1 => ?_
    rw [List.cons_append, List.cons_append, pArg, h1]

/-! ### lists -/

theorem listed_sound {α} {p : Nat → List Tok → Option (α × List Tok)} {P} (hp : Sound p P) : Sound (pListed p) (Listed P) := by
  intro f
  induction f with
  | zero => intro ts a r h; simp [pListed] at h
  | succ f ih =>
    intro ts as r h
    unfold pListed at h
    split at h
    · rename_i a r' ha
      obtain ⟨w, hw, hs⟩ := hp _ _ _ _ ha
      split at h
      · rename_i as' r2 has
        simp only [Option.some.injEq, Prod.mk.injEq] at h
        obtain ⟨rfl, rfl⟩ := h
        obtain ⟨w2, hw2, hs2⟩ := ih _ _ _ has
        exact ⟨_, by rw [hw, hw2]; simp, .cons hs hs2⟩
      · simp at h
    · rename_i a r' _ ha
      simp only [Option.some.injEq, Prod.mk.injEq] at h
      obtain ⟨rfl, rfl⟩ := h
      obtain ⟨w, hw, hs⟩ := hp _ _ _ _ ha
      exact ⟨w, hw, .one hs⟩
    · simp at h

theorem listed_full {α} {p : Nat → List Tok → Option (α × List Tok)} {P ok} (hp : Full p P ok) (hc : ∀ r, ok (.comma :: r)) :
    Full (pListed p) (Listed P) (fun r => ok r ∧ ∀ r', r ≠ .comma :: r') := by
  intro w as r h hr
  induction h with
  | @one w a ha =>
    refine Ev.up ((hp w a r ha hr.1).one fun f h1 => ?_)
    rw [pListed, h1]
    cases r with
    | nil => rfl
    | cons t r => cases t <;> first | rfl | exact absurd rfl (hr.2 _)
  | @cons w r' a as ha _ ih =>
    have h1 := hp w a (.comma :: (r' ++ r)) ha (hc _)
    refine Ev.up (h1.two ih fun f e1 e2 => ?_)
    rw [List.append_assoc, List.cons_append, pListed, e1]
    dsimp only
    rw [e2]

theorem until_sound {α} {p : Nat → List Tok → Option (α × List Tok)} {P} (hp : Sound p P) (f : Nat) :
    ∀ ts as r, pUntil p f ts = some (as, r) → ∃ w, ts = w ++ .rbrace :: r ∧ Seq P w as := by
  induction f with
  | zero => intro ts a r h; simp [pUntil] at h
  | succ f ih =>
    intro ts as r h
    unfold pUntil at h
    split at h
    · simp at h
    · simp only [Option.some.injEq, Prod.mk.injEq] at h
      obtain ⟨rfl, rfl⟩ := h
      exact ⟨[], rfl, .nil⟩
    · rename_i heq _; cases heq
      split at h
      · rename_i a r' ha
        obtain ⟨w, hw, hs⟩ := hp _ _ _ _ ha
        split at h
        · rename_i as' r2 has
          simp only [Option.some.injEq, Prod.mk.injEq] at h
          obtain ⟨rfl, rfl⟩ := h
          obtain ⟨w2, hw2, hs2⟩ := ih _ _ _ has
          exact ⟨_, by rw [hw, hw2]; simp, .cons hs hs2⟩
        · simp at h
      · simp at h

/-- phrases that do not start with `}` -/
def Inner {α} (P : List Tok → α → Prop) : Prop := ∀ w a, P w a → ∃ t r, w = t :: r ∧ t ≠ .rbrace

theorem until_full {α} {p : Nat → List Tok → Option (α × List Tok)} {P} (hp : Full p P fun _ => True) (hi : Inner P) {w as}
    (h : Seq P w as) (r : List Tok) : Ev (fun f => pUntil p f (w ++ .rbrace :: r)) (as, r) := by
  induction h with
  | nil => exact Ev.up (Ev.const fun _ => rfl)
  | @cons w r' a as ha _ ih =>
    obtain ⟨t, w', rfl, ht⟩ := hi _ _ ha
    have h1 := hp _ a (r' ++ .rbrace :: r) ha trivial
    refine Ev.up (h1.two ih fun f e1 e2 => ?_)
    rw [List.append_assoc, List.cons_append]
    rw [List.cons_append] at e1
    unfold pUntil
    split
    · rename_i h; cases h
    · rename_i heq; simp only [List.cons.injEq] at heq; exact absurd heq.1 ht
    · rename_i heq _; cases heq
      rw [e1]
      dsimp only
      rw [e2]

theorem braced_sound {α} {p : Nat → List Tok → Option (α × List Tok)} {P} (hp : Sound p P) : Sound (pBraced p) (Braced P) := by
  intro f ts as r h
  unfold pBraced at h
  split at h
  · split at h
    · rename_i as' r' has
      simp only [Option.some.injEq, Prod.mk.injEq] at h
      obtain ⟨rfl, rfl⟩ := h
      obtain ⟨w, hw, hs⟩ := until_sound hp _ _ _ _ has
      exact ⟨_, by rw [hw]; simp, .mk hs⟩
    · simp at h
  · simp at h

theorem braced_full {α} {p : Nat → List Tok → Option (α × List Tok)} {P} (hp : Full p P fun _ => True) (hi : Inner P) :
    Full (pBraced p) (Braced P) fun _ => True := by
  intro w as r h _
  cases h with
  | @mk ts as hs =>
    refine (until_full hp hi hs (.semi :: r)).one fun f h1 => ?_
    have e : Tok.lbrace :: (ts ++ [.rbrace, .semi]) ++ r = .lbrace :: (ts ++ .rbrace :: .semi :: r) := by simp
    rw [e, pBraced, h1]

end GE.Gcn
