import Verif.Model.GrammarSpec
import Verif.Props.Printer
/-! # C107, expressions: the expression parser accepts exactly the expressions of the language -/

namespace GE.Gcn

theorem expr_sound (f : Nat) :
    (∀ ts e r, pAtom f ts = some (e, r) → ∃ w, ts = w ++ r ∧ IsAtom w e) ∧
    (∀ ts e r, pUnary f ts = some (e, r) → ∃ w, ts = w ++ r ∧ IsSigned w e) ∧
    (∀ ts e r, pPow f ts = some (e, r) → ∃ w, ts = w ++ r ∧ IsPower w e) ∧
    (∀ ts e r, pMul f ts = some (e, r) → ∃ w, ts = w ++ r ∧ IsProduct w e) ∧
    (∀ a ts e r u, IsProduct u a → pMulLoop f a ts = some (e, r) → ∃ w, ts = w ++ r ∧ IsProduct (u ++ w) e) ∧
    (∀ ts e r, pAdd f ts = some (e, r) → ∃ w, ts = w ++ r ∧ IsSum w e) ∧
    (∀ a ts e r u, IsSum u a → pAddLoop f a ts = some (e, r) → ∃ w, ts = w ++ r ∧ IsSum (u ++ w) e) ∧
    (∀ ts es r, pArgs f ts = some (es, r) → ∃ w, ts = w ++ r ∧ IsArgs w es) := by
  induction f with
  | zero => refine ⟨?_, ?_, ?_, ?_, ?_, ?_, ?_, ?_⟩ <;> intros <;>
      simp_all [pAtom, pUnary, pPow, pMul, pMulLoop, pAdd, pAddLoop, pArgs]
  | succ f ih =>
    obtain ⟨h1, h2, h3, h4, h5, h6, h7, h8⟩ := ih
    refine ⟨?_, ?_, ?_, ?_, ?_, ?_, ?_, ?_⟩
    · intro ts e r h
      unfold pAtom at h
      split at h
      · simp at h
      · rename_i heq; cases heq
        split at h
        · rename_i e' r' hp
          simp only [Option.some.injEq, Prod.mk.injEq] at h
          obtain ⟨rfl, rfl⟩ := h
          obtain ⟨w, hw, hs⟩ := h6 _ _ _ hp
          exact ⟨_, by rw [hw]; simp, .expect hs⟩
        · simp at h
      · rename_i heq; cases heq
        split at h
        · rename_i as r' hp
          simp only [Option.some.injEq, Prod.mk.injEq] at h
          obtain ⟨rfl, rfl⟩ := h
          obtain ⟨w, hw, hs⟩ := h8 _ _ _ hp
          exact ⟨_, by rw [hw]; simp, .call hs⟩
        · simp at h
      · simp only [Option.some.injEq, Prod.mk.injEq] at h
        obtain ⟨rfl, rfl⟩ := h
        exact ⟨_, by simp, .var⟩
      · simp only [Option.some.injEq, Prod.mk.injEq] at h
        obtain ⟨rfl, rfl⟩ := h
        exact ⟨_, List.singleton_append.symm, .par⟩
      · simp only [Option.some.injEq, Prod.mk.injEq] at h
        obtain ⟨rfl, rfl⟩ := h
        exact ⟨_, List.singleton_append.symm, .num⟩
      · rename_i heq; cases heq
        split at h
        · rename_i e' r' hp
          simp only [Option.some.injEq, Prod.mk.injEq] at h
          obtain ⟨rfl, rfl⟩ := h
          obtain ⟨w, hw, hs⟩ := h6 _ _ _ hp
          exact ⟨_, by rw [hw]; simp, .paren hs⟩
        · simp at h
      · simp at h
    · intro ts e r h
      unfold pUnary at h
      split at h
      · simp at h
      · rename_i heq; cases heq
        split at h
        · rename_i e' r' hp
          simp only [Option.some.injEq, Prod.mk.injEq] at h
          obtain ⟨rfl, rfl⟩ := h
          obtain ⟨w, hw, hs⟩ := h2 _ _ _ hp
          exact ⟨_, by rw [hw]; rfl, .neg hs⟩
        · simp at h
      · rename_i heq _; cases heq
        obtain ⟨w, hw, hs⟩ := h1 _ _ _ h
        exact ⟨w, hw, .atom hs⟩
    · intro ts e r h
      unfold pPow at h
      split at h
      · rename_i a r' hp
        obtain ⟨w, hw, hs⟩ := h2 _ _ _ hp
        split at h
        · rename_i b r2 hq
          simp only [Option.some.injEq, Prod.mk.injEq] at h
          obtain ⟨rfl, rfl⟩ := h
          obtain ⟨w2, hw2, hs2⟩ := h3 _ _ _ hq
          exact ⟨_, by rw [hw, hw2]; simp, .pow hs hs2⟩
        · simp at h
      · obtain ⟨w, hw, hs⟩ := h2 _ _ _ h
        exact ⟨w, hw, .base hs⟩
    · intro ts e r h
      unfold pMul at h
      split at h
      · rename_i a r' hp
        obtain ⟨w, hw, hs⟩ := h3 _ _ _ hp
        obtain ⟨w2, hw2, hs2⟩ := h5 _ _ _ _ _ (.one hs) h
        exact ⟨_, by rw [hw, hw2]; simp, hs2⟩
      · simp at h
    · intro a ts e r u hu h
      unfold pMulLoop at h
      split at h
      · simp at h
      · rename_i heq; cases heq
        split at h
        · rename_i b r' hp
          obtain ⟨w, hw, hs⟩ := h3 _ _ _ hp
          obtain ⟨w2, hw2, hs2⟩ := h5 _ _ _ _ _ (.mul hu hs) h
          exact ⟨.op .mul :: (w ++ w2), by rw [hw, hw2]; simp, by simpa using hs2⟩
        · simp at h
      · rename_i heq; cases heq
        split at h
        · rename_i b r' hp
          obtain ⟨w, hw, hs⟩ := h3 _ _ _ hp
          obtain ⟨w2, hw2, hs2⟩ := h5 _ _ _ _ _ (.div hu hs) h
          exact ⟨.op .div :: (w ++ w2), by rw [hw, hw2]; simp, by simpa using hs2⟩
        · simp at h
      · simp only [Option.some.injEq, Prod.mk.injEq] at h
        obtain ⟨rfl, rfl⟩ := h
        exact ⟨[], rfl, by simpa using hu⟩
    · intro ts e r h
      unfold pAdd at h
      split at h
      · rename_i a r' hp
        obtain ⟨w, hw, hs⟩ := h4 _ _ _ hp
        obtain ⟨w2, hw2, hs2⟩ := h7 _ _ _ _ _ (.one hs) h
        exact ⟨_, by rw [hw, hw2]; simp, hs2⟩
      · simp at h
    · intro a ts e r u hu h
      unfold pAddLoop at h
      split at h
      · simp at h
      · rename_i heq; cases heq
        split at h
        · rename_i b r' hp
          obtain ⟨w, hw, hs⟩ := h4 _ _ _ hp
          obtain ⟨w2, hw2, hs2⟩ := h7 _ _ _ _ _ (.add hu hs) h
          exact ⟨.op .add :: (w ++ w2), by rw [hw, hw2]; simp, by simpa using hs2⟩
        · simp at h
      · rename_i heq; cases heq
        split at h
        · rename_i b r' hp
          obtain ⟨w, hw, hs⟩ := h4 _ _ _ hp
          obtain ⟨w2, hw2, hs2⟩ := h7 _ _ _ _ _ (.sub hu hs) h
          exact ⟨.op .sub :: (w ++ w2), by rw [hw, hw2]; simp, by simpa using hs2⟩
        · simp at h
      · simp only [Option.some.injEq, Prod.mk.injEq] at h
        obtain ⟨rfl, rfl⟩ := h
        exact ⟨[], rfl, by simpa using hu⟩
    · intro ts e r h
      unfold pArgs at h
      split at h
      · rename_i a r' hp
        obtain ⟨w, hw, hs⟩ := h6 _ _ _ hp
        split at h
        · rename_i as r2 hq
          simp only [Option.some.injEq, Prod.mk.injEq] at h
          obtain ⟨rfl, rfl⟩ := h
          obtain ⟨w2, hw2, hs2⟩ := h8 _ _ _ hq
          exact ⟨_, by rw [hw, hw2]; simp, .cons hs hs2⟩
        · simp at h
      · rename_i a r' _ hp
        simp only [Option.some.injEq, Prod.mk.injEq] at h
        obtain ⟨rfl, rfl⟩ := h
        obtain ⟨w, hw, hs⟩ := h6 _ _ _ hp
        exact ⟨w, hw, .one hs⟩
      · simp at h

theorem r_num {v r} : RAtom (.num v :: r) (.num v, r) := ⟨1, rfl⟩
theorem r_var {n t r} : RAtom (.id n :: .tix t :: r) (.var n t, r) := ⟨1, rfl⟩
theorem r_par {n r} (h : ok4 r) : RAtom (.id n :: r) (.par n, r) := by
  refine ⟨1, ?_⟩
  cases r with
  | nil => rfl
  | cons t r => cases t <;> first | rfl | (simp [ok4] at h)

mutual
theorem atom_complete : ∀ {w e}, IsAtom w e → ∀ r, ok4 r → RAtom (w ++ r) (e, r)
  | _, _, .num, _, _ => r_num
  | _, _, .par, _, h => r_par h
  | _, _, .var, _, _ => r_var
  | _, _, .call ha, r, _ => by
    simp only [List.cons_append, List.append_assoc, List.singleton_append]
    exact r_call (args_complete ha r)
  | _, _, .expect hs, r, _ => by
    simp only [List.cons_append, List.append_assoc, List.singleton_append]
    exact r_expect (sum_complete hs _ _ (by simp [ok2, ok3, ok4]) (r_addend (by simp [ok1, ok2, ok3, ok4])))
  | _, _, .paren hs, r, _ => by
    simp only [List.cons_append, List.append_assoc, List.singleton_append]
    exact r_paren (sum_complete hs _ _ (by simp [ok2, ok3, ok4]) (r_addend (by simp [ok1, ok2, ok3, ok4])))
theorem signed_complete : ∀ {w e}, IsSigned w e → ∀ r, ok4 r → RUnary (w ++ r) (e, r)
  | _, _, .atom h, r, hr => r_atom (atom_complete h r hr)
  | _, _, .neg h, r, hr => r_neg (signed_complete h r hr)
theorem power_complete : ∀ {w e}, IsPower w e → ∀ r, ok3 r → RPow (w ++ r) (e, r)
  | _, _, .base h, r, hr => r_pow_end (signed_complete h r (ok34 hr)) hr
  | _, _, .pow h h', r, hr => by
    simp only [List.append_assoc, List.cons_append]
    exact r_pow (signed_complete h _ (by simp [ok4])) (power_complete h' r hr)
theorem product_complete : ∀ {w e}, IsProduct w e → ∀ rest r, ok3 rest → RMulLoop e rest r → RMul (w ++ rest) r
  | _, _, .one h, rest, r, hr, hl => r_mul (power_complete h rest hr) hl
  | _, _, .mul h h', rest, r, hr, hl => by
    simp only [List.append_assoc, List.cons_append]
    exact product_complete h _ _ (by simp [ok3, ok4]) (r_mulloop rfl (power_complete h' rest hr) hl)
  | _, _, .div h h', rest, r, hr, hl => by
    simp only [List.append_assoc, List.cons_append]
    exact product_complete h _ _ (by simp [ok3, ok4]) (r_mulloop rfl (power_complete h' rest hr) hl)
theorem sum_complete : ∀ {w e}, IsSum w e → ∀ rest r, ok2 rest → RAddLoop e rest r → RAdd (w ++ rest) r
  | _, _, .one h, rest, r, hr, hl => r_add (product_complete h rest _ (ok23 hr) (r_mulend hr)) hl
  | _, _, .add h h', rest, r, hr, hl => by
    simp only [List.append_assoc, List.cons_append]
    exact sum_complete h _ _ (by simp [ok2, ok3, ok4]) (r_addloop rfl (product_complete h' rest _ (ok23 hr) (r_mulend hr)) hl)
  | _, _, .sub h h', rest, r, hr, hl => by
    simp only [List.append_assoc, List.cons_append]
    exact sum_complete h _ _ (by simp [ok2, ok3, ok4]) (r_addloop rfl (product_complete h' rest _ (ok23 hr) (r_mulend hr)) hl)
theorem args_complete : ∀ {w es}, IsArgs w es → ∀ r, RArgs (w ++ .rpar :: r) (es, .rpar :: r)
  | _, _, .one h, r => r_args_one (sum_complete h _ _ (by simp [ok2, ok3, ok4]) (r_addend (by simp [ok1, ok2, ok3, ok4])))
  | _, _, .cons h h', r => by
    simp only [List.append_assoc, List.cons_append]
    exact r_args_cons (sum_complete h _ _ (by simp [ok2, ok3, ok4]) (r_addend (by simp [ok1, ok2, ok3, ok4]))) (args_complete h' r)
end

/-- an expression followed by something that cannot continue it -/
theorem sum_parses {w e r} (h : IsSum w e) (hr : ok1 r) : RAdd (w ++ r) (e, r) :=
  sum_complete h _ _ (ok12 hr) (r_addend hr)

theorem sum_nonempty {w e} (h : IsSum w e) : w ≠ [] := by
  intro hw
  subst hw
  obtain ⟨f, hf⟩ := sum_parses h (r := []) trivial
  have : ∀ f, pAdd f [] = none := by
    intro f
    have key : ∀ f, pAtom f [] = none ∧ pUnary f [] = none ∧ pPow f [] = none ∧ pMul f [] = none ∧ pAdd f [] = none := by
      intro f
      induction f with
      | zero => simp [pAtom, pUnary, pPow, pMul, pAdd]
      | succ f ih =>
        obtain ⟨a, b, c, d, e⟩ := ih
        refine ⟨by unfold pAtom; rfl, ?_, ?_, ?_, ?_⟩
        · unfold pUnary; exact a
        · unfold pPow; rw [b]
        · unfold pMul; rw [c]
        · unfold pAdd; rw [d]
    exact (key f).2.2.2.2
  rw [List.append_nil, this] at hf
  simp at hf

end GE.Gcn

namespace GE

/-- C107, expressions: the expression parser accepts exactly the expressions of the language, with the language's precedence and
grouping -/
theorem C107_expressions (ts : List Tok) (e : Expr) : ParsesAs ts e ↔ Gcn.IsSum ts e := by
  constructor
  · rintro ⟨f, hf⟩
    obtain ⟨w, hw, hs⟩ := (Gcn.expr_sound f).2.2.2.2.2.1 _ _ _ hf
    rw [hw, List.append_nil]; exact hs
  · intro h
    have := Gcn.sum_parses h (r := []) trivial
    rw [List.append_nil] at this
    exact this

/-- C107: no expression can be read in two ways -/
theorem C107_expressions_unique (ts : List Tok) (e e' : Expr) (h : Gcn.IsSum ts e) (h' : Gcn.IsSum ts e') : e = e' :=
  parses_unique ((C107_expressions ts e).2 h) ((C107_expressions ts e').2 h')

end GE
