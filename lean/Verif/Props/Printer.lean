import Verif.Model.Printer
import Mathlib.Algebra.Field.Basic
import Mathlib.Algebra.Field.Rat
import Mathlib.Tactic.Ring
import Mathlib.Tactic.NormNum
/-! # C11, C43: printing and parsing -/

namespace GE
open BinOp

/-! ## fuel -/

theorem mono_all (f : Nat) :
    (∀ ts r, pAtom f ts = some r → pAtom (f+1) ts = some r) ∧
    (∀ ts r, pUnary f ts = some r → pUnary (f+1) ts = some r) ∧
    (∀ ts r, pPow f ts = some r → pPow (f+1) ts = some r) ∧
    (∀ ts r, pMul f ts = some r → pMul (f+1) ts = some r) ∧
    (∀ a ts r, pMulLoop f a ts = some r → pMulLoop (f+1) a ts = some r) ∧
    (∀ ts r, pAdd f ts = some r → pAdd (f+1) ts = some r) ∧
    (∀ a ts r, pAddLoop f a ts = some r → pAddLoop (f+1) a ts = some r) ∧
    (∀ ts r, pArgs f ts = some r → pArgs (f+1) ts = some r) := by
  induction f with
  | zero => refine ⟨?_, ?_, ?_, ?_, ?_, ?_, ?_, ?_⟩ <;> intros <;>
      simp_all [pAtom, pUnary, pPow, pMul, pMulLoop, pAdd, pAddLoop, pArgs]
  | succ f ih =>
    obtain ⟨h1, h2, h3, h4, h5, h6, h7, h8⟩ := ih
    refine ⟨?_, ?_, ?_, ?_, ?_, ?_, ?_, ?_⟩
    · intro ts r h
      unfold pAtom at h ⊢
      split at h <;> first | (simp at h; done) | skip
      all_goals first
        | exact h
        | (have e := ‹f + 1 = _›; cases e; first
            | exact h1 _ _ h
            | (split at h <;> first
                | (simp at h; done)
                | (rw [h2 _ _ ‹pUnary f _ = some _›]; simpa using h)
                | (rw [h6 _ _ ‹pAdd f _ = some _›]; simpa using h)
                | (rw [h8 _ _ ‹pArgs f _ = some _›]; simpa using h)
                | (rw [h3 _ _ ‹pPow f _ = some _›]; exact h5 _ _ _ h)
                | (rw [h4 _ _ ‹pMul f _ = some _›]; exact h7 _ _ _ h)))
    · intro ts r h
      unfold pUnary at h ⊢
      split at h <;> first | (simp at h; done) | skip
      all_goals first
        | exact h
        | (have e := ‹f + 1 = _›; cases e; first
            | exact h1 _ _ h
            | (split at h <;> first
                | (simp at h; done)
                | (rw [h2 _ _ ‹pUnary f _ = some _›]; simpa using h)
                | (rw [h6 _ _ ‹pAdd f _ = some _›]; simpa using h)
                | (rw [h8 _ _ ‹pArgs f _ = some _›]; simpa using h)
                | (rw [h3 _ _ ‹pPow f _ = some _›]; exact h5 _ _ _ h)
                | (rw [h4 _ _ ‹pMul f _ = some _›]; exact h7 _ _ _ h)))
    · intro ts r h
      unfold pPow at h ⊢
      split at h
      · rename_i a r' h'
        rw [h2 _ _ h']
        simp only
        split at h
        · rename_i hp; rw [h3 _ _ hp]; simpa using h
        · simp at h
      · rw [h2 _ _ h]
        split <;> simp_all
    · intro ts r h
      unfold pMul at h ⊢
      split at h
      · rename_i h'; rw [h3 _ _ h']; exact h5 _ _ _ h
      · simp at h
    · intro a ts r h
      unfold pMulLoop at h ⊢
      split at h <;> first | (simp at h; done) | skip
      all_goals first
        | exact h
        | (have e := ‹f + 1 = _›; cases e; first
            | exact h1 _ _ h
            | (split at h <;> first
                | (simp at h; done)
                | (rw [h2 _ _ ‹pUnary f _ = some _›]; simpa using h)
                | (rw [h6 _ _ ‹pAdd f _ = some _›]; simpa using h)
                | (rw [h8 _ _ ‹pArgs f _ = some _›]; simpa using h)
                | (rw [h3 _ _ ‹pPow f _ = some _›]; exact h5 _ _ _ h)
                | (rw [h4 _ _ ‹pMul f _ = some _›]; exact h7 _ _ _ h)))
    · intro ts r h
      unfold pAdd at h ⊢
      split at h
      · rename_i h'; rw [h4 _ _ h']; exact h7 _ _ _ h
      · simp at h
    · intro a ts r h
      unfold pAddLoop at h ⊢
      split at h <;> first | (simp at h; done) | skip
      all_goals first
        | exact h
        | (have e := ‹f + 1 = _›; cases e; first
            | exact h1 _ _ h
            | (split at h <;> first
                | (simp at h; done)
                | (rw [h2 _ _ ‹pUnary f _ = some _›]; simpa using h)
                | (rw [h6 _ _ ‹pAdd f _ = some _›]; simpa using h)
                | (rw [h8 _ _ ‹pArgs f _ = some _›]; simpa using h)
                | (rw [h3 _ _ ‹pPow f _ = some _›]; exact h5 _ _ _ h)
                | (rw [h4 _ _ ‹pMul f _ = some _›]; exact h7 _ _ _ h)))
    · intro ts r h
      unfold pArgs at h ⊢
      split at h
      · rename_i h'; rw [h6 _ _ h']; simp only
        split at h
        · rename_i hp; rw [h8 _ _ hp]; simpa using h
        · simp at h
      · rename_i h'; rw [h6 _ _ h']
        split <;> simp_all
      · simp at h

theorem mono_le {α} (p : Nat → Option α) (h : ∀ f r, p f = some r → p (f+1) = some r) {f g : Nat} (hg : f ≤ g) {r}
    (hf : p f = some r) : p g = some r := by
  induction hg with
  | refl => exact hf
  | step _ ih => exact h _ _ ih

theorem parses_unique {ts e e'} (h : ParsesAs ts e) (h' : ParsesAs ts e') : e = e' := by
  obtain ⟨f, hf⟩ := h; obtain ⟨g, hg⟩ := h'
  have m := fun f r => (mono_all f).2.2.2.2.2.1 ts r
  have h1 := mono_le (fun f => pAdd f ts) m (Nat.le_max_left f g) hf
  have h2 := mono_le (fun f => pAdd f ts) m (Nat.le_max_right f g) hg
  rw [h1] at h2; simpa using h2

/-! ## relational form -/

def RAtom (ts) (r : Expr × List Tok) := ∃ f, pAtom f ts = some r
def RUnary (ts) (r : Expr × List Tok) := ∃ f, pUnary f ts = some r
def RPow (ts) (r : Expr × List Tok) := ∃ f, pPow f ts = some r
def RMul (ts) (r : Expr × List Tok) := ∃ f, pMul f ts = some r
def RMulLoop (a) (ts) (r : Expr × List Tok) := ∃ f, pMulLoop f a ts = some r
def RAdd (ts) (r : Expr × List Tok) := ∃ f, pAdd f ts = some r
def RAddLoop (a) (ts) (r : Expr × List Tok) := ∃ f, pAddLoop f a ts = some r
def RArgs (ts) (r : List Expr × List Tok) := ∃ f, pArgs f ts = some r

theorem two {α β} {p : Nat → Option α} {q : Nat → Option β}
    (hp : ∀ f r, p f = some r → p (f+1) = some r) (hq : ∀ f r, q f = some r → q (f+1) = some r) {a b}
    (h1 : ∃ f, p f = some a) (h2 : ∃ f, q f = some b) : ∃ f, p f = some a ∧ q f = some b := by
  obtain ⟨f, hf⟩ := h1; obtain ⟨g, hg⟩ := h2
  exact ⟨max f g, mono_le p hp (Nat.le_max_left _ _) hf, mono_le q hq (Nat.le_max_right _ _) hg⟩

theorem r_paren {ts e rest} (h : RAdd ts (e, .rpar :: rest)) : RAtom (.lpar :: ts) (e, rest) := by
  obtain ⟨f, hf⟩ := h; exact ⟨f+1, by simp [pAtom, hf]⟩
theorem r_expect {ts e rest} (h : RAdd ts (e, .rbr :: rest)) : RAtom (.expectOpen :: ts) (.expect e, rest) := by
  obtain ⟨f, hf⟩ := h; exact ⟨f+1, by simp [pAtom, hf]⟩
theorem r_call {ts n as rest} (h : RArgs ts (as, .rpar :: rest)) :
    RAtom (.id n :: .lpar :: ts) (.call n as, rest) := by
  obtain ⟨f, hf⟩ := h; exact ⟨f+1, by simp [pAtom, hf]⟩
theorem r_neg {ts e rest} (h : RUnary ts (e, rest)) : RUnary (.op .sub :: ts) (.neg e, rest) := by
  obtain ⟨f, hf⟩ := h; exact ⟨f+1, by simp [pUnary, hf]⟩
theorem r_atom {ts r} (h : RAtom ts r) : RUnary ts r := by
  obtain ⟨f, hf⟩ := h
  refine ⟨f+1, ?_⟩
  unfold pUnary
  split
  · simp_all
  · cases f <;> simp_all [pAtom]
  · simp_all

/-- not starting with `(` or `[` -/
def ok4 : List Tok → Prop
  | .lpar :: _ => False
  | .tix _ :: _ => False
  | _ => True
def ok3 : List Tok → Prop
  | .op .pow :: _ => False
  | ts => ok4 ts
def ok2 : List Tok → Prop
  | .op .mul :: _ => False
  | .op .div :: _ => False
  | ts => ok3 ts
def ok1 : List Tok → Prop
  | .op .add :: _ => False
  | .op .sub :: _ => False
  | ts => ok2 ts

theorem ok34 {ts} (h : ok3 ts) : ok4 ts := by unfold ok3 at h; split at h <;> simp_all
theorem ok23 {ts} (h : ok2 ts) : ok3 ts := by unfold ok2 at h; split at h <;> simp_all
theorem ok12 {ts} (h : ok1 ts) : ok2 ts := by unfold ok1 at h; split at h <;> simp_all

theorem r_pow_end {ts e rest} (h : RUnary ts (e, rest)) (hr : ok3 rest) : RPow ts (e, rest) := by
  obtain ⟨f, hf⟩ := h
  refine ⟨f+1, ?_⟩
  unfold pPow
  rw [hf]
  split
  · rename_i heq; simp at heq; rw [heq.2] at hr; simp [ok3] at hr
  · rfl
theorem r_pow {ts a ts' b rest} (h : RUnary ts (a, .op .pow :: ts')) (h' : RPow ts' (b, rest)) :
    RPow ts (.bin .pow a b, rest) := by
  obtain ⟨f, h1, h2⟩ := two (fun f => (mono_all f).2.1 ts) (fun f => (mono_all f).2.2.1 ts') h h'
  exact ⟨f+1, by unfold pPow; rw [h1]; simp only; rw [h2]⟩
theorem r_mul {ts a ts' r} (h : RPow ts (a, ts')) (h' : RMulLoop a ts' r) : RMul ts r := by
  obtain ⟨f, h1, h2⟩ := two (fun f => (mono_all f).2.2.1 ts) (fun f => (mono_all f).2.2.2.2.1 a ts') h h'
  exact ⟨f+1, by unfold pMul; rw [h1]; exact h2⟩
theorem r_mulloop {o a ts b ts' r} (ho : prec o = 2) (h : RPow ts (b, ts')) (h' : RMulLoop (.bin o a b) ts' r) :
    RMulLoop a (.op o :: ts) r := by
  obtain ⟨f, h1, h2⟩ := two (fun f => (mono_all f).2.2.1 ts) (fun f => (mono_all f).2.2.2.2.1 (.bin o a b) ts') h h'
  refine ⟨f+1, ?_⟩
  cases o <;> simp [prec] at ho <;> (unfold pMulLoop; rw [h1]; exact h2)
theorem r_mulend {a ts} (h : ok2 ts) : RMulLoop a ts (a, ts) := by
  refine ⟨1, ?_⟩
  unfold pMulLoop
  split <;> first | rfl | simp_all [ok2]
theorem r_add {ts a ts' r} (h : RMul ts (a, ts')) (h' : RAddLoop a ts' r) : RAdd ts r := by
  obtain ⟨f, h1, h2⟩ := two (fun f => (mono_all f).2.2.2.1 ts) (fun f => (mono_all f).2.2.2.2.2.2.1 a ts') h h'
  exact ⟨f+1, by unfold pAdd; rw [h1]; exact h2⟩
theorem r_addloop {o a ts b ts' r} (ho : prec o = 1) (h : RMul ts (b, ts')) (h' : RAddLoop (.bin o a b) ts' r) :
    RAddLoop a (.op o :: ts) r := by
  obtain ⟨f, h1, h2⟩ := two (fun f => (mono_all f).2.2.2.1 ts)
    (fun f => (mono_all f).2.2.2.2.2.2.1 (.bin o a b) ts') h h'
  refine ⟨f+1, ?_⟩
  cases o <;> simp [prec] at ho <;> (unfold pAddLoop; rw [h1]; exact h2)
theorem r_addend {a ts} (h : ok1 ts) : RAddLoop a ts (a, ts) := by
  refine ⟨1, ?_⟩
  unfold pAddLoop
  split <;> first | rfl | simp_all [ok1]
theorem r_args_one {ts a rest} (h : RAdd ts (a, .rpar :: rest)) : RArgs ts ([a], .rpar :: rest) := by
  obtain ⟨f, hf⟩ := h; exact ⟨f+1, by simp [pArgs, hf]⟩
theorem r_args_cons {ts a ts' as rest} (h : RAdd ts (a, .comma :: ts')) (h' : RArgs ts' (as, rest)) :
    RArgs ts (a :: as, rest) := by
  obtain ⟨f, h1, h2⟩ := two (fun f => (mono_all f).2.2.2.2.2.1 ts) (fun f => (mono_all f).2.2.2.2.2.2.2 ts') h h'
  exact ⟨f+1, by unfold pArgs; rw [h1]; simp only; rw [h2]⟩

/-! ## the fragment whose trees survive -/

/-- precedence of the root operator; anything that is not a binary operation is never parenthesised -/
def Expr.rootPrec : Expr → Nat
  | .bin o _ _ => prec o
  | _ => 5

mutual
/-- The trees that come back identical: a right operand of `+ - * /` is not a binary operation of the same precedence,
the base of a power is not a power, the exponent is not a product or quotient, numbers are not negative, calls have
an argument. -/
def Expr.Stable : Expr → Prop
  | .num v => 0 ≤ v
  | .par _ => True
  | .var _ _ => True
  | .neg e => e.Stable
  | .bin o l r => l.Stable ∧ r.Stable ∧
      match o with
      | .pow => l.rootPrec ≠ 3 ∧ r.rootPrec ≠ 2
      | o => r.rootPrec ≠ prec o
  | .call _ as => as ≠ [] ∧ Expr.StableArgs as
  | .expect e => e.Stable
def Expr.StableArgs : List Expr → Prop
  | [] => True
  | a :: as => a.Stable ∧ Expr.StableArgs as
end

theorem toks_le (e : Expr) {p q : Nat} (hp : p ≤ e.rootPrec) (hq : q ≤ e.rootPrec) : e.toks p = e.toks q := by
  cases e <;> simp [Expr.toks, Expr.rootPrec] at *
  rename_i o l r
  rw [if_neg (by omega), if_neg (by omega)]

theorem toks_gt (e : Expr) {p : Nat} (hp5 : p ≤ 4) (hp : e.rootPrec < p) :
    e.toks p = .lpar :: (e.toks 0 ++ [.rpar]) := by
  cases e with
  | bin o l r => simp only [Expr.toks, Expr.rootPrec] at *; rw [if_pos hp, if_neg (by omega)]
  | _ => simp [Expr.rootPrec] at hp <;> omega

structure GoodE (e : Expr) : Prop where
  U : ∀ rest, ok4 rest → RUnary (e.toks 4 ++ rest) (e, rest)
  W : e.rootPrec ≠ 2 → ∀ rest, ok3 rest → RPow (e.toks 2 ++ rest) (e, rest)
  M : ∀ rest r, ok3 rest → RMulLoop e rest r → RMul (e.toks 2 ++ rest) r
  A : ∀ rest r, ok2 rest → RAddLoop e rest r → RAdd (e.toks 0 ++ rest) r

theorem good_of_A {e} (hp : e.rootPrec < 4)
    (A : ∀ rest r, ok2 rest → RAddLoop e rest r → RAdd (e.toks 0 ++ rest) r) :
    ∀ rest, ok4 rest → RUnary (e.toks 4 ++ rest) (e, rest) := by
  intro rest _
  rw [toks_gt e (by omega) hp]
  simp only [List.cons_append, List.append_assoc]
  exact r_atom (r_paren (A _ _ (by simp [ok2, ok3, ok4]) (r_addend (by simp [ok1, ok2, ok3, ok4]))))

theorem good_of_M {e} (hp : e.rootPrec ≥ 2)
    (M : ∀ rest r, ok3 rest → RMulLoop e rest r → RMul (e.toks 2 ++ rest) r) :
    ∀ rest r, ok2 rest → RAddLoop e rest r → RAdd (e.toks 0 ++ rest) r := by
  intro rest r hr h
  rw [toks_le e (p := 0) (q := 2) (by omega) hp]
  exact r_add (M _ _ (ok23 hr) (r_mulend hr)) h

theorem good_of_W {e}
    (W : ∀ rest, ok3 rest → RPow (e.toks 2 ++ rest) (e, rest)) :
    ∀ rest r, ok3 rest → RMulLoop e rest r → RMul (e.toks 2 ++ rest) r := by
  intro rest r hr h
  exact r_mul (W _ hr) h

/-- everything that is not a binary operation -/
theorem good_of_U {e} (hp : e.rootPrec = 5) (U : ∀ rest, ok4 rest → RUnary (e.toks 4 ++ rest) (e, rest)) :
    GoodE e := by
  have W : ∀ rest, ok3 rest → RPow (e.toks 2 ++ rest) (e, rest) := by
    intro rest hr
    rw [toks_le e (p := 2) (q := 4) (by omega) (by omega)]
    exact r_pow_end (U _ (ok34 hr)) hr
  have M := good_of_W W
  exact ⟨U, fun _ => W, M, good_of_M (by omega) M⟩

theorem ok3_op {o ts} (h : prec o ≠ 3) : ok3 (.op o :: ts) := by cases o <;> simp_all [ok3, ok4, prec]
theorem ok4_op {o ts} : ok4 (.op o :: ts) := by simp [ok4]
theorem ok2_op {o ts} (h : prec o = 1) : ok2 (.op o :: ts) := by cases o <;> simp_all [ok2, ok3, ok4, prec]

theorem good_bin (o l r) (gl : GoodE l) (gr : GoodE r)
    (h : match o with
      | .pow => l.rootPrec ≠ 3 ∧ r.rootPrec ≠ 2
      | o => r.rootPrec ≠ prec o) : GoodE (.bin o l r) := by
  have hrp : ∀ e : Expr, 1 ≤ e.rootPrec := by intro e; cases e <;> simp [Expr.rootPrec]; rename_i o _ _; cases o <;> simp [prec]
  have hpo : prec o = 1 ∨ prec o = 2 ∨ o = .pow := by cases o <;> simp [prec]
  rcases hpo with h1 | h2 | rfl
  · have hr : r.rootPrec ≠ 1 := by cases o <;> simp_all [prec]
    have hro : rightPrec o = 1 := by cases o <;> simp_all [prec, rightPrec]
    have A : ∀ rest s, ok2 rest → RAddLoop (.bin o l r) rest s → RAdd ((Expr.bin o l r).toks 0 ++ rest) s := by
      intro rest s hs hl
      simp only [Expr.toks, Nat.not_lt_zero, if_false, h1, hro]
      rw [toks_le l (p := 1) (q := 0) (hrp l) (by omega), List.append_assoc]
      refine gl.A _ _ (ok2_op h1) ?_
      have := hrp r
      rw [List.cons_append, toks_le r (p := 1) (q := 2) (by omega) (by omega)]
      exact r_addloop h1 (gr.M _ _ (ok23 hs) (r_mulend hs)) hl
    have hrt : (Expr.bin o l r).rootPrec = 1 := h1
    have par : ∀ p, 2 ≤ p → p ≤ 4 → ∀ rest, RAtom ((Expr.bin o l r).toks p ++ rest) (.bin o l r, rest) := by
      intro p hp hp4 rest
      rw [toks_gt _ hp4 (by omega)]
      simp only [List.cons_append, List.append_assoc]
      exact r_paren (A _ _ (by simp [ok2, ok3, ok4]) (r_addend (by simp [ok1, ok2, ok3, ok4])))
    have W : ∀ rest, ok3 rest → RPow ((Expr.bin o l r).toks 2 ++ rest) (.bin o l r, rest) :=
      fun rest hr => r_pow_end (r_atom (par 2 (by omega) (by omega) rest)) hr
    exact ⟨fun rest _ => r_atom (par 4 (by omega) (by omega) rest), fun _ => W, good_of_W W, A⟩
  · have hr : r.rootPrec ≠ 2 := by cases o <;> simp_all [prec]
    have hro : rightPrec o = 2 := by cases o <;> simp_all [prec, rightPrec]
    have hrt : (Expr.bin o l r).rootPrec = 2 := h2
    have M : ∀ rest s, ok3 rest → RMulLoop (.bin o l r) rest s → RMul ((Expr.bin o l r).toks 2 ++ rest) s := by
      intro rest s hs hl
      simp only [Expr.toks, h2, hro, Nat.lt_irrefl, if_false]
      rw [List.append_assoc]
      refine gl.M _ _ (ok3_op (by omega)) ?_
      exact r_mulloop h2 (gr.W hr _ hs) hl
    have A := good_of_M (e := .bin o l r) (by omega) M
    exact ⟨good_of_A (by omega) A, fun hne => absurd hrt hne, M, A⟩
  · simp only at h
    have hrt : (Expr.bin pow l r).rootPrec = 3 := rfl
    have W : ∀ rest, ok3 rest → RPow ((Expr.bin pow l r).toks 2 ++ rest) (.bin pow l r, rest) := by
      intro rest hs
      have e3 : l.toks 3 = l.toks 4 := by
        by_cases h4 : l.rootPrec < 3
        · exact (toks_gt l (by omega) h4).trans (toks_gt l (p := 4) (by omega) (by omega)).symm
        · have : l.rootPrec = 5 := by
            cases l <;> simp [Expr.rootPrec] at *
            rename_i o _ _; cases o <;> simp_all [prec]
          exact toks_le l (by omega) (by omega)
      simp only [Expr.toks, prec, rightPrec, if_true]
      rw [if_neg (by omega), e3, List.append_assoc]
      exact r_pow (gl.U _ ok4_op) (gr.W h.2 _ hs)
    have M := good_of_W W
    have A := good_of_M (e := .bin pow l r) (by omega) M
    exact ⟨good_of_A (by omega) A, fun _ => W, M, A⟩

theorem good_full {e} (g : GoodE e) {rest} (h : ok1 rest) : RAdd (e.toks 0 ++ rest) (e, rest) :=
  g.A _ _ (ok12 h) (r_addend h)

theorem toks_num {v p} (h : 0 ≤ v) : (Expr.num v).toks p = [.num v] := by
  simp only [Expr.toks]; rw [if_neg (Rat.not_lt.mpr h)]

mutual
theorem good : ∀ (e : Expr), e.Stable → GoodE e
  | .num v, h => good_of_U rfl fun rest hr => r_atom ⟨1, by
      simp only [Expr.Stable] at h
      rw [toks_num h]; rfl⟩
  | .par n, _ => good_of_U rfl fun rest hr => r_atom ⟨1, by
      simp only [Expr.toks, List.cons_append, List.nil_append]
      cases rest with
      | nil => simp [pAtom]
      | cons t ts => cases t <;> simp_all [pAtom, ok4]⟩
  | .var n t, _ => good_of_U rfl fun rest hr => r_atom ⟨1, by simp [Expr.toks, pAtom]⟩
  | .neg e, h => good_of_U rfl fun rest hr => r_neg ((good e (by simpa [Expr.Stable] using h)).U rest hr)
  | .bin o l r, h => by
    simp only [Expr.Stable] at h
    exact good_bin o l r (good l h.1) (good r h.2.1) h.2.2
  | .call f as, h => good_of_U rfl fun rest hr => by
      simp only [Expr.Stable] at h
      simp only [Expr.toks, List.cons_append, List.append_assoc]
      exact r_atom (r_call (goodArgs as h.2 h.1 rest))
  | .expect e, h => good_of_U rfl fun rest hr => by
      simp only [Expr.Stable] at h
      simp only [Expr.toks, List.cons_append, List.append_assoc]
      exact r_atom (r_expect (good_full (good e h) (by simp [ok1, ok2, ok3, ok4])))
theorem goodArgs : ∀ (as : List Expr), Expr.StableArgs as → as ≠ [] → ∀ rest,
    RArgs (Expr.toksArgs as ++ .rpar :: rest) (as, .rpar :: rest)
  | [], _, h, _ => absurd rfl h
  | [a], h, _, rest => by
      simp only [Expr.StableArgs] at h
      simp only [Expr.toksArgs]
      exact r_args_one (good_full (good a h.1) (by simp [ok1, ok2, ok3, ok4]))
  | a :: b :: as, h, _, rest => by
      simp only [Expr.StableArgs] at h
      simp only [Expr.toksArgs, List.append_assoc, List.cons_append]
      exact r_args_cons (good_full (good a h.1) (by simp [ok1, ok2, ok3, ok4]))
        (goodArgs (b :: as) (by simpa [Expr.StableArgs] using h.2) (by simp) rest)
end

/-! ## C11: expressions -/

/-- **C11 (partial)** for the stable trees the printed text parses to the very same tree. -/
theorem C11_same_tree_partial (e : Expr) (h : e.Stable) : ParsesAs (e.toks 0) e := by
  have := good_full (good e h) (rest := []) (by simp [ok1, ok2, ok3, ok4])
  simpa [ParsesAs, RAdd] using this

/-- meaning-preserving extension of the fragment: a right operand of `+` may be a sum or difference, a right operand of
`*` a product or quotient. -/
def Expr.AssocOK (o : BinOp) (l r : Expr) : Prop :=
  match o with
  | .add => True
  | .mul => True
  | .sub => r.rootPrec ≠ 1
  | .div => r.rootPrec ≠ 2
  | .pow => l.rootPrec ≠ 3 ∧ r.rootPrec ≠ 2

mutual
def Expr.MeaningStable : Expr → Prop
  | .num v => 0 ≤ v
  | .par _ => True
  | .var _ _ => True
  | .neg e => e.MeaningStable
  | .bin o l r => l.MeaningStable ∧ r.MeaningStable ∧ Expr.AssocOK o l r
  | .call _ as => as ≠ [] ∧ Expr.MeaningStableArgs as
  | .expect e => e.MeaningStable
def Expr.MeaningStableArgs : List Expr → Prop
  | [] => True
  | a :: as => a.MeaningStable ∧ Expr.MeaningStableArgs as
end

/-- `l + r` with the sums of `r` re-associated to the left -/
def attachAdd (l : Expr) : Expr → Expr
  | .bin .add b c => .bin .add (attachAdd l b) c
  | .bin .sub b c => .bin .sub (attachAdd l b) c
  | r => .bin .add l r
/-- `l * r` with the products of `r` re-associated to the left -/
def attachMul (l : Expr) : Expr → Expr
  | .bin .mul b c => .bin .mul (attachMul l b) c
  | .bin .div b c => .bin .div (attachMul l b) c
  | r => .bin .mul l r

def renorm (o : BinOp) (l r : Expr) : Expr :=
  match o with
  | .add => attachAdd l r
  | .mul => attachMul l r
  | o => .bin o l r

mutual
def Expr.norm : Expr → Expr
  | .num v => .num v
  | .par n => .par n
  | .var n t => .var n t
  | .neg e => .neg e.norm
  | .bin o l r => renorm o l.norm r.norm
  | .call f as => .call f (Expr.normArgs as)
  | .expect e => .expect e.norm
def Expr.normArgs : List Expr → List Expr
  | [] => []
  | a :: as => a.norm :: Expr.normArgs as
end

theorem attachAdd_spec (l r : Expr) : (attachAdd l r).rootPrec = 1 ∧ (∀ p, (attachAdd l r).toks p = (Expr.bin .add l r).toks p) ∧
    (l.Stable → r.Stable → (attachAdd l r).Stable) := by
  fun_induction attachAdd l r with
  | case1 b c ih =>
    refine ⟨rfl, ?_, ?_⟩
    · intro p; simp only [Expr.toks, ih.2.1, prec, rightPrec]; simp
    · intro hl hr; simp only [Expr.Stable] at hr ⊢; exact ⟨ih.2.2 hl hr.1, hr.2.1, hr.2.2⟩
  | case2 b c ih =>
    refine ⟨rfl, ?_, ?_⟩
    · intro p; simp only [Expr.toks, ih.2.1, prec, rightPrec]; simp
    · intro hl hr; simp only [Expr.Stable] at hr ⊢; exact ⟨ih.2.2 hl hr.1, hr.2.1, hr.2.2⟩
  | case3 r h1 h2 =>
    refine ⟨rfl, fun _ => rfl, ?_⟩
    intro hl hr
    simp only [Expr.Stable]
    refine ⟨hl, hr, ?_⟩
    cases r <;> simp [Expr.rootPrec, prec]
    rename_i o _ _
    cases o <;> simp_all

theorem attachMul_spec (l r : Expr) : (attachMul l r).rootPrec = 2 ∧ (∀ p, (attachMul l r).toks p = (Expr.bin .mul l r).toks p) ∧
    (l.Stable → r.Stable → (attachMul l r).Stable) := by
  fun_induction attachMul l r with
  | case1 b c ih =>
    refine ⟨rfl, ?_, ?_⟩
    · intro p; simp only [Expr.toks, ih.2.1, prec, rightPrec]; simp
    · intro hl hr; simp only [Expr.Stable] at hr ⊢; exact ⟨ih.2.2 hl hr.1, hr.2.1, hr.2.2⟩
  | case2 b c ih =>
    refine ⟨rfl, ?_, ?_⟩
    · intro p; simp only [Expr.toks, ih.2.1, prec, rightPrec]; simp
    · intro hl hr; simp only [Expr.Stable] at hr ⊢; exact ⟨ih.2.2 hl hr.1, hr.2.1, hr.2.2⟩
  | case3 r h1 h2 =>
    refine ⟨rfl, fun _ => rfl, ?_⟩
    intro hl hr
    simp only [Expr.Stable]
    refine ⟨hl, hr, ?_⟩
    cases r <;> simp [Expr.rootPrec, prec]
    rename_i o _ _
    cases o <;> simp_all

theorem renorm_root (o l r) : (renorm o l r).rootPrec = prec o := by
  cases o
  · exact (attachAdd_spec l r).1
  · rfl
  · exact (attachMul_spec l r).1
  · rfl
  · rfl

theorem norm_root (e : Expr) : e.norm.rootPrec = e.rootPrec := by
  cases e <;> first | rfl | exact renorm_root _ _ _

theorem renorm_toks (o l r p) : (renorm o l r).toks p = (Expr.bin o l r).toks p := by
  cases o
  · exact (attachAdd_spec l r).2.1 p
  · rfl
  · exact (attachMul_spec l r).2.1 p
  · rfl
  · rfl

mutual
theorem norm_toks : ∀ (e : Expr) (p : Nat), e.norm.toks p = e.toks p
  | .num _, _ => rfl
  | .par _, _ => rfl
  | .var _ _, _ => rfl
  | .neg e, p => by simp [Expr.norm, Expr.toks, norm_toks e]
  | .bin o l r, p => by
    simp only [Expr.norm, renorm_toks]; simp only [Expr.toks, norm_toks l, norm_toks r]
  | .call f as, p => by simp [Expr.norm, Expr.toks, norm_toksArgs as]
  | .expect e, p => by simp [Expr.norm, Expr.toks, norm_toks e]
theorem norm_toksArgs : ∀ (as : List Expr), Expr.toksArgs (Expr.normArgs as) = Expr.toksArgs as
  | [] => rfl
  | [a] => by simp [Expr.normArgs, Expr.toksArgs, norm_toks a]
  | a :: b :: as => by
    have := norm_toksArgs (b :: as)
    simp only [Expr.normArgs] at this
    simp [Expr.normArgs, Expr.toksArgs, norm_toks a, this]
end

mutual
theorem norm_stable : ∀ (e : Expr), e.MeaningStable → e.norm.Stable
  | .num _, h => by simpa [Expr.norm, Expr.Stable, Expr.MeaningStable] using h
  | .par _, _ => by simp [Expr.norm, Expr.Stable]
  | .var _ _, _ => by simp [Expr.norm, Expr.Stable]
  | .neg e, h => by simpa [Expr.norm, Expr.Stable] using norm_stable e (by simpa [Expr.MeaningStable] using h)
  | .bin o l r, h => by
    simp only [Expr.MeaningStable] at h
    have hl := norm_stable l h.1
    have hr := norm_stable r h.2.1
    simp only [Expr.norm]
    cases o
    · exact (attachAdd_spec _ _).2.2 hl hr
    · simp_all [renorm, Expr.Stable, Expr.AssocOK, norm_root, prec]
    · exact (attachMul_spec _ _).2.2 hl hr
    · simp_all [renorm, Expr.Stable, Expr.AssocOK, norm_root, prec]
    · simp_all [renorm, Expr.Stable, Expr.AssocOK, norm_root]
  | .call f as, h => by
    simp only [Expr.MeaningStable] at h
    simp only [Expr.norm, Expr.Stable]
    refine ⟨?_, norm_stableArgs as h.2⟩
    cases as <;> simp_all [Expr.normArgs]
  | .expect e, h => by simpa [Expr.norm, Expr.Stable] using norm_stable e (by simpa [Expr.MeaningStable] using h)
theorem norm_stableArgs : ∀ (as : List Expr), Expr.MeaningStableArgs as → Expr.StableArgs (Expr.normArgs as)
  | [], _ => by simp [Expr.normArgs, Expr.StableArgs]
  | a :: as, h => by
    simp only [Expr.MeaningStableArgs] at h
    simp only [Expr.normArgs, Expr.StableArgs]
    exact ⟨norm_stable a h.1, norm_stableArgs as h.2⟩
end

/-- the interpretation reads `+ - * /` as field operations; powers and functions are arbitrary -/
structure Interp.Arith {K : Type} [Field K] (I : Interp K) : Prop where
  add : I.bin .add = fun x y => x + y
  sub : I.bin .sub = fun x y => x - y
  mul : I.bin .mul = fun x y => x * y
  div : I.bin .div = fun x y => x / y

theorem renorm_eval {K : Type} [Field K] (I : Interp K) (hI : I.Arith) (path t) (o l r) :
    (renorm o l r).eval I path t = I.bin o (l.eval I path t) (r.eval I path t) := by
  cases o <;> simp only [renorm, Expr.eval]
  · fun_induction attachAdd l r <;> simp_all [Expr.eval, hI.add, hI.sub] <;> ring
  · fun_induction attachMul l r <;> simp_all [Expr.eval, hI.mul, hI.div] <;> ring

mutual
theorem norm_eval {K : Type} [Field K] (I : Interp K) (hI : I.Arith) (path t) :
    ∀ (e : Expr), e.norm.eval I path t = e.eval I path t
  | .num _ => rfl
  | .par _ => rfl
  | .var _ _ => rfl
  | .neg e => by simp [Expr.norm, Expr.eval, norm_eval I hI path t e]
  | .bin o l r => by
    simp only [Expr.norm, Expr.eval, renorm_eval I hI path t, norm_eval I hI path t l, norm_eval I hI path t r]
  | .call f as => by simp [Expr.norm, Expr.eval, norm_evalArgs I hI path t as]
  | .expect e => by simp [Expr.norm, Expr.eval, norm_eval I hI path t e]
theorem norm_evalArgs {K : Type} [Field K] (I : Interp K) (hI : I.Arith) (path t) :
    ∀ (as : List Expr), Expr.evalArgs I path t (Expr.normArgs as) = Expr.evalArgs I path t as
  | [] => rfl
  | a :: as => by simp [Expr.normArgs, Expr.evalArgs, norm_eval I hI path t a, norm_evalArgs I hI path t as]
end

/-- **C11 (partial)** on the larger fragment the text parses to a tree with the same value in every field, along
every path and at every date. -/
theorem C11_same_meaning_partial (e : Expr) (h : e.MeaningStable) :
    ∃ e', ParsesAs (e.toks 0) e' ∧
      ∀ (K : Type) [Field K] (I : Interp K), I.Arith → ∀ path t, e'.eval I path t = e.eval I path t := by
  refine ⟨e.norm, ?_, fun K _ I hI path t => norm_eval I hI path t e⟩
  rw [← norm_toks]
  exact C11_same_tree_partial _ (norm_stable e h)

/-- the ordinary reading over the rationals (powers with non-negative integer exponents) -/
def ratI (p : Str → Rat) : Interp Rat where
  num v := v
  par := p
  bin
    | .add, x, y => x + y
    | .sub, x, y => x - y
    | .mul, x, y => x * y
    | .div, x, y => x / y
    | .pow, x, y => x ^ y.num.toNat
  neg x := -x
  fn _ _ := 0
  ss _ := 0

/-- **C11 is false**: whatever the three parameters are called, each of these seven shapes (all writable in a GCN file with
parentheses) comes back as a different tree: the parentheses are dropped. -/
theorem C11_violated (x y z : Str) :
    let a := Expr.par x; let b := Expr.par y; let c := Expr.par z
    ParsesAs ((Expr.bin sub a (.bin sub b c)).toks 0) (.bin sub (.bin sub a b) c) ∧
    ParsesAs ((Expr.bin sub a (.bin add b c)).toks 0) (.bin add (.bin sub a b) c) ∧
    ParsesAs ((Expr.bin div a (.bin mul b c)).toks 0) (.bin mul (.bin div a b) c) ∧
    ParsesAs ((Expr.bin div a (.bin div b c)).toks 0) (.bin div (.bin div a b) c) ∧
    ParsesAs ((Expr.bin pow (.bin pow a b) c).toks 0) (.bin pow a (.bin pow b c)) ∧
    ParsesAs ((Expr.bin pow a (.bin mul b c)).toks 0) (.bin mul (.bin pow a b) c) ∧
    ParsesAs ((Expr.bin pow a (.bin div b c)).toks 0) (.bin div (.bin pow a b) c) := by
  have H : ∀ e e' : Expr, e'.Stable → e.toks 0 = e'.toks 0 → ParsesAs (e.toks 0) e' := by
    intro e e' h1 h2; rw [h2]; exact C11_same_tree_partial e' h1
  refine ⟨?_, ?_, ?_, ?_, ?_, ?_, ?_⟩ <;> apply H <;>
    simp [Expr.Stable, Expr.rootPrec, prec, Expr.toks, rightPrec]

/-- ... and the value changes: with parameters 2, 4, 2 every one of the seven pairs differs. -/
theorem C11_violated_meaning :
    let p : Str → Rat := fun s => if s = "a".toList then 2 else if s = "b".toList then 4 else 2
    let a := Expr.par "a".toList; let b := Expr.par "b".toList; let c := Expr.par "c".toList
    let v := Expr.eval (ratI p) (fun _ _ => 0) 0
    v (.bin sub a (.bin sub b c)) ≠ v (.bin sub (.bin sub a b) c) ∧
    v (.bin sub a (.bin add b c)) ≠ v (.bin add (.bin sub a b) c) ∧
    v (.bin div a (.bin mul b c)) ≠ v (.bin mul (.bin div a b) c) ∧
    v (.bin div a (.bin div b c)) ≠ v (.bin div (.bin div a b) c) ∧
    v (.bin pow (.bin pow a b) c) ≠ v (.bin pow a (.bin pow b c)) ∧
    v (.bin pow a (.bin mul b c)) ≠ v (.bin mul (.bin pow a b) c) ∧
    v (.bin pow a (.bin div b c)) ≠ v (.bin div (.bin pow a b) c) := by
  refine ⟨?_, ?_, ?_, ?_, ?_, ?_, ?_⟩ <;> simp [Expr.eval, ratI] <;>
    norm_num [show Int.toNat 8 = 8 from rfl, show Int.toNat 2 = 2 from rfl]

/-! ## C11: equations, blocks, models -/

/-- **C11 (partial)** an equation printed by `print_equation` parses to the same equation with its multiplier and its
calibrated parameter, but without its tags. -/
theorem C11_equation_partial (q : Eqn) (hl : q.lhs.Stable) (hr : q.rhs.Stable) (hm : q.lagrange ≠ some [])
    (hc : q.calibrating ≠ some []) : ParsesAsEqn q.toks { q with tags := [] } := by
  obtain ⟨l, r, m, c, tags⟩ := q
  simp only at hl hr hm hc
  have key : ∀ tail : List Tok, ok1 tail → ∃ f, pAdd f (l.toks 0 ++ .eq :: (r.toks 0 ++ tail))
      = some (l, .eq :: (r.toks 0 ++ tail)) ∧ pAdd f (r.toks 0 ++ tail) = some (r, tail) := by
    intro tail ht
    exact two (fun f => (mono_all f).2.2.2.2.2.1 _) (fun f => (mono_all f).2.2.2.2.2.1 _)
      (good_full (good l hl) (rest := .eq :: (r.toks 0 ++ tail)) (by simp [ok1, ok2, ok3, ok4]))
      (good_full (good r hr) ht)
  have notag : ∀ (ts : List Tok) (rr : Expr × List Tok) f, pAdd f ts = some rr → pTags ts = ([], ts) := by
    intro ts rr f h
    cases ts with
    | nil => rfl
    | cons t ts =>
      cases t <;> try rfl
      rename_i tg
      have h0 : ∀ f r, pAdd f (.tag tg :: ts) ≠ some r := by
        intro f r
        cases f with
        | zero => simp [pAdd]
        | succ f => cases f with
          | zero => simp [pAdd, pMul]
          | succ f => cases f with
            | zero => simp [pAdd, pMul, pPow]
            | succ f => cases f with
              | zero => simp [pAdd, pMul, pPow, pUnary]
              | succ f => cases f <;> simp [pAdd, pMul, pPow, pUnary, pAtom]
      exact absurd h (h0 f rr)
  have fin : ∀ (tail : List Tok) (m' c' : Option Str), ok1 tail →
      (pLagrange tail).1 = m' → (pCalibrating (pLagrange tail).2) = (c', [.semi]) →
      ParsesAsEqn (l.toks 0 ++ .eq :: (r.toks 0 ++ tail))
        { lhs := l, rhs := r, lagrange := m', calibrating := c', tags := [] } := by
    intro tail m' c' ht h1 h2
    obtain ⟨f, hf1, hf2⟩ := key tail ht
    refine ⟨f, ?_⟩
    simp only [pEqn]
    rw [notag _ _ _ hf1]
    simp only [hf1, hf2, h1, h2]
  rcases m with _ | (_ | ⟨m0, ms⟩)
  · rcases c with _ | (_ | ⟨c0, cs⟩)
    · have := fin [.semi] none none (by simp [ok1, ok2, ok3, ok4]) rfl rfl
      simpa [Eqn.toks] using this
    · simp at hc
    · have := fin [.arrow, .id (c0 :: cs), .semi] none (some (c0 :: cs)) (by simp [ok1, ok2, ok3, ok4]) rfl rfl
      simpa [Eqn.toks] using this
  · simp at hm
  · rcases c with _ | (_ | ⟨c0, cs⟩)
    · have := fin [.colon, .id (m0 :: ms), .tix (.t 0), .semi] (some (m0 :: ms)) none (by simp [ok1, ok2, ok3, ok4]) rfl rfl
      simpa [Eqn.toks] using this
    · simp at hc
    · have := fin [.colon, .id (m0 :: ms), .tix (.t 0), .arrow, .id (c0 :: cs), .semi] (some (m0 :: ms))
        (some (c0 :: cs)) (by simp [ok1, ok2, ok3, ok4]) rfl rfl
      simpa [Eqn.toks] using this

/-- the equation parser's answer does not depend on the fuel -/
theorem parsesEqn_unique {ts e e'} (h : ParsesAsEqn ts e) (h' : ParsesAsEqn ts e') : e = e' := by
  obtain ⟨f, hf⟩ := h; obtain ⟨g, hg⟩ := h'
  have m : ∀ f r, pEqn f ts = some r → pEqn (f+1) ts = some r := by
    intro f r h
    simp only [pEqn] at h ⊢
    split at h
    · rename_i h1
      rw [(mono_all f).2.2.2.2.2.1 _ _ h1]
      simp only
      split at h
      · rename_i h2
        rw [(mono_all f).2.2.2.2.2.1 _ _ h2]
        exact h
      · simp at h
    · simp at h
  have h1 := mono_le (fun f => pEqn f ts) m (Nat.le_max_left f g) hf
  have h2 := mono_le (fun f => pEqn f ts) m (Nat.le_max_right f g) hg
  rw [h1] at h2; simpa using h2

/-- **C11 is false for tagged equations**: `@exclude`, `@minimize` are not printed, so no tagged equation (with sides in
the good fragment) survives printing. -/
theorem C11_tags_lost (q : Eqn) (hl : q.lhs.Stable) (hr : q.rhs.Stable) (hm : q.lagrange ≠ some [])
    (hc : q.calibrating ≠ some []) (ht : q.tags ≠ []) : ¬ ParsesAsEqn q.toks q := by
  intro h
  have := parsesEqn_unique h (C11_equation_partial q hl hr hm hc)
  apply ht
  rw [this]

/-- **C11 (partial), blocks**: reading back the components a block is printed as gives the block without the tags of its
equations and without its shock distributions; everything else survives. -/
theorem C11_block_partial (b : Blk) :
    buildBlock b.name b.printComps =
      { b with
        definitions := b.definitions.map fun e => { e with tags := [] }
        objective := b.objective.map fun e => { e with tags := [] }
        constraints := b.constraints.map fun e => { e with tags := [] }
        identities := b.identities.map fun e => { e with tags := [] }
        calibration := b.calibration.map fun | .eq e => .eq { e with tags := [] } | .dist d => .dist d
        shockDists := [] } := by
  obtain ⟨n, d, c, o, k, i, s, sd, cal⟩ := b
  have e1 : ∀ {α : Type} (l : List α), l.isEmpty = true → l = [] := by intro α l h; simpa using h
  simp only [buildBlock, Blk.printComps]
  rcases d with _ | ⟨d0, d⟩ <;> rcases c with _ | ⟨c0, c⟩ <;> rcases o with _ | ⟨o0, o⟩ <;> rcases k with _ | ⟨k0, k⟩ <;>
    rcases i with _ | ⟨i0, i⟩ <;> rcases s with _ | ⟨s0, s⟩ <;> rcases cal with _ | ⟨l0, cal⟩ <;> rfl

/-- ... so a shock prior is lost: no block with a shock distribution is read back as itself. -/
theorem C11_shock_prior_lost (b : Blk) (h : b.shockDists ≠ []) : buildBlock b.name b.printComps ≠ b := by
  intro he
  rw [C11_block_partial] at he
  apply h
  rw [← he]

/-- **C11 is false for `tryreduce`**: the printed list of names never satisfies the grammar of the tryreduce block, whatever
the names. -/
theorem C11_tryreduce_unparseable (ns : List Str) (rest : List Tok) (hrest : ∀ t r, rest ≠ .tix t :: r) :
    pVarList (tryreduceToks ns ++ rest) = none ∨ ns = [] := by
  match ns with
  | [] => right; rfl
  | [n] =>
    left
    simp only [tryreduceToks, List.cons_append, List.nil_append]
    cases rest with
    | nil => rfl
    | cons t r =>
      cases t <;> try rfl
      exact absurd rfl (hrest _ _)
  | n :: m :: ns => left; rfl

/-- non-vacuity: a typical right-hand side, `alpha * K[-1] ^ (alpha - 1) * exp(-(Z[] + 1)) - E[][C[1]] / P[ss]` -/
example : (Expr.bin sub
    (.bin mul (.bin mul (.par "alpha".toList) (.bin pow (.var "K".toList (.t (-1)))
      (.bin sub (.par "alpha".toList) (.num 1))))
      (.call "exp".toList [.neg (.bin add (.var "Z".toList (.t 0)) (.num 1))]))
    (.bin div (.expect (.var "C".toList (.t 1))) (.var "P".toList .ss))).Stable := by
  simp [Expr.Stable, Expr.StableArgs, Expr.rootPrec, prec]

example : (Expr.bin add (.par "a".toList) (.bin sub (.par "b".toList)
    (.bin mul (.num 2) (.bin div (.num 1) (.par "c".toList))))).MeaningStable := by
  simp [Expr.MeaningStable, Expr.AssocOK, Expr.rootPrec, prec]

/-! ## C43: components of a block -/

/-- which component -/
def Comp.kind : Comp → Nat
  | .definitions _ => 0 | .controls _ => 1 | .objective _ => 2 | .constraints _ => 3
  | .identities _ => 4 | .shocks _ _ => 5 | .calibration _ => 6

/-- every statement of the component is found in the corresponding field of the block -/
def Comp.keptIn (b : Blk) : Comp → Prop
  | .definitions es => ∀ e ∈ es, e ∈ b.definitions
  | .controls vs => ∀ v ∈ vs, v ∈ b.controls
  | .objective es => ∀ e ∈ es, e ∈ b.objective
  | .constraints es => ∀ e ∈ es, e ∈ b.constraints
  | .identities es => ∀ e ∈ es, e ∈ b.identities
  | .shocks vs ds => (∀ v ∈ vs, v ∈ b.shocks) ∧ ∀ d ∈ ds, d ∈ b.shockDists
  | .calibration cs => ∀ c ∈ cs, c ∈ b.calibration

theorem keptIn_addComp_self (b : Blk) (c : Comp) : c.keptIn (b.addComp c) := by
  cases c <;> simp [Comp.keptIn, Blk.addComp]

theorem keptIn_addComp (b : Blk) (c d : Comp) (h : c.kind ≠ d.kind) (hk : c.keptIn b) : c.keptIn (b.addComp d) := by
  cases c <;> cases d <;> simp_all [Comp.kind, Comp.keptIn, Blk.addComp]

/-- **C43 (partial)** when no component is written twice, every statement of every component is in the parsed block. -/
theorem C43_no_loss_partial (name : Str) (cs : List Comp) (h : (cs.map Comp.kind).Nodup) :
    ∀ c ∈ cs, c.keptIn (buildBlock name cs) := by
  suffices H : ∀ (cs : List Comp) (b : Blk), (cs.map Comp.kind).Nodup →
      (∀ c ∈ cs, c.keptIn (cs.foldl Blk.addComp b)) ∧
      (∀ d : Comp, d.kind ∉ cs.map Comp.kind → d.keptIn b → d.keptIn (cs.foldl Blk.addComp b)) from
    (H cs _ h).1
  intro cs
  induction cs with
  | nil => intro b _; simp
  | cons c cs ih =>
    intro b hn
    simp only [List.map_cons, List.nodup_cons] at hn
    have := ih (b.addComp c) hn.2
    refine ⟨?_, ?_⟩
    · intro d hd
      rcases List.mem_cons.mp hd with rfl | hd
      · exact this.2 d hn.1 (keptIn_addComp_self b d)
      · exact this.1 d hd
    · intro d hd hk
      simp only [List.map_cons, List.mem_cons, not_or] at hd
      exact this.2 d hd.2 (keptIn_addComp b d c hd.1 hk)

/-- **C43 is false**: when `identities` is written twice the first group is silently dropped, whatever else the block
contains in between (no further `identities` component after the second). -/
theorem C43_violated (name : Str) (pre mid post : List Comp) (es es' : List Eqn) (q : Eqn) (hq : q ∈ es) (hq' : q ∉ es')
    (hpost : ∀ c ∈ post, c.kind ≠ 4) :
    ¬ (Comp.identities es).keptIn (buildBlock name (pre ++ .identities es :: mid ++ .identities es' :: post)) := by
  have hp : ∀ (post : List Comp) (b : Blk), (∀ c ∈ post, c.kind ≠ 4) →
      (post.foldl Blk.addComp b).identities = b.identities := by
    intro post
    induction post with
    | nil => intro b _; rfl
    | cons c post ih =>
      intro b h
      rw [List.foldl_cons, ih _ (fun c hc => h c (List.mem_cons_of_mem _ hc))]
      have := h c (List.mem_cons_self ..)
      cases c <;> simp_all [Comp.kind, Blk.addComp]
  intro h
  simp only [Comp.keptIn, buildBlock, List.foldl_append, List.foldl_cons] at h
  have := h q hq
  rw [hp _ _ hpost] at this
  exact hq' this

/-- non-vacuity: a block with two identities groups -/
example : ∃ (q q' : Eqn), q ∈ [q] ∧ q ∉ [q'] :=
  ⟨{ lhs := .par [], rhs := .num 1 }, { lhs := .par [], rhs := .num 2 }, by simp, by simp⟩

end GE
