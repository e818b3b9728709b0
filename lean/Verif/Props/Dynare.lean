import Verif.Model.DynareGrammar
import Mathlib.Tactic.Ring
import Mathlib.Tactic.FieldSimp
import Mathlib.Tactic.NormNum
import Mathlib.Data.Rat.Cast.Order
/-! # C101: an expression exported to Dynare means the same there -/

namespace GE.Dyn

/-! ## fuel -/

theorem mono_all (f : Nat) :
    (∀ ts r, pAtom f ts = some r → pAtom (f+1) ts = some r) ∧
    (∀ ts r, pExp f ts = some r → pExp (f+1) ts = some r) ∧
    (∀ ts r, pPow f ts = some r → pPow (f+1) ts = some r) ∧
    (∀ ts r, pUnary f ts = some r → pUnary (f+1) ts = some r) ∧
    (∀ ts r, pMul f ts = some r → pMul (f+1) ts = some r) ∧
    (∀ a ts r, pMulLoop f a ts = some r → pMulLoop (f+1) a ts = some r) ∧
    (∀ ts r, pAdd f ts = some r → pAdd (f+1) ts = some r) ∧
    (∀ a ts r, pAddLoop f a ts = some r → pAddLoop (f+1) a ts = some r) ∧
    (∀ ts r, pArgs f ts = some r → pArgs (f+1) ts = some r) := by
  induction f with
  | zero => refine ⟨?_, ?_, ?_, ?_, ?_, ?_, ?_, ?_, ?_⟩ <;> intros <;>
      simp_all [pAtom, pExp, pUnary, pPow, pMul, pMulLoop, pAdd, pAddLoop, pArgs]
  | succ f ih =>
    obtain ⟨hAtom, hExp, hPow, hUn, hMul, hMulL, hAdd, hAddL, hArgs⟩ := ih
    refine ⟨?_, ?_, ?_, ?_, ?_, ?_, ?_, ?_, ?_⟩
    · intro ts r h
      unfold pAtom at h ⊢
      split at h <;> first | (simp at h; done) | skip
      all_goals first
        | exact h
        | (have e := ‹f + 1 = _›; cases e
           (split at h <;> first
              | (simp at h; done)
              | (rw [hArgs _ _ ‹pArgs f _ = some _›]; simpa using h)
              | (rw [hAdd _ _ ‹pAdd f _ = some _›]; simpa using h)))
    · intro ts r h
      unfold pExp at h ⊢
      split at h <;> first | (simp at h; done) | skip
      all_goals (have e := ‹f + 1 = _›; cases e; first | exact hUn _ _ h | exact hAtom _ _ h)
    · intro ts r h
      unfold pPow at h ⊢
      split at h
      · rename_i a r' h'
        rw [hAtom _ _ h']
        simp only
        split at h
        · simp at h
        · rename_i hp; rw [hExp _ _ hp]; simpa using h
        · simp at h
      · rw [hAtom _ _ h]
        split <;> simp_all
    · intro ts r h
      unfold pUnary at h ⊢
      split at h <;> first | (simp at h; done) | skip
      · have e := ‹f + 1 = _›; cases e
        cases hu : pUnary f ‹List DTok› with
        | none => rw [hu] at h; simp at h
        | some q => rw [hu] at h; rw [hUn _ _ hu]; exact h
      · have e := ‹f + 1 = _›; cases e; exact hUn _ _ h
      · have e := ‹f + 1 = _›; cases e; exact hPow _ _ h
    · intro ts r h
      unfold pMul at h ⊢
      split at h
      · rename_i h'; rw [hUn _ _ h']; exact hMulL _ _ _ h
      · simp at h
    · intro a ts r h
      unfold pMulLoop at h ⊢
      split at h <;> first | (simp at h; done) | skip
      all_goals first
        | exact h
        | (have e := ‹f + 1 = _›; cases e
           (split at h <;> first
              | (simp at h; done)
              | (rw [hUn _ _ ‹pUnary f _ = some _›]; exact hMulL _ _ _ h)))
    · intro ts r h
      unfold pAdd at h ⊢
      split at h
      · rename_i h'; rw [hMul _ _ h']; exact hAddL _ _ _ h
      · simp at h
    · intro a ts r h
      unfold pAddLoop at h ⊢
      split at h <;> first | (simp at h; done) | skip
      all_goals first
        | exact h
        | (have e := ‹f + 1 = _›; cases e
           (split at h <;> first
              | (simp at h; done)
              | (rw [hMul _ _ ‹pMul f _ = some _›]; exact hAddL _ _ _ h)))
    · intro ts r h
      unfold pArgs at h ⊢
      split at h
      · rename_i ts' h'
        rw [hAdd _ _ h']; simp only
        cases hu : pArgs f ts' with
        | none => rw [hu] at h; simp at h
        | some q => rw [hu] at h; rw [hArgs _ _ hu]; exact h
      · rename_i h'; rw [hAdd _ _ h']
        split <;> simp_all
      · simp at h

theorem mono_le {α} (p : Nat → Option α) (h : ∀ f r, p f = some r → p (f+1) = some r) {f g : Nat} (hg : f ≤ g) {r}
    (hf : p f = some r) : p g = some r := by
  induction hg with
  | refl => exact hf
  | step _ ih => exact h _ _ ih

/-- Dynare reads a text in at most one way -/
theorem reads_unique {ts a a'} (h : ReadsAs ts a) (h' : ReadsAs ts a') : a = a' := by
  obtain ⟨f, hf⟩ := h; obtain ⟨g, hg⟩ := h'
  have m := fun f r => (mono_all f).2.2.2.2.2.2.1 ts r
  have h1 := mono_le (fun f => pAdd f ts) m (Nat.le_max_left f g) hf
  have h2 := mono_le (fun f => pAdd f ts) m (Nat.le_max_right f g) hg
  rw [h1] at h2; simpa using h2

/-! ## relational form -/

def RAtom (ts) (r : DA × List DTok) := ∃ f, pAtom f ts = some r
def RPow (ts) (r : DA × List DTok) := ∃ f, pPow f ts = some r
def RUnary (ts) (r : DA × List DTok) := ∃ f, pUnary f ts = some r
def RMul (ts) (r : DA × List DTok) := ∃ f, pMul f ts = some r
def RMulLoop (a) (ts) (r : DA × List DTok) := ∃ f, pMulLoop f a ts = some r
def RAdd (ts) (r : DA × List DTok) := ∃ f, pAdd f ts = some r
def RAddLoop (a) (ts) (r : DA × List DTok) := ∃ f, pAddLoop f a ts = some r
def RArgs (ts) (r : List DA × List DTok) := ∃ f, pArgs f ts = some r

theorem two {α β} {p : Nat → Option α} {q : Nat → Option β}
    (hp : ∀ f r, p f = some r → p (f+1) = some r) (hq : ∀ f r, q f = some r → q (f+1) = some r) {a b}
    (h1 : ∃ f, p f = some a) (h2 : ∃ f, q f = some b) : ∃ f, p f = some a ∧ q f = some b := by
  obtain ⟨f, hf⟩ := h1; obtain ⟨g, hg⟩ := h2
  exact ⟨max f g, mono_le p hp (Nat.le_max_left _ _) hf, mono_le q hq (Nat.le_max_right _ _) hg⟩

theorem mAtom (ts) : ∀ f r, pAtom f ts = some r → pAtom (f+1) ts = some r := fun f => (mono_all f).1 ts
theorem mUnary (ts) : ∀ f r, pUnary f ts = some r → pUnary (f+1) ts = some r := fun f => (mono_all f).2.2.2.1 ts
theorem mMul (ts) : ∀ f r, pMul f ts = some r → pMul (f+1) ts = some r := fun f => (mono_all f).2.2.2.2.1 ts
theorem mMulL (a ts) : ∀ f r, pMulLoop f a ts = some r → pMulLoop (f+1) a ts = some r :=
  fun f => (mono_all f).2.2.2.2.2.1 a ts
theorem mAdd (ts) : ∀ f r, pAdd f ts = some r → pAdd (f+1) ts = some r := fun f => (mono_all f).2.2.2.2.2.2.1 ts
theorem mAddL (a ts) : ∀ f r, pAddLoop f a ts = some r → pAddLoop (f+1) a ts = some r :=
  fun f => (mono_all f).2.2.2.2.2.2.2.1 a ts
theorem mArgs (ts) : ∀ f r, pArgs f ts = some r → pArgs (f+1) ts = some r := fun f => (mono_all f).2.2.2.2.2.2.2.2 ts

/-- what may follow an atom -/
def ok4 : List DTok → Prop
  | [] => True
  | .op _ :: _ => True
  | .rpar :: _ => True
  | .comma :: _ => True
  | _ => False
def ok3 : List DTok → Prop
  | .op .pow :: _ => False
  | ts => ok4 ts
def ok2 : List DTok → Prop
  | .op .mul :: _ => False
  | .op .div :: _ => False
  | ts => ok3 ts
def ok1 : List DTok → Prop
  | .op .add :: _ => False
  | .op .sub :: _ => False
  | ts => ok2 ts

theorem ok34 {ts} (h : ok3 ts) : ok4 ts := by unfold ok3 at h; split at h <;> simp_all
theorem ok23 {ts} (h : ok2 ts) : ok3 ts := by unfold ok2 at h; split at h <;> simp_all
theorem ok12 {ts} (h : ok1 ts) : ok2 ts := by unfold ok1 at h; split at h <;> simp_all

theorem r_num (v ts) : RAtom (.num v :: ts) (.num v, ts) := ⟨1, by simp [pAtom]⟩
theorem r_name {n ts} (h : ok4 ts) : RAtom (.name n :: ts) (.ref n 0, ts) := by
  refine ⟨1, ?_⟩
  unfold pAtom
  split <;> simp_all [ok4]
theorem r_lead (n) (k : Int) (ts) : RAtom (.name n :: .lpar :: .op .add :: .num k :: .rpar :: ts) (.ref n k, ts) :=
  ⟨1, by simp [pAtom]⟩
theorem r_lag (n) (k : Int) (ts) : RAtom (.name n :: .lpar :: .op .sub :: .num k :: .rpar :: ts) (.ref n (-k), ts) :=
  ⟨1, by simp [pAtom]⟩
theorem r_paren {ts e rest} (h : RAdd ts (e, .rpar :: rest)) : RAtom (.lpar :: ts) (e, rest) := by
  obtain ⟨f, hf⟩ := h; exact ⟨f+1, by simp [pAtom, hf]⟩
theorem r_call {ts n as rest} (h : RArgs ts (as, .rpar :: rest)) :
    RAtom (.fn n :: .lpar :: ts) (.call n as, rest) := by
  obtain ⟨f, hf⟩ := h; exact ⟨f+1, by simp [pAtom, hf]⟩
theorem r_atom_pow {ts a rest} (h : RAtom ts (a, rest)) (hr : ok3 rest) : RPow ts (a, rest) := by
  obtain ⟨f, hf⟩ := h
  refine ⟨f+1, ?_⟩
  unfold pPow
  rw [hf]
  split
  · rename_i heq; simp at heq; rw [heq.2] at hr; simp [ok3] at hr
  · rfl

theorem atom_not_sign {f ts r} (h : pAtom f ts = some r) : (∀ t, ts ≠ .op .sub :: t) ∧ (∀ t, ts ≠ .op .add :: t) := by
  constructor <;> rintro t rfl <;> cases f <;> simp [pAtom] at h

theorem r_pow {ts a ts' b rest} (h : RAtom ts (a, .op .pow :: ts')) (h' : RAtom ts' (b, rest)) (hr : ok3 rest) :
    RPow ts (.bin .pow a b, rest) := by
  obtain ⟨f, h1, h2⟩ := two (mAtom ts) (mAtom ts') h h'
  refine ⟨f+1+1, ?_⟩
  have e : pExp (f+1) ts' = some (b, rest) := by
    unfold pExp
    have hs := atom_not_sign h2
    split
    · simp_all
    · exact absurd rfl (hs.1 _)
    · exact absurd rfl (hs.2 _)
    · simp_all
  unfold pPow
  rw [mAtom _ _ _ h1]; simp only; rw [e]
  split
  · rename_i heq; simp at heq; rw [heq.2] at hr; simp [ok3] at hr
  · rename_i heq; simp at heq; simp [heq]
  · simp_all

theorem r_unary {ts r} (h : RPow ts r) : RUnary ts r := by
  obtain ⟨f, hf⟩ := h
  have hs : (∀ t, ts ≠ .op .sub :: t) ∧ (∀ t, ts ≠ .op .add :: t) := by
    cases f with
    | zero => simp [pPow] at hf
    | succ f =>
      unfold pPow at hf
      split at hf
      · rename_i h; exact atom_not_sign h
      · exact atom_not_sign hf
  refine ⟨f+1, ?_⟩
  unfold pUnary
  split
  · simp_all
  · exact absurd rfl (hs.1 _)
  · exact absurd rfl (hs.2 _)
  · simp_all

theorem r_neg {ts e rest} (h : RUnary ts (e, rest)) : RUnary (.op .sub :: ts) (.neg e, rest) := by
  obtain ⟨f, hf⟩ := h; exact ⟨f+1, by simp [pUnary, hf]⟩
theorem r_mul {ts a ts' r} (h : RUnary ts (a, ts')) (h' : RMulLoop a ts' r) : RMul ts r := by
  obtain ⟨f, h1, h2⟩ := two (mUnary ts) (mMulL a ts') h h'
  exact ⟨f+1, by unfold pMul; rw [h1]; exact h2⟩
theorem r_times {a ts b ts' r} (h : RUnary ts (b, ts')) (h' : RMulLoop (.bin .mul a b) ts' r) :
    RMulLoop a (.op .mul :: ts) r := by
  obtain ⟨f, h1, h2⟩ := two (mUnary ts) (mMulL (.bin .mul a b) ts') h h'
  exact ⟨f+1, by unfold pMulLoop; rw [h1]; exact h2⟩
theorem r_div {a ts b ts' r} (h : RUnary ts (b, ts')) (h' : RMulLoop (.bin .div a b) ts' r) :
    RMulLoop a (.op .div :: ts) r := by
  obtain ⟨f, h1, h2⟩ := two (mUnary ts) (mMulL (.bin .div a b) ts') h h'
  exact ⟨f+1, by unfold pMulLoop; rw [h1]; exact h2⟩
theorem r_mulend {a ts} (h : ok2 ts) : RMulLoop a ts (a, ts) := by
  refine ⟨1, ?_⟩
  unfold pMulLoop
  split <;> first | rfl | simp_all [ok2]
theorem r_add {ts a ts' r} (h : RMul ts (a, ts')) (h' : RAddLoop a ts' r) : RAdd ts r := by
  obtain ⟨f, h1, h2⟩ := two (mMul ts) (mAddL a ts') h h'
  exact ⟨f+1, by unfold pAdd; rw [h1]; exact h2⟩
theorem r_plus {a ts b ts' r} (h : RMul ts (b, ts')) (h' : RAddLoop (.bin .add a b) ts' r) :
    RAddLoop a (.op .add :: ts) r := by
  obtain ⟨f, h1, h2⟩ := two (mMul ts) (mAddL (.bin .add a b) ts') h h'
  exact ⟨f+1, by unfold pAddLoop; rw [h1]; exact h2⟩
theorem r_minus {a ts b ts' r} (h : RMul ts (b, ts')) (h' : RAddLoop (.bin .sub a b) ts' r) :
    RAddLoop a (.op .sub :: ts) r := by
  obtain ⟨f, h1, h2⟩ := two (mMul ts) (mAddL (.bin .sub a b) ts') h h'
  exact ⟨f+1, by unfold pAddLoop; rw [h1]; exact h2⟩
theorem r_addend {a ts} (h : ok1 ts) : RAddLoop a ts (a, ts) := by
  refine ⟨1, ?_⟩
  unfold pAddLoop
  split <;> first | rfl | simp_all [ok1]
theorem r_args_one {ts a rest} (h : RAdd ts (a, .rpar :: rest)) : RArgs ts ([a], .rpar :: rest) := by
  obtain ⟨f, hf⟩ := h; exact ⟨f+1, by simp [pArgs, hf]⟩
theorem r_args_cons {ts a ts' as rest} (h : RAdd ts (a, .comma :: ts')) (h' : RArgs ts' (as, rest)) :
    RArgs ts (a :: as, rest) := by
  obtain ⟨f, h1, h2⟩ := two (mAdd ts) (mArgs ts') h h'
  exact ⟨f+1, by unfold pArgs; rw [h1]; simp only; rw [h2]; rfl⟩

/-! ## how printed pieces read -/

section
variable (F : Funs) (env : Str → Int → ℝ)

/-- reads as an atom of value `v` -/
def AtomT (ts : List DTok) (v : ℝ) : Prop := ∃ a : DA, a.val F env = v ∧ ∀ rest, ok4 rest → RAtom (ts ++ rest) (a, rest)
/-- reads as an operand of `*` and `/` of value `v` -/
def UnitT (ts : List DTok) (v : ℝ) : Prop := ∃ a : DA, a.val F env = v ∧ ∀ rest, ok3 rest → RUnary (ts ++ rest) (a, rest)
/-- reads as a run of `*` and `/` of value `v`: at the start of a product, after a minus sign, after `L *` -/
structure ChainT (ts : List DTok) (v : ℝ) : Prop where
  start : ∃ a : DA, a.val F env = v ∧ ∀ rest r, ok3 rest → RMulLoop a rest r → RMul (ts ++ rest) r
  neg : ∃ a : DA, a.val F env = -v ∧ ∀ rest r, ok3 rest → RMulLoop a rest r → RMul (.op .sub :: (ts ++ rest)) r
  cont : ∀ L : DA, ∃ a : DA, a.val F env = L.val F env * v ∧
    ∀ rest r, ok3 rest → RMulLoop a rest r → RMulLoop L (.op .mul :: (ts ++ rest)) r
/-- reads as an expression of value `v` -/
def FullT (ts : List DTok) (v : ℝ) : Prop := ∃ a : DA, a.val F env = v ∧ ∀ rest, ok1 rest → RAdd (ts ++ rest) (a, rest)

variable {F env}

theorem AtomT.unit {ts v} (h : AtomT F env ts v) : UnitT F env ts v := by
  obtain ⟨a, ha, hr⟩ := h
  exact ⟨a, ha, fun rest ho => r_unary (r_atom_pow (hr rest (ok34 ho)) ho)⟩

theorem UnitT.chain {ts v} (h : UnitT F env ts v) : ChainT F env ts v := by
  obtain ⟨a, ha, hr⟩ := h
  refine ⟨⟨a, ha, fun rest r ho hl => r_mul (hr rest ho) hl⟩,
    ⟨.neg a, by simp [DA.val, ha], fun rest r ho hl => r_mul (r_neg (hr rest ho)) hl⟩,
    fun L => ⟨.bin .mul L a, by simp [DA.val, ha], fun rest r ho hl => r_times (hr rest ho) hl⟩⟩

theorem ChainT.mul {ts ts' v v'} (h : ChainT F env ts v) (h' : ChainT F env ts' v') :
    ChainT F env (ts ++ .op .mul :: ts') (v * v') := by
  have key : ∀ L : DA, ∃ a : DA, a.val F env = L.val F env * v' ∧
    ∀ rest r, ok3 rest → RMulLoop a rest r → RMulLoop L (.op .mul :: (ts' ++ rest)) r := h'.cont
  refine ⟨?_, ?_, ?_⟩
  · obtain ⟨a, ha, hr⟩ := h.start
    obtain ⟨b, hb, hs⟩ := key a
    refine ⟨b, by rw [hb, ha], fun rest r ho hl => ?_⟩
    have := hr (.op .mul :: (ts' ++ rest)) r (by simp [ok3, ok4]) (hs rest r ho hl)
    simpa using this
  · obtain ⟨a, ha, hr⟩ := h.neg
    obtain ⟨b, hb, hs⟩ := key a
    refine ⟨b, by rw [hb, ha]; ring, fun rest r ho hl => ?_⟩
    have := hr (.op .mul :: (ts' ++ rest)) r (by simp [ok3, ok4]) (hs rest r ho hl)
    simpa using this
  · intro L
    obtain ⟨a, ha, hr⟩ := h.cont L
    obtain ⟨b, hb, hs⟩ := key a
    refine ⟨b, by rw [hb, ha]; ring, fun rest r ho hl => ?_⟩
    have := hr (.op .mul :: (ts' ++ rest)) r (by simp [ok3, ok4]) (hs rest r ho hl)
    simpa using this

theorem ChainT.div {ts ts' v v'} (h : ChainT F env ts v) (h' : UnitT F env ts' v') :
    ChainT F env (ts ++ .op .div :: ts') (v / v') := by
  obtain ⟨d, hd, hdr⟩ := h'
  refine ⟨?_, ?_, ?_⟩
  · obtain ⟨a, ha, hr⟩ := h.start
    refine ⟨.bin .div a d, by simp [DA.val, ha, hd], fun rest r ho hl => ?_⟩
    have := hr (.op .div :: (ts' ++ rest)) r (by simp [ok3, ok4]) (r_div (hdr rest ho) hl)
    simpa using this
  · obtain ⟨a, ha, hr⟩ := h.neg
    refine ⟨.bin .div a d, by simp [DA.val, ha, hd, neg_div], fun rest r ho hl => ?_⟩
    have := hr (.op .div :: (ts' ++ rest)) r (by simp [ok3, ok4]) (r_div (hdr rest ho) hl)
    simpa using this
  · intro L
    obtain ⟨a, ha, hr⟩ := h.cont L
    refine ⟨.bin .div a d, by simp [DA.val, ha, hd, mul_div_assoc], fun rest r ho hl => ?_⟩
    have := hr (.op .div :: (ts' ++ rest)) r (by simp [ok3, ok4]) (r_div (hdr rest ho) hl)
    simpa using this

theorem ChainT.full {ts v} (h : ChainT F env ts v) : FullT F env ts v := by
  obtain ⟨a, ha, hr⟩ := h.start
  exact ⟨a, ha, fun rest ho => r_add (hr rest _ (ok23 (ok12 ho)) (r_mulend (ok12 ho))) (r_addend ho)⟩

theorem ChainT.negFull {ts v} (h : ChainT F env ts v) : FullT F env (.op .sub :: ts) (-v) := by
  obtain ⟨a, ha, hr⟩ := h.neg
  exact ⟨a, ha, fun rest ho => r_add (hr rest _ (ok23 (ok12 ho)) (r_mulend (ok12 ho))) (r_addend ho)⟩

theorem FullT.par {ts v} (h : FullT F env ts v) : AtomT F env (inPar ts) v := by
  obtain ⟨a, ha, hr⟩ := h
  refine ⟨a, ha, fun rest _ => ?_⟩
  have := r_paren (hr (.rpar :: rest) (by simp [ok1, ok2, ok3, ok4]))
  simpa [inPar] using this

theorem atom_num (v : Rat) : AtomT F env [.num v] v := ⟨.num v, by simp [DA.val], fun rest _ => r_num v rest⟩

theorem atom_name (n : Str) : AtomT F env [.name n] (env n 0) := ⟨.ref n 0, by simp [DA.val], fun _ ho => r_name ho⟩

theorem atom_call1 {f ts v} (h : FullT F env ts v) : AtomT F env (.fn f :: inPar ts) (F.app f [v]) := by
  obtain ⟨a, ha, hr⟩ := h
  refine ⟨.call f [a], by simp [DA.val, DA.vals, ha], fun rest _ => ?_⟩
  have := r_call (n := f) (r_args_one (hr (.rpar :: rest) (by simp [ok1, ok2, ok3, ok4])))
  simpa [inPar] using this

end
end GE.Dyn
