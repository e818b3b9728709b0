import Verif.Props.Dynare2
/-! # C101: an expression exported to Dynare means the same there (sums, arguments, theorem) -/

namespace GE.Dyn

section
variable {F : Funs} {env : Str → Int → ℝ}

/-! sums -/

/-- how a printed list of terms starts -/
theorem addTerms_ok2 (ts : List (Bool × List DTok)) {rest} (h : ok1 rest) : ok2 (addTerms false ts ++ rest) := by
  cases ts with
  | nil => simpa [addTerms] using ok12 h
  | cons p ts =>
    obtain ⟨b, t⟩ := p
    simp only [addTerms]
    cases b with
    | true => simp [ok2, ok3, ok4]
    | false =>
      simp only [Bool.false_eq_true, if_false]
      split <;> simp [ok2, ok3, ok4]

theorem ns_match {t : List DTok} (h : NS t) (first : Bool) (ts) :
    addTerms first ((false, t) :: ts) = (if first then t else .op .add :: t) ++ addTerms false ts := by
  obtain ⟨x, xs, rfl, hx⟩ := h
  simp only [addTerms, Bool.false_eq_true, if_false]
  congr 1
  split
  · rename_i heq; exact absurd (List.cons.inj heq).1 hx
  · rfl

theorem loop_ok (V : TSym → ℝ) (P : Str → ℝ) : ∀ (ts : List DE), (∀ e ∈ ts, Good F env e (e.val F V P)) → ∀ L : DA,
    ∃ a : DA, a.val F env = L.val F env + (DE.vals F V P ts).sum ∧
      ∀ rest, ok1 rest → RAddLoop L (addTerms false (termToks ts) ++ rest) (a, rest)
  | [], _, L => ⟨L, by simp [DE.vals], fun rest ho => by simpa [termToks, addTerms] using r_addend ho⟩
  | e :: ts, h, L => by
    have ge := h e (by simp)
    have ih := loop_ok V P ts (fun x hx => h x (by simp [hx]))
    have two : ∀ rest, ok1 rest → ok2 (addTerms false (termToks ts) ++ rest) := fun rest ho => addTerms_ok2 _ ho
    cases hs : isSum e with
    | true =>
      obtain ⟨x, hx, hxr⟩ := ge.full.par.unit.chain.start
      obtain ⟨a, ha, har⟩ := ih (.bin .add L x)
      refine ⟨a, by rw [ha]; simp [DA.val, DE.vals, hx, add_assoc], fun rest ho => ?_⟩
      have := r_plus (hxr _ _ (ok23 (two rest ho)) (r_mulend (two rest ho))) (har rest ho)
      simpa [termToks, addTerms, hs, inPar] using this
    | false =>
      cases hn : isNeg e with
      | true =>
        obtain ⟨t, ht, hc⟩ := ge.neg hn
        obtain ⟨x, hx, hxr⟩ := hc.start
        obtain ⟨a, ha, har⟩ := ih (.bin .sub L x)
        refine ⟨a, by rw [ha]; simp [DA.val, DE.vals, hx, add_assoc], fun rest ho => ?_⟩
        have := r_minus (hxr _ _ (ok23 (two rest ho)) (r_mulend (two rest ho))) (har rest ho)
        simpa [termToks, addTerms, hs, ht] using this
      | false =>
        obtain ⟨hc, hns⟩ := ge.pos hn hs
        obtain ⟨x, hx, hxr⟩ := hc.start
        obtain ⟨a, ha, har⟩ := ih (.bin .add L x)
        refine ⟨a, by rw [ha]; simp [DA.val, DE.vals, hx, add_assoc], fun rest ho => ?_⟩
        have := r_plus (hxr _ _ (ok23 (two rest ho)) (r_mulend (two rest ho))) (har rest ho)
        simp only [termToks, hs, ns_match hns, Bool.false_eq_true, if_false, if_true]
        simpa using this

theorem sum_ok (V : TSym → ℝ) (P : Str → ℝ) {ts : List DE} (h : ∀ e ∈ ts, Good F env e (e.val F V P)) (hne : ts ≠ []) :
    FullT F env (addTerms true (termToks ts)) (DE.vals F V P ts).sum := by
  cases ts with
  | nil => exact absurd rfl hne
  | cons e ts =>
    have ge := h e (by simp)
    have ih := loop_ok V P ts (fun x hx => h x (by simp [hx]))
    have two : ∀ rest, ok1 rest → ok2 (addTerms false (termToks ts) ++ rest) := fun rest ho => addTerms_ok2 _ ho
    cases hs : isSum e with
    | true =>
      obtain ⟨x, hx, hxr⟩ := ge.full.par.unit.chain.start
      obtain ⟨a, ha, har⟩ := ih x
      refine ⟨a, by rw [ha]; simp [DE.vals, hx], fun rest ho => ?_⟩
      have := r_add (hxr _ _ (ok23 (two rest ho)) (r_mulend (two rest ho))) (har rest ho)
      simpa [termToks, addTerms, hs, inPar] using this
    | false =>
      cases hn : isNeg e with
      | true =>
        obtain ⟨t, ht, hc⟩ := ge.neg hn
        obtain ⟨x, hx, hxr⟩ := hc.neg
        obtain ⟨a, ha, har⟩ := ih x
        refine ⟨a, by rw [ha]; simp [DE.vals, hx], fun rest ho => ?_⟩
        have := r_add (hxr _ _ (ok23 (two rest ho)) (r_mulend (two rest ho))) (har rest ho)
        simpa [termToks, addTerms, hs, ht] using this
      | false =>
        obtain ⟨hc, hns⟩ := ge.pos hn hs
        obtain ⟨x, hx, hxr⟩ := hc.start
        obtain ⟨a, ha, har⟩ := ih x
        refine ⟨a, by rw [ha]; simp [DE.vals, hx], fun rest ho => ?_⟩
        have := r_add (hxr _ _ (ok23 (two rest ho)) (r_mulend (two rest ho))) (har rest ho)
        simp only [termToks, hs, ns_match hns, Bool.false_eq_true, if_false, if_true]
        simpa using this

/-! arguments -/

theorem args_ok (V : TSym → ℝ) (P : Str → ℝ) : ∀ (as : List DE), (∀ e ∈ as, Good F env e (e.val F V P)) → as ≠ [] →
    ∃ xs : List DA, DA.vals F env xs = DE.vals F V P as ∧
      ∀ rest, RArgs (argToks as ++ .rpar :: rest) (xs, .rpar :: rest)
  | [], _, h => absurd rfl h
  | [e], h, _ => by
    obtain ⟨a, ha, har⟩ := (h e (by simp)).full
    refine ⟨[a], by simp [DA.vals, DE.vals, ha], fun rest => ?_⟩
    have := r_args_one (har (.rpar :: rest) (by simp [ok1, ok2, ok3, ok4]))
    simpa [argToks] using this
  | e :: e' :: es, h, _ => by
    obtain ⟨a, ha, har⟩ := (h e (by simp)).full
    obtain ⟨xs, hxs, hr⟩ := args_ok V P (e' :: es) (fun x hx => h x (by simp [hx])) (by simp)
    refine ⟨a :: xs, by simp only [DA.vals, DE.vals, ha] at hxs ⊢; rw [hxs], fun rest => ?_⟩
    have := r_args_cons (har (.comma :: (argToks (e' :: es) ++ .rpar :: rest)) (by simp [ok1, ok2, ok3, ok4])) (hr rest)
    simpa [argToks] using this

theorem good_add (V : TSym → ℝ) (P : Str → ℝ) {ts : List DE} (h : ∀ e ∈ ts, Good F env e (e.val F V P)) (hne : ts ≠ []) :
    Good F env (.add ts) (DE.val F V P (.add ts)) := by
  have := sum_ok V P h hne
  refine ⟨by simpa [toks, DE.val] using this, by simp [isNeg], by simp [isSum], ?_, ?_⟩
  · simp [precOf, pAddLvl, pMulLvl]
  · simp [precOf, pAddLvl, pPowLvl]

theorem good_fn (V : TSym → ℝ) (P : Str → ℝ) (f : Str) {as : List DE} (h : ∀ e ∈ as, Good F env e (e.val F V P))
    (hne : as ≠ []) : Good F env (.fn f as) (DE.val F V P (.fn f as)) := by
  obtain ⟨xs, hxs, hr⟩ := args_ok V P as h hne
  refine good_of_atom ⟨.call f xs, by simp [DA.val, DE.val, hxs], fun rest _ => ?_⟩ rfl
    (by simp only [toks]; exact ⟨_, _, rfl, by simp⟩)
  have := r_call (n := f) (hr rest)
  simpa [toks, inPar] using this

theorem good_pow {b e : DE} {vb ve : ℝ} (gb : Good F env b vb) (ge : Good F env e ve)
    (hlit : ∀ r, litOf e = some r → ve = r) (hreal : ∀ r, litOf e = some r → r < 0 → r.den ≠ 1 → 0 ≤ vb) :
    Good F env (.pow b e) (vb ^ ve) := by
  have h := pow_ok gb (lit := litOf e) ge.parenAtom.1 hlit hreal
  refine ⟨by simpa [toks] using h.1.full, by simp [isNeg], fun _ _ => ⟨by simpa [toks] using h.1, by simpa [toks] using h.2.1⟩,
    ?_, by simp [precOf, pPowLvl]⟩
  intro hq _
  simp only [quotLike, Bool.or_eq_false_iff, beq_eq_false_iff_ne] at hq
  simpa [toks] using h.2.2 hq.1 hq.2

theorem mul_ok (V : TSym → ℝ) (P : Str → ℝ) {fs : List DE}
    (hf : ∀ lvl, pAddLvl ≤ lvl → lvl ≤ pMulLvl → ∀ f ∈ fs, Pieces F env (factor lvl f) (f.val F V P)) :
    (negCoeff fs = true → ∃ ts, mulToks fs = .op .sub :: ts ∧ ChainT F env ts (-(DE.vals F V P fs).prod)) ∧
    (negCoeff fs = false → ChainT F env (mulToks fs) (DE.vals F V P fs).prod ∧ NS (mulToks fs)) := by
  have all : ∀ (gs : List DE), (∀ f ∈ gs, f ∈ fs) → ∀ lvl, pAddLvl ≤ lvl → lvl ≤ pMulLvl →
      Pieces F env (factors lvl gs) (DE.vals F V P gs).prod := by
    intro gs
    induction gs with
    | nil => intro _ _ _ _; simpa [factors, DE.vals] using pieces_nil
    | cons g gs ih =>
      intro hm lvl h1 h2
      have := (hf lvl h1 h2 g (hm g (by simp))).append (ih (fun f hf => hm f (by simp [hf])) lvl h1 h2)
      simpa [factors, DE.vals] using this
  have la : pAddLvl ≤ pAddLvl := le_refl _
  have lam : pAddLvl ≤ pMulLvl := by decide
  have lm : pMulLvl ≤ pMulLvl := le_refl _
  cases fs with
  | nil => simpa [negCoeff, mulToks, DE.vals] using quotient_ok (pieces_nil (F := F) (env := env))
  | cons g gs =>
    have tail := all gs (fun f hf => by simp [hf])
    cases g with
    | num c =>
      by_cases hc : c < 0
      · refine ⟨fun _ => ?_, by simp [negCoeff, hc]⟩
        have hk : Pieces F env (if c = -1 then ([], []) else numFactor pAddLvl (-c)) ((-c : Rat) : ℝ) := by
          split
          · rename_i h; rw [h]; simpa using pieces_nil
          · exact numFactor_ok _ la
        have := quotient_ok (hk.append (tail pAddLvl la lam))
        refine ⟨_, by simp only [mulToks, hc, if_true]; rfl, ?_⟩
        have e : -(DE.vals F V P (.num c :: gs)).prod = ((-c : Rat) : ℝ) * (DE.vals F V P gs).prod := by
          simp [DE.vals, DE.val]
        rw [e]; exact this.1
      · refine ⟨by simp [negCoeff, hc], fun _ => ?_⟩
        have := quotient_ok ((numFactor_ok c lam).append (tail pMulLvl lam lm))
        simp only [mulToks, hc, if_false]
        simpa [DE.vals, DE.val] using this
    | flt c =>
      by_cases hc : c < 0
      · refine ⟨fun _ => ?_, by simp [negCoeff, hc]⟩
        have hk : Pieces F env ([[.num (-c)]], []) ((-c : Rat) : ℝ) :=
          pieces_top (atom_num _).unit.chain ⟨_, _, rfl, by simp⟩
        have := quotient_ok (hk.append (tail pAddLvl la lam))
        refine ⟨_, by simp only [mulToks, hc, if_true]; rfl, ?_⟩
        have e : -(DE.vals F V P (.flt c :: gs)).prod = ((-c : Rat) : ℝ) * (DE.vals F V P gs).prod := by
          simp [DE.vals, DE.val]
        rw [e]; simpa using this.1
      · refine ⟨by simp [negCoeff, hc], fun _ => ?_⟩
        have hk : Pieces F env ([[.num c]], []) (c : ℝ) :=
          pieces_top (atom_num _).unit.chain ⟨_, _, rfl, by simp⟩
        have := quotient_ok (hk.append (tail pMulLvl lam lm))
        simp only [mulToks, hc, if_false]
        simpa [DE.vals, DE.val] using this
    | _ =>
      refine ⟨by simp [negCoeff], fun _ => ?_⟩
      have := quotient_ok ((hf pMulLvl lam lm _ (List.mem_cons_self ..)).append (tail pMulLvl lam lm))
      simpa [mulToks, DE.vals] using this

theorem good_mul (V : TSym → ℝ) (P : Str → ℝ) {fs : List DE}
    (hf : ∀ lvl, pAddLvl ≤ lvl → lvl ≤ pMulLvl → ∀ f ∈ fs, Pieces F env (factor lvl f) (f.val F V P)) :
    Good F env (.mul fs) (DE.val F V P (.mul fs)) := by
  have h := mul_ok V P hf
  have hp : precOf (.mul fs) ≤ pMulLvl := by simp only [precOf]; split <;> decide
  refine ⟨?_, fun hn => by simpa [toks, DE.val] using h.1 hn, fun hn _ => by simpa [toks, DE.val] using h.2 hn,
    fun _ hq => by omega, fun hq => ?_⟩
  · cases hn : negCoeff fs with
    | true =>
      obtain ⟨ts, ht, hc⟩ := h.1 hn
      have := hc.negFull
      simpa [toks, ht, DE.val] using this
    | false => simpa [toks, DE.val] using (h.2 hn).1.full
  · exfalso
    have : pMulLvl < pPowLvl := by decide
    omega

end

section
variable (F : Funs) (V : TSym → ℝ) (P : Str → ℝ) (env : Str → Int → ℝ)

def AgreesL (es : List DE) : Prop := ∀ x ∈ DE.symsL es, env (dynName x).1 (dynName x).2 = Sum.elim V P x

mutual
theorem good : ∀ (e : DE), e.Canon → e.RealPowers F V P → Agrees V P env e → Good F env e (e.val F V P)
  | .num v, _, _, _ => by simpa [DE.val] using good_num v
  | .flt v, _, _, _ => by simpa [DE.val] using good_flt v
  | .par n, _, _, ha => by
    have := ha (.inr n) (by simp [DE.syms])
    simp only [dynName, Sum.elim_inr] at this
    simpa [DE.val, ← this] using good_par n
  | .tv s, _, _, ha => by
    have := ha (.inl s) (by simp [DE.syms])
    simp only [Sum.elim_inl] at this
    simpa [DE.val, ← this] using good_tv s
  | .add ts, hc, hr, ha => by
    simp only [DE.Canon] at hc
    exact good_add V P (goodL ts hc.2 (by simpa [DE.RealPowers] using hr) (by simpa [Agrees, DE.syms, AgreesL] using ha)) hc.1
  | .mul fs, hc, hr, ha => by
    simp only [DE.Canon] at hc
    exact good_mul V P (facL fs hc.1 hc.2 (by simpa [DE.RealPowers] using hr) (by simpa [Agrees, DE.syms, AgreesL] using ha))
  | .pow b e, hc, hr, ha => by
    simp only [DE.Canon] at hc
    simp only [DE.RealPowers] at hr
    have gb := good b hc.1 hr.1 (fun x hx => ha x (by simp [DE.syms, hx]))
    have ge := good e hc.2 hr.2.1 (fun x hx => ha x (by simp [DE.syms, hx]))
    have := good_pow gb ge (by
      intro r h
      cases e <;> simp [litOf] at h <;> subst h <;> simp [DE.val]) hr.2.2
    simpa [DE.val] using this
  | .fn f as, hc, hr, ha => by
    simp only [DE.Canon] at hc
    exact good_fn V P f (goodL as hc.2 (by simpa [DE.RealPowers] using hr) (by simpa [Agrees, DE.syms, AgreesL] using ha)) hc.1
  termination_by e => (sizeOf e, 0)
theorem goodL : ∀ (es : List DE), DE.CanonL es → DE.RealPowersL F V P es → AgreesL V P env es →
    ∀ e ∈ es, Good F env e (e.val F V P)
  | [], _, _, _ => by simp
  | e :: es, hc, hr, ha => by
    simp only [DE.CanonL] at hc
    simp only [DE.RealPowersL] at hr
    intro x hx
    rcases List.mem_cons.1 hx with h | hx
    · rw [h]
      exact good e hc.1 hr.1 (fun y hy => ha y (by simp [DE.symsL, hy]))
    · exact goodL es hc.2 hr.2 (fun y hy => ha y (by simp [DE.symsL, hy])) x hx
  termination_by es => (sizeOf es, 0)
theorem fac : ∀ (e : DE), e.Canon → (∀ b, e = .pow b (.num (-1)) → quotLike b = false) → e.RealPowers F V P →
    Agrees V P env e → ∀ lvl, pAddLvl ≤ lvl → lvl ≤ pMulLvl → Pieces F env (factor lvl e) (e.val F V P)
  | .num v, _, _, _, _, lvl, h1, _ => by simpa [factor, DE.val] using numFactor_ok v h1
  | .pow b (.num r), hc, hq, hr, ha, lvl, h1, h2 => by
    simp only [DE.Canon] at hc
    simp only [DE.RealPowers] at hr
    have gb := good b hc.1 hr.1 (fun x hx => ha x (by simp [DE.syms, hx]))
    have := factor_pow (r := r) gb h1 h2 (fun h => hq b (by rw [h])) (hr.2.2 r rfl)
    simpa [DE.val] using this
  | .pow b (.flt w), hc, _, hr, ha, lvl, h1, h2 => factor_other (good _ hc hr ha) h1 (lt_of_le_of_lt h2 (by decide)) (by simp) (by simp)
  | .pow b (.par w), hc, _, hr, ha, lvl, h1, h2 => factor_other (good _ hc hr ha) h1 (lt_of_le_of_lt h2 (by decide)) (by simp) (by simp)
  | .pow b (.tv w), hc, _, hr, ha, lvl, h1, h2 => factor_other (good _ hc hr ha) h1 (lt_of_le_of_lt h2 (by decide)) (by simp) (by simp)
  | .pow b (.add w), hc, _, hr, ha, lvl, h1, h2 => factor_other (good _ hc hr ha) h1 (lt_of_le_of_lt h2 (by decide)) (by simp) (by simp)
  | .pow b (.mul w), hc, _, hr, ha, lvl, h1, h2 => factor_other (good _ hc hr ha) h1 (lt_of_le_of_lt h2 (by decide)) (by simp) (by simp)
  | .pow b (.pow w w'), hc, _, hr, ha, lvl, h1, h2 => factor_other (good _ hc hr ha) h1 (lt_of_le_of_lt h2 (by decide)) (by simp) (by simp)
  | .pow b (.fn w w'), hc, _, hr, ha, lvl, h1, h2 => factor_other (good _ hc hr ha) h1 (lt_of_le_of_lt h2 (by decide)) (by simp) (by simp)
  | .flt w, hc, _, hr, ha, lvl, h1, h2 => factor_other (good _ hc hr ha) h1 (lt_of_le_of_lt h2 (by decide)) (by simp) (by simp)
  | .par w, hc, _, hr, ha, lvl, h1, h2 => factor_other (good _ hc hr ha) h1 (lt_of_le_of_lt h2 (by decide)) (by simp) (by simp)
  | .tv w, hc, _, hr, ha, lvl, h1, h2 => factor_other (good _ hc hr ha) h1 (lt_of_le_of_lt h2 (by decide)) (by simp) (by simp)
  | .add w, hc, _, hr, ha, lvl, h1, h2 => factor_other (good _ hc hr ha) h1 (lt_of_le_of_lt h2 (by decide)) (by simp) (by simp)
  | .mul w, hc, _, hr, ha, lvl, h1, h2 => factor_other (good _ hc hr ha) h1 (lt_of_le_of_lt h2 (by decide)) (by simp) (by simp)
  | .fn w w', hc, _, hr, ha, lvl, h1, h2 => factor_other (good _ hc hr ha) h1 (lt_of_le_of_lt h2 (by decide)) (by simp) (by simp)
  termination_by e => (sizeOf e, 1)
theorem facL : ∀ (es : List DE), DE.CanonL es → (∀ b, DE.pow b (.num (-1)) ∈ es → quotLike b = false) →
    DE.RealPowersL F V P es → AgreesL V P env es →
    ∀ lvl, pAddLvl ≤ lvl → lvl ≤ pMulLvl → ∀ e ∈ es, Pieces F env (factor lvl e) (e.val F V P)
  | [], _, _, _, _ => by simp
  | e :: es, hc, hq, hr, ha => by
    simp only [DE.CanonL] at hc
    simp only [DE.RealPowersL] at hr
    intro lvl h1 h2 x hx
    rcases List.mem_cons.1 hx with h | hx
    · rw [h]
      exact fac e hc.1 (fun b hb => hq b (by simp [hb])) hr.1 (fun y hy => ha y (by simp [DE.symsL, hy])) lvl h1 h2
    · exact facL es hc.2 (fun b hb => hq b (by simp [hb])) hr.2 (fun y hy => ha y (by simp [DE.symsL, hy])) lvl h1 h2 x hx
  termination_by es => (sizeOf es, 0)
end
end

end GE.Dyn

namespace GE
open Dyn

/-- **C101** (meaning): whatever canonical expression is exported, Dynare can read the text, reads it in one way only, and
the value Dynare gives it is the value the expression has in gEconpy, whenever Dynare's names have the values the symbols
have (`x`, `x(+1)`, `x(-1)` the dates of `x`, `x_ss` its steady state). -/
theorem C101_meaning (F : Funs) (V : TSym → ℝ) (P : Str → ℝ) (env : Str → Int → ℝ) (e : DE) (hc : e.Canon)
    (hr : e.RealPowers F V P) (ha : Agrees V P env e) :
    (∃ a, ReadsAs (toks e) a) ∧ ∀ a, ReadsAs (toks e) a → a.val F env = e.val F V P := by
  obtain ⟨a, hv, hread⟩ := (good F V P env e hc hr ha).full
  have h0 : ReadsAs (toks e) a := by
    have := hread [] (by simp [ok1, ok2, ok3, ok4])
    simpa [RAdd, ReadsAs] using this
  exact ⟨⟨a, h0⟩, fun a' h' => by rw [reads_unique h' h0]; exact hv⟩

end GE
