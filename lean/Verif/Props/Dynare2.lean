import Verif.Props.Dynare
import Mathlib.Tactic.Linarith
/-! # C101: an expression exported to Dynare means the same there (the printer) -/

namespace GE.Dyn

/-- starts with something other than a minus sign -/
def NS (t : List DTok) : Prop := ∃ x xs, t = x :: xs ∧ x ≠ .op .sub

theorem NS.append {t} (h : NS t) (u) : NS (t ++ u) := by
  obtain ⟨x, xs, rfl, hx⟩ := h; exact ⟨x, xs ++ u, rfl, hx⟩
theorem ns_inPar (t) : NS (inPar t) := ⟨_, _, rfl, by simp⟩

def isNeg : DE → Bool
  | .num v => v < 0
  | .flt v => v < 0
  | .mul fs => negCoeff fs
  | _ => false

theorem prec_pos {e} (h : pAddLvl < precOf e) : isNeg e = false ∧ isSum e = false := by
  cases e <;> simp [precOf, isNeg, isSum, pAddLvl, pMulLvl, pAtomLvl] at h ⊢
  · split at h <;> simp_all
  · split at h <;> simp_all
  · split at h <;> simp_all

section
variable {F : Funs} {env : Str → Int → ℝ}

structure Good (F : Funs) (env : Str → Int → ℝ) (e : DE) (v : ℝ) : Prop where
  full : FullT F env (toks e) v
  neg : isNeg e = true → ∃ ts, toks e = .op .sub :: ts ∧ ChainT F env ts (-v)
  pos : isNeg e = false → isSum e = false → ChainT F env (toks e) v ∧ NS (toks e)
  unit : quotLike e = false → pMulLvl < precOf e → UnitT F env (toks e) v
  atom : pPowLvl < precOf e → AtomT F env (toks e) v

theorem Good.parenChain {e v} (g : Good F env e v) {lvl} (hl : pAddLvl ≤ lvl) :
    ChainT F env (paren lvl (precOf e) (toks e)) v ∧ NS (paren lvl (precOf e) (toks e)) := by
  unfold paren
  split
  · exact ⟨g.full.par.unit.chain, ns_inPar _⟩
  · have := prec_pos (e := e) (by omega)
    exact g.pos this.1 this.2

theorem Good.parenAtom {e v} (g : Good F env e v) :
    AtomT F env (paren pPowLvl (precOf e) (toks e)) v ∧ NS (paren pPowLvl (precOf e) (toks e)) := by
  unfold paren
  split
  · exact ⟨g.full.par, ns_inPar _⟩
  · have := prec_pos (e := e) (by simp [pAddLvl, pPowLvl] at *; omega)
    exact ⟨g.atom (by omega), (g.pos this.1 this.2).2⟩

theorem good_of_atom {e v} (h : AtomT F env (toks e) v) (hn : isNeg e = false) (ns : NS (toks e)) : Good F env e v :=
  ⟨h.unit.chain.full, by simp [hn], fun _ _ => ⟨h.unit.chain, ns⟩, fun _ _ => h.unit, fun _ => h⟩

/-! numbers -/

theorem numBody (v : Rat) :
    ChainT F env (if v.den = 1 then [.num v.num.natAbs] else [.num v.num.natAbs, .op .div, .num v.den]) (|v| : Rat) := by
  have hv : ((|v| : Rat) : ℝ) = ((v.num.natAbs : Rat) : ℝ) / ((v.den : Rat) : ℝ) := by
    rw [← Rat.cast_div]
    congr 1
    rw [Nat.cast_natAbs, Int.cast_abs]
    conv_lhs => rw [← Rat.num_div_den v]
    rw [abs_div]
    simp
  split
  · rename_i h
    have := (atom_num (F := F) (env := env) (v.num.natAbs : Rat)).unit.chain
    rw [hv, h]; simpa using this
  · rw [hv]
    exact (atom_num (F := F) (env := env) (v.num.natAbs : Rat)).unit.chain.div (atom_num (v.den : Rat)).unit

theorem good_num (v : Rat) : Good F env (.num v) v := by
  have hb := numBody (F := F) (env := env) v
  by_cases hneg : v < 0
  · have hab : ((|v| : Rat) : ℝ) = -(v : ℝ) := by rw [abs_of_neg hneg]; simp
    rw [hab] at hb
    have ht : toks (.num v) = .op .sub :: (if v.den = 1 then [.num v.num.natAbs] else [.num v.num.natAbs, .op .div, .num v.den]) := by
      simp [toks, numToks, hneg]
    refine ⟨?_, fun _ => ⟨_, ht, hb⟩, by simp [isNeg, hneg], ?_, ?_⟩
    · rw [ht]; simpa using hb.negFull
    · simp [precOf, hneg, pMulLvl, pAddLvl]
    · simp [precOf, hneg, pPowLvl, pAddLvl]
  · have hab : ((|v| : Rat) : ℝ) = (v : ℝ) := by rw [abs_of_nonneg (not_lt.1 hneg)]
    rw [hab] at hb
    have ht : toks (.num v) = (if v.den = 1 then [.num v.num.natAbs] else [.num v.num.natAbs, .op .div, .num v.den]) := by
      simp [toks, numToks, hneg]
    have hat : v.den = 1 → AtomT F env (toks (.num v)) v := by
      intro h1
      have := atom_num (F := F) (env := env) (v.num.natAbs : Rat)
      have e : ((v.num.natAbs : Rat) : ℝ) = v := by
        rw [← hab]; congr 1
        rw [Nat.cast_natAbs, Int.cast_abs]
        conv_rhs => rw [← Rat.num_div_den v]
        rw [h1]; simp
      rw [e] at this
      rw [ht, if_pos h1]; exact this
    refine ⟨by rw [ht]; exact hb.full, by simp [isNeg, hneg], fun _ _ => ⟨by rw [ht]; exact hb, ?_⟩, ?_, ?_⟩
    · rw [ht]; split <;> exact ⟨_, _, rfl, by simp⟩
    · intro hq _
      exact (hat (by simpa [quotLike] using hq)).unit
    · intro hp
      refine hat ?_
      by_contra hd
      simp [precOf, hneg, hd, pMulLvl, pPowLvl] at hp

theorem good_flt (v : Rat) : Good F env (.flt v) v := by
  by_cases hneg : v < 0
  · have ht : toks (.flt v) = .op .sub :: [.num (-v)] := by simp [toks, fltToks, hneg]
    have hb := (atom_num (F := F) (env := env) (-v)).unit.chain
    have hab : (((-v : Rat)) : ℝ) = -(v : ℝ) := by simp
    rw [hab] at hb
    refine ⟨?_, fun _ => ⟨_, ht, hb⟩, by simp [isNeg, hneg], ?_, ?_⟩
    · rw [ht]; simpa using hb.negFull
    · simp [precOf, hneg, pMulLvl, pAddLvl]
    · simp [precOf, hneg, pPowLvl, pAddLvl]
  · have ht : toks (.flt v) = [.num v] := by simp [toks, fltToks, hneg]
    exact good_of_atom (by rw [ht]; exact atom_num v) (by simp [isNeg, hneg]) (by rw [ht]; exact ⟨_, _, rfl, by simp⟩)

theorem good_tv (s : TSym) : Good F env (.tv s) (env (dynName (.inl s)).1 (dynName (.inl s)).2) := by
  obtain ⟨b, ix, as⟩ := s
  have : AtomT F env (toks (.tv ⟨b, ix, as⟩)) (env (dynName (.inl ⟨b, ix, as⟩)).1 (dynName (.inl ⟨b, ix, as⟩)).2) ∧
      NS (toks (.tv ⟨b, ix, as⟩)) := by
    cases ix with
    | ss => exact ⟨by simpa [toks, tsymToks, dynName, ssSuffix] using atom_name _, ⟨_, _, rfl, by simp⟩⟩
    | t k =>
      simp only [toks, tsymToks, dynName]
      split
      · rename_i h; subst h; exact ⟨atom_name _, ⟨_, _, rfl, by simp⟩⟩
      · split
        · refine ⟨⟨.ref b k, by simp [DA.val], fun rest _ => ?_⟩, ⟨_, _, rfl, by simp⟩⟩
          exact r_lead b k rest
        · refine ⟨⟨.ref b k, by simp [DA.val], fun rest _ => ?_⟩, ⟨_, _, rfl, by simp⟩⟩
          have := r_lag b (-k) rest
          simpa using this
  exact good_of_atom this.1 rfl this.2

theorem good_par (n : Str) : Good F env (.par n) (env n 0) :=
  good_of_atom (by simpa [toks] using atom_name n) rfl (by simp only [toks]; exact ⟨_, _, rfl, by simp⟩)

/-! powers -/

theorem pow_ok {b : DE} {vb ve : ℝ} (gb : Good F env b vb) {lit : Option Rat} {pe : Nat} {et : List DTok}
    (he : AtomT F env (paren pPowLvl pe et) ve) (hlit : ∀ r, lit = some r → ve = r)
    (hreal : ∀ r, lit = some r → r < 0 → r.den ≠ 1 → 0 ≤ vb) :
    ChainT F env (powToks (precOf b) (toks b) lit pe et) (vb ^ ve) ∧ NS (powToks (precOf b) (toks b) lit pe et) ∧
    (lit ≠ some (-1) → lit ≠ some (-1/2) → UnitT F env (powToks (precOf b) (toks b) lit pe et) (vb ^ ve)) := by
  unfold powToks
  have hsq : AtomT F env (.fn "sqrt".toList :: inPar (toks b)) (Real.sqrt vb) := by
    have := atom_call1 (f := "sqrt".toList) gb.full
    rwa [F.sqrt] at this
  split
  · rename_i h
    have hv : ve = (1/2 : ℝ) := by rw [hlit _ h]; norm_num
    have e : vb ^ ve = Real.sqrt vb := by rw [hv, Real.sqrt_eq_rpow]
    rw [e]
    exact ⟨hsq.unit.chain, ⟨_, _, rfl, by simp⟩, fun _ _ => hsq.unit⟩
  · split
    · rename_i h
      have hv : ve = -(1/2 : ℝ) := by rw [hlit _ h]; norm_num
      have e : vb ^ ve = ((1 : Rat) : ℝ) / Real.sqrt vb := by
        rw [hv, Real.rpow_neg (hreal _ h (by norm_num) (by decide +kernel)), Real.sqrt_eq_rpow]; simp
      rw [e]
      exact ⟨(atom_num 1).unit.chain.div hsq.unit, ⟨_, _, rfl, by simp⟩, fun _ h2 => absurd h h2⟩
    · split
      · rename_i h
        have hv : ve = -1 := by rw [hlit _ h]; norm_num
        have e : vb ^ ve = ((1 : Rat) : ℝ) / vb := by rw [hv, Real.rpow_neg_one]; simp
        rw [e]
        exact ⟨(atom_num 1).unit.chain.div gb.parenAtom.1.unit, ⟨_, _, rfl, by simp⟩, fun h1 => absurd h h1⟩
      · have hu : UnitT F env (paren pPowLvl (precOf b) (toks b) ++ .op .pow :: paren pPowLvl pe et) (vb ^ ve) := by
          obtain ⟨x, hx, hxr⟩ := gb.parenAtom.1
          obtain ⟨y, hy, hyr⟩ := he
          refine ⟨.bin .pow x y, by simp [DA.val, hx, hy], fun rest ho => ?_⟩
          have := r_pow (hxr (.op .pow :: (paren pPowLvl pe et ++ rest)) (by simp [ok4])) (hyr rest (ok34 ho)) ho
          exact r_unary (by simpa using this)
        exact ⟨hu.chain, gb.parenAtom.2.append _, fun _ _ => hu⟩

theorem rpow_recip {x : ℝ} {r : Rat} (h : r.den ≠ 1 → 0 ≤ x) : x ^ (r : ℝ) = (x ^ ((-r : Rat) : ℝ))⁻¹ := by
  by_cases hd : r.den = 1
  · have hr : (r : ℝ) = ((r.num : Int) : ℝ) := by
      have : (r : Rat) = (r.num : Rat) := by conv_lhs => rw [← Rat.num_div_den r]; simp [hd]
      rw [this]; simp
    rw [Rat.cast_neg, hr, ← Int.cast_neg, Real.rpow_intCast, Real.rpow_intCast, zpow_neg, inv_inv]
  · rw [Rat.cast_neg, Real.rpow_neg (h hd), inv_inv]

/-! products -/

/-- numerators and denominators that make up `v` -/
def Pieces (F : Funs) (env : Str → Int → ℝ) (ab : List (List DTok) × List (List DTok)) (v : ℝ) : Prop :=
  ∃ vs ws : List ℝ, List.Forall₂ (fun t x => ChainT F env t x ∧ NS t) ab.1 vs ∧ List.Forall₂ (UnitT F env) ab.2 ws ∧
    vs.prod / ws.prod = v

theorem Pieces.append {p q v w} (h : Pieces F env p v) (h' : Pieces F env q w) :
    Pieces F env (p.1 ++ q.1, p.2 ++ q.2) (v * w) := by
  obtain ⟨vs, ws, h1, h2, rfl⟩ := h
  obtain ⟨vs', ws', h1', h2', rfl⟩ := h'
  refine ⟨vs ++ vs', ws ++ ws', List.rel_append h1 h1', List.rel_append h2 h2', ?_⟩
  rw [List.prod_append, List.prod_append, mul_div_mul_comm]

theorem pieces_nil : Pieces F env ([], []) 1 := ⟨[], [], .nil, .nil, by simp⟩
theorem pieces_top {t v} (h : ChainT F env t v) (n : NS t) : Pieces F env ([t], []) v :=
  ⟨[v], [], .cons ⟨h, n⟩ .nil, .nil, by simp⟩
theorem pieces_bot {t v} (h : UnitT F env t v) : Pieces F env ([], [t]) v⁻¹ :=
  ⟨[], [v], .nil, .cons h .nil, by simp⟩

theorem multjoin_ok : ∀ {a : List (List DTok)} {vs : List ℝ},
    List.Forall₂ (fun t x => ChainT F env t x ∧ NS t) a vs → a ≠ [] → ChainT F env (multjoin a) vs.prod ∧ NS (multjoin a)
  | _, _, .nil, h => absurd rfl h
  | _, _, .cons (a := t) (b := x) hx .nil, _ => by simpa [multjoin] using hx
  | _, _, .cons (a := t) (b := x) hx (.cons (a := t') (b := x') (l₁ := ts) (l₂ := xs) hx' hs), _ => by
    have ih := multjoin_ok (.cons hx' hs) (by simp)
    refine ⟨?_, ?_⟩
    · have := hx.1.mul ih.1
      simpa [multjoin] using this
    · simp only [multjoin]; exact hx.2.append _

theorem multjoin_unit : ∀ {a : List (List DTok)} {vs : List ℝ},
    List.Forall₂ (UnitT F env) a vs → a ≠ [] → ChainT F env (multjoin a) vs.prod
  | _, _, .nil, h => absurd rfl h
  | _, _, .cons (a := t) (b := x) hx .nil, _ => by simpa [multjoin] using hx.chain
  | _, _, .cons (a := t) (b := x) hx (.cons (a := t') (b := x') (l₁ := ts) (l₂ := xs) hx' hs), _ => by
    have ih := multjoin_unit (.cons hx' hs) (by simp)
    have := hx.chain.mul ih
    simpa [multjoin] using this

theorem quotient_ok {p v} (h : Pieces F env p v) : ChainT F env (quotient p.1 p.2) v ∧ NS (quotient p.1 p.2) := by
  obtain ⟨vs, ws, h1, h2, rfl⟩ := h
  have top : ChainT F env (multjoin (if p.1 = [] then [[.num 1]] else p.1)) vs.prod ∧
      NS (multjoin (if p.1 = [] then [[.num 1]] else p.1)) := by
    split
    · rename_i h0
      rw [h0] at h1; cases h1
      have := (atom_num (F := F) (env := env) 1).unit.chain
      exact ⟨by simpa [multjoin] using this, ⟨_, _, rfl, by simp⟩⟩
    · rename_i h0; exact multjoin_ok h1 h0
  obtain ⟨a, b⟩ := p
  simp only at h1 h2 top ⊢
  unfold quotient
  cases h2 with
  | nil => simpa using top
  | cons hx hs =>
    cases hs with
    | nil => exact ⟨by simpa using top.1.div hx, top.2.append _⟩
    | cons hx' hs' =>
      have hc := multjoin_unit (F := F) (env := env) (.cons hx (.cons hx' hs')) (by simp)
      exact ⟨top.1.div hc.full.par.unit, top.2.append _⟩

theorem numFactor_ok (v : Rat) {lvl} (hl : pAddLvl ≤ lvl) : Pieces F env (numFactor lvl v) v := by
  have hv : (v : ℝ) = ((v.num : Rat) : ℝ) * ((v.den : Rat) : ℝ)⁻¹ := by
    rw [← div_eq_mul_inv, ← Rat.cast_div]; congr 1; exact (Rat.num_div_den v).symm
  have h1 : Pieces F env ((if v.num = 1 then [] else [paren lvl (precOf (.num v.num)) (numToks v.num)]), []) ((v.num : Rat) : ℝ) := by
    split
    · rename_i h; rw [h]; simpa using pieces_nil
    · have := (good_num (F := F) (env := env) (v.num : Rat)).parenChain hl
      simp only [toks] at this
      exact pieces_top this.1 this.2
  have h2 : Pieces F env (([] : List (List DTok)), (if v.den = 1 then [] else [[.num v.den]])) ((v.den : Rat) : ℝ)⁻¹ := by
    split
    · rename_i h; rw [h]; simpa using pieces_nil
    · exact pieces_bot (atom_num _).unit
  rw [hv]
  have := h1.append h2
  simpa [numFactor] using this

/-- all factors that are neither exact numbers nor exact powers go to the numerator -/
theorem factor_other {e : DE} {v : ℝ} (g : Good F env e v) {lvl} (hl : pAddLvl ≤ lvl) (hl' : lvl < pPowLvl)
    (h1 : ∀ x, e ≠ .num x) (h2 : ∀ b x, e ≠ .pow b (.num x)) : Pieces F env (factor lvl e) v := by
  have key : factor lvl e = ([paren lvl (precOf e) (toks e)], []) := by
    simp only [pAddLvl, pPowLvl] at hl hl'
    have h60 : ¬ 60 ≤ lvl := by omega
    have h70 : ¬ 70 ≤ lvl := by omega
    have h1000 : ¬ 1000 ≤ lvl := by omega
    unfold factor
    split
    · exact absurd rfl (h1 _)
    · exact absurd rfl (h2 _ _)
    · simp only [toks, paren]
      rw [show precOf (DE.pow _ _) = 60 from rfl, if_neg h60]
    all_goals simp [toks, paren, precOf, pAtomLvl, pFuncLvl, pAddLvl, pMulLvl, h60, h70, h1000, hl]
  rw [key]
  have := g.parenChain hl
  exact pieces_top this.1 this.2

theorem factor_pow {b : DE} {vb : ℝ} {r : Rat} (gb : Good F env b vb) {lvl} (hl : pAddLvl ≤ lvl) (hl' : lvl ≤ pMulLvl)
    (hq : r = -1 → quotLike b = false) (hreal : r < 0 → r.den ≠ 1 → 0 ≤ vb) :
    Pieces F env (factor lvl (.pow b (.num r))) (vb ^ (r : ℝ)) := by
  simp only [factor]
  split
  · rename_i hneg
    split
    · rename_i h1
      have e : vb ^ (r : ℝ) = vb⁻¹ := by rw [h1]; simpa using Real.rpow_neg_one vb
      rw [e]
      refine pieces_bot ?_
      have hc := gb.parenChain hl
      split
      · exact hc.1.full.par.unit
      · rename_i hm
        unfold paren
        split
        · exact gb.full.par.unit
        · rename_i hp
          refine gb.unit (hq h1) ?_
          have hq := hq h1
          clear gb hc
          cases b with
          | num v => by_cases hv : v < 0 <;>
              simp_all [precOf, pAddLvl, pMulLvl, pPowLvl, pFuncLvl, pAtomLvl, quotLike, isLongMul] <;> first | omega | (rw [if_neg (not_lt.2 hv)]; omega)
          | flt v => by_cases hv : v < 0 <;>
              simp_all [precOf, pAddLvl, pMulLvl, pPowLvl, pFuncLvl, pAtomLvl, quotLike, isLongMul] <;> first | omega | (rw [if_neg (not_lt.2 hv)]; omega)
          | _ => simp_all [precOf, pAddLvl, pMulLvl, pPowLvl, pFuncLvl, pAtomLvl, quotLike, isLongMul] <;> omega
    · rename_i h1
      have he := (good_num (F := F) (env := env) (-r)).parenAtom.1
      simp only [toks] at he
      have := pow_ok gb (lit := some (-r)) he (by simp) (by simp; intro h; linarith)
      have hu := this.2.2 (by simp; intro h; linarith) (by simp; intro h; linarith)
      rw [rpow_recip (hreal hneg)]
      exact pieces_bot hu
  · rename_i hneg
    have he := (good_num (F := F) (env := env) r).parenAtom.1
    simp only [toks] at he
    have := pow_ok gb (lit := some r) he (by simp) (by simp; intro h; exact absurd h hneg)
    exact pieces_top this.1 this.2.1

end
end GE.Dyn
