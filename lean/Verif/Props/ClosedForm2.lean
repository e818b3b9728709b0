import Verif.Props.ClosedForm
/-! # C24, C25: block level, counterexamples and non-vacuity -/

namespace GE

open Clf DTT

namespace Clf

theorem dispatch_ces {R : Rewriter} {B : Block} {k con m} (hc : B.constraints = some [(k, con)])
    (hk : dispatchKind R B = .ces m) : matchCES R (some [(k, con)]) = some m := by
  unfold dispatchKind at hk
  split at hk
  · cases hk
  · split at hk
    · rename_i m' hm'
      cases hk
      rwa [hc] at hm'
    · split at hk <;> cases hk

theorem dispatch_cd {R : Rewriter} {B : Block} {k con m} (hc : B.constraints = some [(k, con)])
    (hk : dispatchKind R B = .cobbDouglas m) : matchCD R (some [(k, con)]) = some m := by
  unfold dispatchKind at hk
  split at hk
  · cases hk
  · split at hk
    · cases hk
    · split at hk
      · rename_i m' hm'
        cases hk
        rwa [hc] at hm'
      · cases hk

theorem cd_idx {R : Rewriter} {k con m} (h : matchCD R (some [(k, con)]) = some m) : m.idx = k := by
  unfold matchCD at h
  simp only at h
  cases h1 : matchCDResidual R k (con.rhs.sub con.lhs) with
  | some m' => rw [h1] at h; cases h; exact (cd_spec h1).1
  | none => rw [h1] at h; exact (cd_spec (h : matchCDResidual R k (con.lhs.sub con.rhs) = some m)).1

theorem ces_idx {R : Rewriter} {k con m} (h : matchCES R (some [(k, con)]) = some m) : m.idx = k := by
  unfold matchCES at h
  simp only at h
  cases h1 : matchCESResidual R k (con.rhs.sub con.lhs) with
  | some m' => rw [h1] at h; cases h; exact (ces_spec h1).1
  | none => rw [h1] at h; exact (ces_spec (h : matchCESResidual R k (con.lhs.sub con.rhs) = some m)).1

end Clf

/-- **C25** (partial) the closed-form condition of a recognised CES block has the value of the derivative of the Lagrangian wherever
the constraint holds and the input, productivity and the bracket are positive: for any number of inputs, any shares and any
elasticity. Missing (and false): output written on the right-hand side (`C25_flipped_violated`), blocks with definitions, inputs
which also occur at another date, in a share or in the exponent. -/
theorem C25_closed_form_partial (R : Rewriter) (B : Block) (k : Nat) (con : SEq) (L : SExpr) (ms) (mu : TSym) (df : SExpr) (m : CESMatch)
    (c : TSym) (share : SExpr)
    (hB : OneConstraint B k con L ms mu) (hk : dispatchKind R B = .ces m)
    (hor : (matchCESResidual R k (con.rhs.sub con.lhs)).isSome)
    (hin : dget m.inputs (.tv c) = some share)
    (hR : ∀ s ∈ (R.auto (con.rhs.sub con.lhs)).syms, s ∈ con.syms) (hs : SimpleInput con m.inputs mu c)
    (hsf : Sym.tv c ∉ m.s.syms)
    (hss : ∀ s ∈ L.tsyms, s.idx ≠ .ss) (hdf : df.tsyms = []) :
    ∃ g h, B.computeFoc .generic ms L df c = .ok g ∧ B.computeFoc (dispatchKind R B) ms L df c = .ok h ∧
      ∀ (P : RealPath) (t : Int), 0 < (Sym.tv c).value P t → 0 < tfp m.A P t → 0 < cesBracket (m.s.val P t) m.inputs P t →
        con.lhs.val P t = con.rhs.val P t → con.lhs.Smooth P t → con.rhs.Smooth P t →
        (∀ᶠ y in nhds ((Sym.tv c).value P t), R.FaithfulCES (con.rhs.sub con.lhs) (P.set t c y) t) →
        h.val P t = g.val P t := by
  have hm : matchCESResidual R k (con.rhs.sub con.lhs) = some m := by
    have hm' := dispatch_ces hB.constraint hk
    obtain ⟨m2, h2⟩ := Option.isSome_iff_exists.mp hor
    simp only [matchCES, h2] at hm'
    rw [h2]; exact hm'
  rw [hk]
  obtain ⟨g, h, h1, h2, h3⟩ := ces_both R B k con L ms mu df m c share (con.rhs.sub con.lhs) 1 (by norm_num)
    (by intro P t; simp) hB hm hin hR hs hsf hss hdf
  refine ⟨g, h, h1, h2, ?_⟩
  intro P t a1 a2 a3 a4 a5 a6 a7
  rw [h3 P t a1 a2 a3 a4 a5 a6 a7]; ring

/-- **C25** is violated when output is written on the right-hand side: the closed form then differs from the derivative of the
Lagrangian by twice the constraint's term. -/
theorem C25_flipped_violated (R : Rewriter) (B : Block) (k : Nat) (con : SEq) (L : SExpr) (ms) (mu : TSym) (df : SExpr) (m : CESMatch)
    (c : TSym) (share : SExpr)
    (hB : OneConstraint B k con L ms mu) (hk : dispatchKind R B = .ces m)
    (hor : matchCESResidual R k (con.rhs.sub con.lhs) = none)
    (hin : dget m.inputs (.tv c) = some share)
    (hR : ∀ s ∈ (R.auto (con.lhs.sub con.rhs)).syms, s ∈ con.syms) (hs : SimpleInput con m.inputs mu c)
    (hsf : Sym.tv c ∉ m.s.syms)
    (hss : ∀ s ∈ L.tsyms, s.idx ≠ .ss) (hdf : df.tsyms = []) :
    ∃ g h, B.computeFoc .generic ms L df c = .ok g ∧ B.computeFoc (dispatchKind R B) ms L df c = .ok h ∧
      ∀ (P : RealPath) (t : Int), 0 < (Sym.tv c).value P t → 0 < tfp m.A P t → 0 < cesBracket (m.s.val P t) m.inputs P t →
        con.lhs.val P t = con.rhs.val P t → con.lhs.Smooth P t → con.rhs.Smooth P t →
        (∀ᶠ y in nhds ((Sym.tv c).value P t), R.FaithfulCES (con.lhs.sub con.rhs) (P.set t c y) t) →
        h.val P t = g.val P t + 2 * ((Sym.tv mu).value P t *
          (share.val P t * tfp m.A P t ^ m.s.val P t * (m.Y.value P t / (Sym.tv c).value P t) ^ (1 - m.s.val P t))) := by
  have hm : matchCESResidual R k (con.lhs.sub con.rhs) = some m := by
    have hm' := dispatch_ces hB.constraint hk
    simp only [matchCES, hor] at hm'
    exact hm'
  rw [hk]
  obtain ⟨g, h, h1, h2, h3⟩ := ces_both R B k con L ms mu df m c share (con.lhs.sub con.rhs) (-1) (by norm_num)
    (by intro P t; simp) hB hm hin hR hs hsf hss hdf
  refine ⟨g, h, h1, h2, ?_⟩
  intro P t a1 a2 a3 a4 a5 a6 a7
  rw [h3 P t a1 a2 a3 a4 a5 a6 a7]; ring

namespace Clf

theorem mapM_err {α β ε : Type} (f : α → Except ε β) (l : List α) (e : ε) (c : α) (cs : List α) (hl : l = c :: cs) (hc : f c = .error e) :
    l.mapM f = .error e := by
  subst hl
  rw [List.mapM_cons, hc]
  rfl

end Clf

/-- **C24/C25** a recognised block with one definition whose constraint has no user-named multiplier cannot be solved at all: the
general block solves it, the recognised one raises RuntimeError ("no multiplier for the production constraint"). -/
theorem C24_unrecorded_raises (R : Rewriter) (B : Block) (d obj con : SEq) (f : Flags) (r : Solved) (c : TSym) (cs : List TSym)
    (hdef : B.definitions = some [(0, d)]) (hobj : B.objective = some [(1, obj)]) (hctl : B.controls = some (c :: cs))
    (hf : dget B.flags 1 = some f) (hcs : B.constraints = some [(2, con)])
    (hms : B.multipliers = [(0, none), (1, none), (2, none)])
    (hk : dispatchKind R B ≠ .generic)
    (h : B.solve = .ok r) :
    B.solveKind (dispatchKind R B) = .error .runtimeError := by
  obtain ⟨-, h2, -⟩ := C22_record_misplaced B d obj con f r (c :: cs) hdef hobj hctl hf hcs hms h
  unfold Block.solve at h
  unfold Block.solveKind
  cases hp : B.plainEquations with
  | error e => rw [hp] at h; cases h
  | ok eqs =>
    rw [hp] at h
    simp only [hobj, hctl] at h ⊢
    cases hd : discountFactor obj with
    | error e => rw [hd] at h; cases h
    | ok df =>
      rw [hd] at h
      simp only at h ⊢
      cases hL : B.lagrangian with
      | error e => rw [hL] at h; cases h
      | ok Lm =>
        obtain ⟨L, ms⟩ := Lm
        rw [hL] at h
        simp only at h ⊢
        rw [hms] at h ⊢
        simp only [List.map_cons, List.map_nil, List.getElem?_cons_succ, List.getElem?_cons_zero] at h ⊢
        split at h
        · cases h
        · cases h
          simp only at h2
          have herr : B.computeFoc (dispatchKind R B) ms L df c = .error .runtimeError := by
            cases hkk : dispatchKind R B with
            | generic => exact absurd hkk hk
            | cobbDouglas m =>
              have hi := cd_idx (dispatch_cd hcs hkk)
              simp [Block.computeFoc, Block.closedFoc, closedMultiplier, hi, h2]
            | ces m =>
              have hi := ces_idx (dispatch_ces hcs hkk)
              simp [Block.computeFoc, Block.closedFoc, closedMultiplier, hi, h2]
          rw [mapM_err _ _ _ c cs rfl herr]

/-- **C24** a block of neither recognised form is solved exactly as before: dispatch does not change it. -/
theorem C24_generic_unchanged (B : Block) : (∀ r, B.solveKind .generic = .ok r ↔ B.solve = .ok r) := by
  intro r
  unfold Block.solveKind Block.solve
  cases B.plainEquations with
  | error e => simp
  | ok eqs =>
    cases B.objective with
    | none => cases B.controls <;> simp
    | some o =>
      cases B.controls with
      | none => cases o <;> simp
      | some cs =>
        cases o with
        | nil => simp
        | cons p rest =>
          obtain ⟨okey, obj⟩ := p
          simp only
          cases discountFactor obj with
          | error e => simp
          | ok df =>
            simp only
            cases B.lagrangian with
            | error e => simp
            | ok Lm =>
              obtain ⟨L, ms⟩ := Lm
              simp only
              cases (B.multipliers.map Prod.snd)[okey]? with
              | none => simp
              | some u =>
                cases u with
                | some _ => simp
                | none =>
                  simp only
                  have key : ∀ cs : List TSym, (∃ focs, cs.mapM (B.computeFoc .generic ms L df) = .ok focs ∧
                      cs.mapM (fun c => (match diffThroughTime L c (.expr df) with | .ok r => some r | .error _ => none)) = some focs) ∨
                      ((∃ e, cs.mapM (B.computeFoc .generic ms L df) = .error e) ∧
                      cs.mapM (fun c => (match diffThroughTime L c (.expr df) with | .ok r => some r | .error _ => none)) = none) := by
                    intro cs
                    induction cs with
                    | nil => left; exact ⟨[], rfl, rfl⟩
                    | cons c cs ih =>
                      rw [List.mapM_cons, List.mapM_cons]
                      cases hd : diffThroughTime L c (.expr df) with
                      | error e => right; simp [Block.computeFoc, dttB, hd]; exact ⟨_, rfl⟩
                      | ok g =>
                        rcases ih with ⟨focs, h1, h2⟩ | ⟨⟨e, h1⟩, h2⟩
                        · left
                          refine ⟨g :: focs, ?_, ?_⟩
                          · rw [h1]; simp [Block.computeFoc, dttB, hd]; rfl
                          · rw [h2]; rfl
                        · right
                          refine ⟨⟨e, ?_⟩, ?_⟩
                          · rw [h1]; simp [Block.computeFoc, dttB, hd]; rfl
                          · rw [h2]; rfl
                  generalize hq : List.mapM (m := Option) _ cs = q
                  rcases key cs with ⟨focs, h1, h2⟩ | ⟨⟨e, h1⟩, h2⟩
                  · have hqf : q = some focs := hq.symm.trans h2
                    rw [h1, hqf]
                  · have hqf : q = none := hq.symm.trans h2
                    rw [h1, hqf]; simp

/-- where the whole recognised block is looked at: its constraint holds inside the domain of its operations, inputs are positive, and
sympy's `expand` keeps the constraint's value near that point -/
structure CDPoint (R : Rewriter) (con : SEq) (m : CDMatch) (P : RealPath) (t : Int) : Prop where
  holds : con.lhs.val P t = con.rhs.val P t
  smoothL : con.lhs.Smooth P t
  smoothR : con.rhs.Smooth P t
  positive : ∀ p ∈ m.inputs, 0 < p.1.value P t
  expand : ∀ c : TSym, ∀ᶠ y in nhds ((Sym.tv c).value P t),
    (R.expand (con.rhs.sub con.lhs)).val (P.set t c y) t = (con.rhs.sub con.lhs).val (P.set t c y) t

/-- **C24** (partial) the whole block: whenever the general block can be solved, so can the recognised one, with the same multipliers,
and the two systems agree equation by equation in value (same restrictions as `C24_closed_form_partial`). -/
theorem C24_block_partial (R : Rewriter) (B : Block) (k : Nat) (con : SEq) (L : SExpr) (ms) (mu : TSym) (m : CDMatch)
    (okey : Nat) (obj : SEq) (rest) (df : SExpr) (cs : List TSym) (r : Solved)
    (hB : OneConstraint B k con L ms mu) (hk : dispatchKind R B = .cobbDouglas m)
    (hor : (matchCDResidual R k (con.rhs.sub con.lhs)).isSome)
    (hobj : B.objective = some ((okey, obj) :: rest)) (hdf : discountFactor obj = .ok df) (hconst : df.tsyms = [])
    (hctl : B.controls = some cs)
    (hR : ∀ s ∈ (R.expand (con.rhs.sub con.lhs)).syms, s ∈ con.syms)
    (hdated : ∀ c ∈ cs, c.idx ≠ .ss)
    (hs : ∀ c ∈ cs, Sym.tv c ∈ dkeys m.inputs → SimpleInput con m.inputs mu c)
    (hss : ∀ s ∈ L.tsyms, s.idx ≠ .ss) (h : B.solve = .ok r) :
    ∃ r', B.solveKind (dispatchKind R B) = .ok r' ∧ r'.multipliers = r.multipliers ∧
      List.Forall₂ (fun e e' => ∀ P t, CDPoint R con m P t → e'.val P t = e.val P t) r.equations r'.equations := by
  rw [← C24_generic_unchanged] at h
  obtain ⟨o, ho, hLo⟩ := lag_single hB
  -- one control
  have one : ∀ c ∈ cs, ∃ g h', B.computeFoc .generic ms L df c = .ok g ∧ B.computeFoc (dispatchKind R B) ms L df c = .ok h' ∧
      ∀ P t, CDPoint R con m P t → h'.val P t = g.val P t := by
    intro c hc
    obtain ⟨i, hi⟩ : ∃ i, c.idx = .t i := by
      cases hx : c.idx with
      | t i => exact ⟨i, rfl⟩
      | ss => exact absurd hx (hdated c hc)
    cases hin : dget m.inputs (.tv c) with
    | some a =>
      have hmem := dget_mem hin
      obtain ⟨g, h', h1, h2, h3⟩ := C24_closed_form_partial R B k con L ms mu df m c a hB hk hor hin hR
        (hs c hc (by simp only [dkeys]; exact List.mem_map_of_mem (f := Prod.fst) hmem)) hss hconst
      exact ⟨g, h', h1, h2, fun P t hp => h3 P t (hp.positive _ hmem) hp.holds hp.smoothL hp.smoothR (hp.expand c)⟩
    | none =>
      have hsso : ∀ s ∈ o.tsyms, s.idx ≠ .ss := fun s hs' => hss s (by rw [hLo, tsyms_add]; simp [hs'])
      obtain ⟨od, hod, -⟩ := dtt_sum o df c i hi hsso hconst
      obtain ⟨g, hg, -⟩ := dtt_sum L df c i hi hss hconst
      have hidx := cd_idx (dispatch_cd hB.constraint hk)
      refine ⟨g, g, by simp [Block.computeFoc, dttB, hg], ?_, fun _ _ _ => rfl⟩
      rw [hk]
      simp [Block.computeFoc, Block.closedFoc, closedMultiplier, hidx, hB.multiplier, ho, dttB, hod, hin, hg]
  have all : ∃ gs hs', cs.mapM (B.computeFoc .generic ms L df) = .ok gs ∧ cs.mapM (B.computeFoc (dispatchKind R B) ms L df) = .ok hs' ∧
      List.Forall₂ (fun e e' => ∀ P t, CDPoint R con m P t → e'.val P t = e.val P t) gs hs' := by
    clear h hctl hs hdated
    induction cs with
    | nil => exact ⟨[], [], rfl, rfl, .nil⟩
    | cons c cs ih =>
      obtain ⟨g, h', h1, h2, h3⟩ := one c (by simp)
      obtain ⟨gs, hs', h4, h5, h6⟩ := ih (fun c hc => one c (by simp [hc]))
      refine ⟨g :: gs, h' :: hs', ?_, ?_, .cons h3 h6⟩
      · rw [List.mapM_cons, h1, h4]; rfl
      · rw [List.mapM_cons, h2, h5]; rfl
  obtain ⟨gs, hs', h4, h5, h6⟩ := all
  unfold Block.solveKind at h ⊢
  cases hp : B.plainEquations with
  | error e => rw [hp] at h; cases h
  | ok eqs =>
    rw [hp] at h
    simp only [hobj, hctl, hdf, hB.lagrangian] at h ⊢
    cases hu : (B.multipliers.map Prod.snd)[okey]? with
    | none => rw [hu] at h; cases h
    | some u =>
      rw [hu] at h
      cases u with
      | some _ => cases h
      | none =>
        simp only [h4] at h
        cases h
        refine ⟨⟨eqs ++ [(obj.subsSeq (defDict (dvals B.definitions))).zero] ++ hs', ms⟩, by simp only [h5], rfl, ?_⟩
        refine List.rel_append (List.forall₂_same.mpr fun _ _ _ _ _ => rfl) h6

/-! ## examples -/

namespace Clf

/-- the rewriter which changes nothing (the examples are already in canonical form); two exponents are equal when identical,
`1/s * s` is recognised -/
def plainRewriter : Rewriter where
  expand := id
  auto := id
  isZero e := match e with
    | .add a (.mul (.num q) b) => (q == -1) && ((a == b) || match a with
        | .mul (.pow x (.num r)) y => (b == .num 1) && (x == y) && (r == -1)
        | _ => false)
    | _ => false

/-- dated variable -/
def v (n : Char) (k : Int) : SExpr := .sym (.tv ⟨[n], .t k, []⟩)
/-- its symbol -/
def vs (n : Char) (k : Int) : TSym := ⟨[n], .t k, []⟩
/-- parameter -/
def pr (n : Char) : SExpr := .sym (.par [n])

/-- `Y[] = A[] * K[]^a * L[]^b` -/
def cdCon : SEq := ⟨v 'Y' 0, .mul (.mul (v 'A' 0) (.pow (v 'K' 0) (pr 'a'))) (.pow (v 'L' 0) (pr 'b'))⟩

/-- a firm: controls `K[]`, `L[]`; objective `T[] = -(r[]*K[] + w[]*L[])`; constraint `Y[] = A[]*K[]^a*L[]^b : m[]` -/
def firm : Block :=
  { name := ['F']
    controls := some [vs 'K' 0, vs 'L' 0]
    objective := some [(0, ⟨v 'T' 0, .neg (.add (.mul (v 'r' 0) (v 'K' 0)) (.mul (v 'w' 0) (v 'L' 0)))⟩)]
    constraints := some [(1, cdCon)]
    multipliers := [(0, none), (1, some (vs 'm' 0))]
    flags := [(0, {}), (1, {})] }

/-- the same firm written the other way round -/
def firmFlipped : Block := { firm with constraints := some [(1, ⟨cdCon.rhs, cdCon.lhs⟩)] }

/-- the match of the example -/
def firmMatch : CDMatch := ⟨1, .tv (vs 'Y' 0), some (.tv (vs 'A' 0)), [(.tv (vs 'K' 0), pr 'a'), (.tv (vs 'L' 0), pr 'b')]⟩

example : dispatchKind plainRewriter firm = .cobbDouglas firmMatch := by decide +kernel
example : dispatchKind plainRewriter firmFlipped = .cobbDouglas firmMatch := by decide +kernel

/-- the path with every value 1 -/
def ones : RealPath := ⟨fun _ => 1, fun _ _ _ => 1, fun _ _ => 1⟩

end Clf

/-- non-vacuity of `C24_closed_form_partial` (and of the solved block being reached by dispatch) -/
example : ∃ (L : SExpr) (ms : _) (df : SExpr), OneConstraint firm 1 cdCon L ms (vs 'm' 0) ∧ dispatchKind plainRewriter firm = .cobbDouglas firmMatch ∧
    (matchCDResidual plainRewriter 1 (cdCon.rhs.sub cdCon.lhs)).isSome ∧ dget firmMatch.inputs (.tv (vs 'K' 0)) = some (pr 'a') ∧
    SimpleInput cdCon firmMatch.inputs (vs 'm' 0) (vs 'K' 0) ∧ (∀ s ∈ L.tsyms, s.idx ≠ .ss) ∧ df.tsyms = [] ∧
    (∀ s ∈ (plainRewriter.expand (cdCon.rhs.sub cdCon.lhs)).syms, s ∈ cdCon.syms) ∧
    0 < (Sym.tv (vs 'K' 0)).value ones 0 ∧ cdCon.lhs.val ones 0 = cdCon.rhs.val ones 0 ∧ cdCon.lhs.Smooth ones 0 ∧ cdCon.rhs.Smooth ones 0 := by
  refine ⟨_, _, .num 1, ⟨rfl, rfl, rfl, rfl⟩, by decide +kernel, by decide +kernel, by decide +kernel, ⟨⟨0, rfl⟩, ?_, ?_, by decide⟩, ?_, rfl, ?_, ?_, ?_, ?_, ?_⟩
  · simp [cdCon, SExpr.tsyms, SExpr.syms, v, vs, pr]
  · simp [firmMatch, pr, SExpr.syms]
  · simp [cdCon, SExpr.tsyms, SExpr.syms, v, pr, SExpr.sub, firm, SExpr.neg, SExpr.subsSeq, vs]
  · simp [cdCon, SExpr.syms, v, pr, SExpr.sub, SEq.syms, plainRewriter]
  · simp [Sym.value, Valuation.symAt, RealPath.val, ones, vs]
  · simp [cdCon, SExpr.val, SExpr.at, Valuation.symAt, RealPath.val, ones, v, pr]
  · simp [cdCon, SExpr.Smooth, v]
  · simp [cdCon, SExpr.Smooth, v, pr, SExpr.val, SExpr.at, Valuation.symAt, RealPath.val, ones]

/-- non-vacuity of `C24_flipped_violated`: its hypotheses are met by `firmFlipped`, and the difference is not zero there -/
example : ∃ (L : SExpr) (ms : _), OneConstraint firmFlipped 1 ⟨cdCon.rhs, cdCon.lhs⟩ L ms (vs 'm' 0) ∧
    dispatchKind plainRewriter firmFlipped = .cobbDouglas firmMatch ∧
    matchCDResidual plainRewriter 1 (cdCon.lhs.sub cdCon.rhs) = none ∧ dget firmMatch.inputs (.tv (vs 'K' 0)) = some (pr 'a') ∧
    SimpleInput ⟨cdCon.rhs, cdCon.lhs⟩ firmMatch.inputs (vs 'm' 0) (vs 'K' 0) ∧ (∀ s ∈ L.tsyms, s.idx ≠ .ss) ∧
    2 * ((Sym.tv (vs 'm' 0)).value ones 0 * ((pr 'a').val ones 0 * firmMatch.Y.value ones 0 / (Sym.tv (vs 'K' 0)).value ones 0)) ≠ 0 := by
  refine ⟨_, _, ⟨rfl, rfl, rfl, rfl⟩, by decide +kernel, by decide +kernel, by decide +kernel, ⟨⟨0, rfl⟩, ?_, ?_, by decide⟩, ?_, ?_⟩
  · simp [cdCon, SExpr.tsyms, SExpr.syms, v, vs, pr]
  · simp [firmMatch, pr, SExpr.syms]
  · simp [cdCon, SExpr.tsyms, SExpr.syms, v, pr, SExpr.sub, firmFlipped, firm, SExpr.neg, SExpr.subsSeq, vs]
  · simp [Sym.value, Valuation.symAt, RealPath.val, ones, vs, firmMatch, pr, SExpr.val, SExpr.at]

namespace Clf

/-- the firm with its wage bill as a definition: `D[] = w[]*L[]`, objective `T[] = -(r[]*K[] + D[])` -/
def firmDef : Block :=
  { name := ['F']
    definitions := some [(0, ⟨v 'D' 0, .mul (v 'w' 0) (v 'L' 0)⟩)]
    controls := some [vs 'K' 0, vs 'L' 0]
    objective := some [(1, ⟨v 'T' 0, .neg (.add (.mul (v 'r' 0) (v 'K' 0)) (v 'D' 0))⟩)]
    constraints := some [(2, cdCon)]
    multipliers := [(0, none), (1, none), (2, some (vs 'm' 0))]
    flags := [(0, {}), (1, {}), (2, {})] }

/-- capital chosen now and installed for two periods: `Y[] = K[]^a * K[-1]^b`, objective `V[] = -r[]*K[] + g*V[1]` -/
def firmLag : Block :=
  { name := ['F']
    controls := some [vs 'K' 0]
    objective := some [(0, ⟨v 'V' 0, .add (.neg (.mul (v 'r' 0) (v 'K' 0))) (.mul (pr 'g') (v 'V' 1))⟩)]
    constraints := some [(1, ⟨v 'Y' 0, .mul (.pow (v 'K' 0) (pr 'a')) (.pow (v 'K' (-1)) (pr 'b'))⟩)]
    multipliers := [(0, none), (1, some (vs 'm' 0))]
    flags := [(0, {}), (1, {})] }

end Clf

/-- **C24** is violated in blocks with definitions: the closed form differentiates the objective as written. Here the wage bill
`D[] = w[]*L[]` is a definition, and the recognised block's condition for labour loses the wage: at the path with every value 1
(definition and constraint hold at every date) the general condition is 0 and the closed form is 1. -/
theorem C24_definitions_violated : ∃ L ms m g h, firmDef.lagrangian = .ok (L, ms) ∧ dispatchKind plainRewriter firmDef = .cobbDouglas m ∧
    firmDef.computeFoc .generic ms L (.num 1) (vs 'L' 0) = .ok g ∧
    firmDef.computeFoc (dispatchKind plainRewriter firmDef) ms L (.num 1) (vs 'L' 0) = .ok h ∧
    DefsHold (dvals firmDef.definitions) ones ∧ (∀ t, cdCon.lhs.val ones t = cdCon.rhs.val ones t) ∧
    g.val ones 0 = 0 ∧ h.val ones 0 = 1 := by
  have hk : dispatchKind plainRewriter firmDef = .cobbDouglas { firmMatch with idx := 2 } := by decide +kernel
  obtain ⟨L, ms, hL⟩ : ∃ L ms, firmDef.lagrangian = .ok (L, ms) ∧ dget ms 2 = some (some (vs 'm' 0)) ∧
      L = .sub (.neg (.add (.mul (v 'r' 0) (v 'K' 0)) (.mul (v 'w' 0) (v 'L' 0)))) (.mul (v 'm' 0) (cdCon.lhs.sub cdCon.rhs)) := by
    have hf : ∀ e, (∀ s ∈ SExpr.tsyms e, s.idx ≠ .ss) → stepFwd e = .ok (shiftE 1 e) := stepFwd_shift
    have hb : ∀ e, (∀ s ∈ SExpr.tsyms e, s.idx ≠ .ss) → stepBwd e = .ok (shiftE (-1) e) := stepBwd_shift
    have hsub : lagrangianSubs [⟨v 'D' 0, .mul (v 'w' 0) (v 'L' 0)⟩] [] = .ok
        [(.tv (vs 'D' (-1)), .mul (v 'w' (-1)) (v 'L' (-1))), (.tv (vs 'D' 0), .mul (v 'w' 0) (v 'L' 0)),
         (.tv (vs 'D' 1), .mul (v 'w' 1) (v 'L' 1))] := by
      have s0 : ∀ e, stepBy (0 - 0) e = .ok e := fun e => rfl
      have s1 : ∀ e, stepBy (1 - 0) e = stepFwd e := fun e => by
        rw [show (1 - 0 : Int) = Int.ofNat 1 from rfl]
        simp only [stepBy, List.range_succ, List.range_zero, List.nil_append, List.foldlM_cons, List.foldlM_nil]
        cases stepFwd e <;> rfl
      have s2 : ∀ e, stepBy (-1 - 0) e = stepBwd e := fun e => by
        rw [show (-1 - 0 : Int) = Int.negSucc 0 from rfl]
        simp only [stepBy, List.range_succ, List.range_zero, List.nil_append, List.foldlM_cons, List.foldlM_nil]
        cases stepBwd e <;> rfl
      simp only [lagrangianSubs, expandDefinition, v, List.foldlM_cons, List.foldlM_nil, s0, s1, s2]
      simp [hf, hb, SExpr.tsyms, SExpr.syms, shiftE, SExpr.replace, shiftSym, dset, dupdate, vs, bind, Except.bind, pure, Except.pure]
    refine ⟨_, firmDef.multipliers, ?_, ?_, rfl⟩
    · unfold Block.lagrangian
      simp only [firmDef, dvals, Option.getD_some, List.map_cons, List.map_nil, hsub]
      rfl
    · rfl
  obtain ⟨hL, hms, rfl⟩ := hL
  have hg := dtt_sum (.sub (.neg (.add (.mul (v 'r' 0) (v 'K' 0)) (.mul (v 'w' 0) (v 'L' 0)))) (.mul (v 'm' 0) (cdCon.lhs.sub cdCon.rhs)))
    (.num 1) (vs 'L' 0) 0 rfl (by simp [cdCon, SExpr.tsyms, SExpr.syms, v, pr, SExpr.sub, SExpr.neg]) rfl
  obtain ⟨g, hg, vg⟩ := hg
  have ho : diffThroughTime (.neg (.add (.mul (v 'r' 0) (v 'K' 0)) (v 'D' 0))) (vs 'L' 0) (.expr (.num 1)) = .ok (.num 0) :=
    C14_absent _ _ _ (by simp [SExpr.tsyms, SExpr.syms, v, vs, SExpr.neg])
  refine ⟨_, ms, { firmMatch with idx := 2 }, g, .add (.num 0) (.div (.mul (.mul (v 'm' 0) (pr 'b')) (v 'Y' 0)) (v 'L' 0)), hL, hk,
    by simp [Block.computeFoc, dttB, hg], ?_, ?_, ?_, ?_, ?_⟩
  rotate_left
  · intro e he u
    simp [firmDef, dvals] at he
    subst he
    simp [SExpr.val, SExpr.at, Valuation.symAt, RealPath.val, ones, v]
  · intro t
    simp [cdCon, SExpr.val, SExpr.at, Valuation.symAt, RealPath.val, ones, v, pr]
  · rw [vg ones 0 1 (by simp [cdCon, SExpr.tsyms, SExpr.syms, v, pr, SExpr.sub, SExpr.neg, vs])]
    simp [term, shiftSym_zero, cdCon, SExpr.sub, SExpr.neg, SExpr.diff, v, vs, pr, SExpr.val, SExpr.at, Valuation.symAt, RealPath.val, ones, SExpr.div]
  rotate_right
  · rw [hk]
    simp only [Block.computeFoc, Block.closedFoc, closedMultiplier, hms]
    rw [show firmDef.rawObjective = .ok (.neg (.add (.mul (v 'r' 0) (v 'K' 0)) (v 'D' 0))) from rfl]
    simp only [dttB, ho]
    rfl
  · simp [SExpr.val, SExpr.at, Valuation.symAt, RealPath.val, ones, v, pr, SExpr.div]

/-- **C24** is violated when an input also occurs lagged in the constraint (`Y[] = K[]^a * K[-1]^b`): the matcher accepts it, and the
closed form misses the effect of today's choice on tomorrow's output. At the path with every value 1 (where the constraint holds
at every date) the general condition exceeds the closed form by exactly that effect, the discount factor times `b`. -/
theorem C24_lagged_input_violated : ∃ L ms m g h, firmLag.lagrangian = .ok (L, ms) ∧ dispatchKind plainRewriter firmLag = .cobbDouglas m ∧
    firmLag.computeFoc .generic ms L (pr 'g') (vs 'K' 0) = .ok g ∧
    firmLag.computeFoc (dispatchKind plainRewriter firmLag) ms L (pr 'g') (vs 'K' 0) = .ok h ∧
    g.val ones 0 = h.val ones 0 + (pr 'g').val ones 0 * (pr 'b').val ones 0 ∧ (pr 'g').val ones 0 * (pr 'b').val ones 0 ≠ 0 := by
  have hk : dispatchKind plainRewriter firmLag = .cobbDouglas ⟨1, .tv (vs 'Y' 0), none, [(.tv (vs 'K' 0), pr 'a'), (.tv (vs 'K' (-1)), pr 'b')]⟩ := by
    decide +kernel
  obtain ⟨g, hg, vg⟩ := dtt_sum (.sub (.add (.neg (.mul (v 'r' 0) (v 'K' 0))) (.mul (pr 'g') (v 'V' 1)))
      (.mul (v 'm' 0) ((v 'Y' 0).sub (.mul (.pow (v 'K' 0) (pr 'a')) (.pow (v 'K' (-1)) (pr 'b'))))))
    (pr 'g') (vs 'K' 0) 0 rfl (by simp [SExpr.tsyms, SExpr.syms, v, pr, SExpr.sub, SExpr.neg]) rfl
  obtain ⟨o, ho, vo⟩ := dtt_sum (.add (.neg (.mul (v 'r' 0) (v 'K' 0))) (.mul (pr 'g') (v 'V' 1)))
    (pr 'g') (vs 'K' 0) 0 rfl (by simp [SExpr.tsyms, SExpr.syms, v, pr, SExpr.neg]) rfl
  refine ⟨_, firmLag.multipliers, _, g, .add o (.div (.mul (.mul (v 'm' 0) (pr 'a')) (v 'Y' 0)) (v 'K' 0)), rfl, hk, ?_, ?_, ?_, ?_⟩
  · simp only [Block.computeFoc, dttB]
    exact (congrArg (fun z => match z with | .ok r => Except.ok r | .error _ => .error BErr.typeError) hg)
  · rw [hk]
    simp only [Block.computeFoc, Block.closedFoc, closedMultiplier]
    rw [show firmLag.rawObjective = .ok (.add (.neg (.mul (v 'r' 0) (v 'K' 0))) (.mul (pr 'g') (v 'V' 1))) from rfl]
    rw [show dget firmLag.multipliers 1 = some (some (vs 'm' 0)) from rfl]
    simp only [dttB, ho]
    rfl
  · rw [val_add, vg ones 0 2 (by simp [SExpr.tsyms, SExpr.syms, v, pr, SExpr.sub, SExpr.neg, vs]; try decide),
      vo ones 0 1 (by simp [SExpr.tsyms, SExpr.syms, v, pr, SExpr.neg, vs])]
    simp [Finset.sum_range_succ, term, shiftSym, SExpr.sub, SExpr.neg, SExpr.diff, v, vs, pr, SExpr.val, SExpr.at, Valuation.symAt, RealPath.val, ones, SExpr.div]
  · simp [pr, SExpr.val, SExpr.at, Valuation.symAt, RealPath.val, ones]

/-! ### CES -/

namespace Clf

/-- `Y[] = A[] * (a*K[]^s + b*L[]^s)^(1/s)` -/
def cesCon : SEq := ⟨v 'Y' 0, .mul (v 'A' 0)
  (.pow (.add (.mul (pr 'a') (.pow (v 'K' 0) (pr 's'))) (.mul (pr 'b') (.pow (v 'L' 0) (pr 's')))) (.pow (pr 's') (.num (-1))))⟩

/-- a CES firm -/
def cesFirm : Block := { firm with constraints := some [(1, cesCon)] }

/-- its match -/
def cesFirmMatch : CESMatch :=
  ⟨1, .tv (vs 'Y' 0), some (.tv (vs 'A' 0)), pr 's', [(.tv (vs 'K' 0), .mul (pr 'a') (.num 1)), (.tv (vs 'L' 0), .mul (pr 'b') (.num 1))]⟩

/-- shares of one half, everything else 1 -/
noncomputable def halves : RealPath := ⟨fun n => if n = ['s'] then 1 else 1 / 2, fun _ _ _ => 1, fun _ _ => 1⟩

end Clf

/-- non-vacuity of `C25_closed_form_partial` (including what it asks of sympy) -/
example : ∃ (L : SExpr) (ms : _), OneConstraint cesFirm 1 cesCon L ms (vs 'm' 0) ∧ dispatchKind plainRewriter cesFirm = .ces cesFirmMatch ∧
    (matchCESResidual plainRewriter 1 (cesCon.rhs.sub cesCon.lhs)).isSome ∧
    dget cesFirmMatch.inputs (.tv (vs 'K' 0)) = some (.mul (pr 'a') (.num 1)) ∧
    SimpleInput cesCon cesFirmMatch.inputs (vs 'm' 0) (vs 'K' 0) ∧ Sym.tv (vs 'K' 0) ∉ cesFirmMatch.s.syms ∧ (∀ s ∈ L.tsyms, s.idx ≠ .ss) ∧
    (∀ s ∈ (plainRewriter.auto (cesCon.rhs.sub cesCon.lhs)).syms, s ∈ cesCon.syms) ∧
    0 < (Sym.tv (vs 'K' 0)).value halves 0 ∧ 0 < tfp cesFirmMatch.A halves 0 ∧
    0 < cesBracket (cesFirmMatch.s.val halves 0) cesFirmMatch.inputs halves 0 ∧
    cesCon.lhs.val halves 0 = cesCon.rhs.val halves 0 ∧ cesCon.lhs.Smooth halves 0 ∧ cesCon.rhs.Smooth halves 0 ∧
    (∀ y, plainRewriter.FaithfulCES (cesCon.rhs.sub cesCon.lhs) (halves.set 0 (vs 'K' 0) y) 0) := by
  refine ⟨_, _, ⟨rfl, rfl, rfl, rfl⟩, by decide +kernel, by decide +kernel, by decide +kernel, ⟨⟨0, rfl⟩, ?_, ?_, by decide⟩, ?_, ?_, ?_, ?_, ?_, ?_, ?_, ?_, ?_, ?_⟩
  · simp [cesCon, SExpr.tsyms, SExpr.syms, v, vs, pr]
  · simp [cesFirmMatch, pr, SExpr.syms]
  · simp [cesFirmMatch, pr, SExpr.syms]
  · simp [cesCon, SExpr.tsyms, SExpr.syms, v, pr, SExpr.sub, SExpr.neg, SExpr.subsSeq, vs]
  · simp [cesCon, SExpr.syms, v, pr, SExpr.sub, SEq.syms, plainRewriter]
  · simp [Sym.value, Valuation.symAt, RealPath.val, halves, vs]
  · simp [tfp, cesFirmMatch, Sym.value, Valuation.symAt, RealPath.val, halves, vs]
  · simp [cesBracket, cesFirmMatch, Sym.value, Valuation.symAt, RealPath.val, halves, vs, SExpr.val, SExpr.at, pr]
  · simp [cesCon, SExpr.val, SExpr.at, Valuation.symAt, RealPath.val, halves, v, pr]; norm_num
  · simp [cesCon, SExpr.Smooth, v]
  · simp [cesCon, SExpr.Smooth, v, pr, SExpr.val, SExpr.at, Valuation.symAt, RealPath.val, halves]
  · intro y
    have hex : (plainRewriter.auto (cesCon.rhs.sub cesCon.lhs)).exponents = [.pow (pr 's') (.num (-1)), pr 's', pr 's', .num (-1)] := by decide +kernel
    refine ⟨rfl, ?_, ?_⟩
    · intro a ha b hb
      rw [hex] at ha hb
      fin_cases ha <;> fin_cases hb <;> simp [plainRewriter, SExpr.sub, pr, SExpr.val, SExpr.at, Valuation.symAt, RealPath.val, halves, RealPath.set, RealPath.bump, vs]
    · intro a ha b hb
      rw [hex] at ha hb
      fin_cases ha <;> fin_cases hb <;> simp [plainRewriter, SExpr.sub, pr, SExpr.val, SExpr.at, Valuation.symAt, RealPath.val, halves, RealPath.set, RealPath.bump, vs]

end GE
