import Verif.Props.Solve
import Verif.Props.ExpandTime
/-! # C48: first-order conditions and deep lags of a control -/

namespace GE

/-- how the loader treats one block before solving it (to_block.py:283-296): expand deep indices, convert -/
def loadBlock (asm : List (Str × Asm)) (b : Blk) : Except ConvErr Block := astBlockToBlock asm (expandBlock b)

open Slv Lag DTT

/-- **C48** if the block has no variable dated before t-1 or after t+1, the first-order condition used by the model is the derivative
of the whole discounted Lagrangian of the block as the user wrote it. Missing for the full claim: deep lags, for which it is false
(`C48_deep_lag_violated`). -/
theorem C48_shallow_partial (asm : List (Str × Asm)) (b : Blk) (B B0 : Block) (r : Solved) (okey : Nat) (obj : SEq) (rest)
    (cs : List TSym) (L ms df)
    (h1 : ∀ e ∈ b.equations, ∀ o ∈ e.vars, o.2.near) (h2 : ∀ v ∈ b.controls, v.t.near)
    (hB : loadBlock asm b = .ok B) (hr : B.solve = .ok r)
    (hB0 : astBlockToBlock asm b = .ok B0)
    (hc : B0.controls = some cs) (ho : B0.objective = some ((okey, obj) :: rest))
    (hL : B0.lagrangian = .ok (L, ms)) (hdf : discountFactor obj = .ok df)
    (hss : ∀ s ∈ L.tsyms, s.idx ≠ .ss) (hconst : df.tsyms = []) (c : TSym) (hcc : c ∈ cs) (hc0 : c.idx = .t 0) :
    ∃ foc ∈ r.equations, ∀ (P : RealPath) (t : Int), df.Smooth P t → (∀ k : Nat, L.Smooth P (t + k)) →
      Summable (fun k : ℕ => df.val P t ^ k * L.val P (t + k)) →
        HasDerivAt (fun y => discountedInf L (df.val P t) t (P.bump c.base c.asm t y)) (foc.val P t) (P.path c.base c.asm t) := by
  unfold loadBlock at hB
  rw [C09_shallow_unchanged b h1 h2, hB0] at hB
  cases hB
  exact C23_foc_is_derivative B r okey obj rest cs L ms df hc ho hr hL hdf hss hconst c hcc hc0

/-- the user's block: control `x[]`, objective `V[] = x[] * x[-2] + b * V[1]`, constraint `y[] = x[] : m[]` -/
def habitBlk : Blk where
  name := ['H']
  controls := [⟨['x'], .t 0⟩]
  objective := [{ lhs := .var ['V'] (.t 0)
                  rhs := .bin .add (.bin .mul (.var ['x'] (.t 0)) (.var ['x'] (.t (-2)))) (.bin .mul (.par ['b']) (.var ['V'] (.t 1))) }]
  constraints := [{ lhs := .var ['y'] (.t 0), rhs := .var ['x'] (.t 0), lagrange := some ['m'] }]

/-- the name of the auxiliary lag -/
def lag1 : Str := makeLagName ['x'] 1

/-- **C48** is violated by deep lags: for `V[] = x[]*x[-2] + b*V[1]` the model's first-order condition for `x[]` is
`x__lag1[-1] + m[] = 0`, i.e. `x[-2] + m[] = 0`, whereas the derivative of the discounted Lagrangian is
`x[-2] + b**2 * x[2] + m[]`. So on every path along which the auxiliary identity holds and `b**2 * x[2]` is not zero, the
condition used by the model is not the derivative. -/
theorem C48_deep_lag_violated :
    ∃ B B0 r foc L0 ms a, loadBlock [] habitBlk = .ok B ∧ astBlockToBlock [] habitBlk = .ok B0 ∧
      B.solve = .ok r ∧ r.equations.getLast? = some foc ∧ B0.lagrangian = .ok (L0, ms) ∧
      (∀ (P : RealPath) t, foc.val P t = P.path lag1 a (t - 1) + P.path ['m'] a t) ∧
      (∀ (P : RealPath) t, (∀ u, P.path lag1 a u = P.path ['x'] a (u - 1)) → P.par ['b'] ^ 2 * P.path ['x'] a (t + 2) ≠ 0 →
        ∀ N : Nat, 3 ≤ N →
          ¬ HasDerivAt (fun y => discounted L0 (P.par ['b']) t N (P.bump ['x'] a t y)) (foc.val P t) (P.path ['x'] a t)) := by
  let a := mergeAssumptions none
  let v := fun (n : Str) (k : Int) => SExpr.sym (.tv ⟨n, .t k, a⟩)
  let b : SExpr := .sym (.par ['b'])
  let df : SExpr := .mul b (.num 1)
  let obj : SEq := ⟨v ['V'] 0, .add (.mul (v ['x'] 0) (v lag1 (-1))) (.mul b (v ['V'] 1))⟩
  let con : SEq := ⟨v ['y'] 0, v ['x'] 0⟩
  let obj0 : SEq := ⟨v ['V'] 0, .add (.mul (v ['x'] 0) (v ['x'] (-2))) (.mul b (v ['V'] 1))⟩
  let L : SExpr := .sub obj.rhs (.mul (v ['m'] 0) (.sub con.lhs con.rhs))
  let L0 : SExpr := .sub obj0.rhs (.mul (v ['m'] 0) (.sub con.lhs con.rhs))
  let B : Block :=
    { name := ['H'], controls := some [⟨['x'], .t 0, a⟩], objective := some [(0, obj)], constraints := some [(1, con)]
      identities := some [(2, ⟨v lag1 0, v ['x'] (-1)⟩)]
      multipliers := [(0, none), (1, some ⟨['m'], .t 0, a⟩), (2, none)], flags := [(0, {}), (1, {}), (2, {})] }
  let B0 : Block :=
    { name := ['H'], controls := some [⟨['x'], .t 0, a⟩], objective := some [(0, obj0)], constraints := some [(1, con)]
      multipliers := [(0, none), (1, some ⟨['m'], .t 0, a⟩)], flags := [(0, {}), (1, {})] }
  have hB : loadBlock [] habitBlk = .ok B := rfl
  have hB0 : astBlockToBlock [] habitBlk = .ok B0 := rfl
  have hL : B.lagrangian = .ok (L, B.multipliers) := rfl
  have hL0 : B0.lagrangian = .ok (L0, B0.multipliers) := rfl
  have hnss : ∀ s ∈ L.tsyms, s.idx ≠ .ss := by
    simp [L, obj, con, v, b, SExpr.sub, SExpr.tsyms, SExpr.syms]
  have hnss0 : ∀ s ∈ L0.tsyms, s.idx ≠ .ss := by
    simp [L0, obj0, con, v, b, SExpr.sub, SExpr.tsyms, SExpr.syms]
  have hdf : discountFactor obj = .ok df := rfl
  have hne : lag1 ≠ ['x'] := by decide
  obtain ⟨foc, hf1, hf2⟩ := loop_val ⟨['x'], .t 0, a⟩ L df hnss rfl 1 0 (.num 0)
  have hfoc : diffThroughTime L ⟨['x'], .t 0, a⟩ (.expr df) = .ok foc := hf1
  have hsolve : ∃ eqs, B.solve = .ok ⟨eqs ++ [foc], B.multipliers⟩ := by
    have : ∃ plain, B.plainEquations = .ok plain := ⟨_, rfl⟩
    obtain ⟨plain, hp⟩ := this
    refine ⟨plain ++ [(obj.subsSeq []).zero], ?_⟩
    unfold Block.solve
    rw [hp]
    simp only [show B.objective = some [(0, obj)] from rfl, show B.controls = some [⟨['x'], .t 0, a⟩] from rfl, hdf, hL,
      show (B.multipliers.map Prod.snd)[0]? = some none from rfl, List.mapM_cons, List.mapM_nil, hfoc]
    rfl
  obtain ⟨eqs, hs⟩ := hsolve
  have hval : ∀ (P : RealPath) t, foc.val P t = P.path lag1 a (t - 1) + P.path ['m'] a t := by
    intro P t
    rw [hf2]
    simp [turn, L, obj, con, v, b, SExpr.sub, SExpr.diff, SExpr.val, SExpr.at, Valuation.symAt, RealPath.val, hne]
    ring_nf
  refine ⟨B, B0, _, foc, L0, _, a, hB, hB0, hs, by simp, hL0, hval, ?_⟩
  intro P t haux hnz N hN hD
  obtain ⟨r0, hr0, hd0⟩ := C14_finite_horizon L0 b ⟨['x'], .t 0, a⟩ 0 rfl hnss0 rfl
  obtain ⟨r0', hr1, hr2⟩ := loop_val ⟨['x'], .t 0, a⟩ L0 b hnss0 rfl 3 0 (.num 0)
  have : diffThroughTime L0 ⟨['x'], .t 0, a⟩ (.expr b) = .ok r0' := hr1
  rw [hr0] at this
  cases this
  have hsm : ∀ k : Nat, L0.Smooth P (t + k) := by
    intro k; simp [L0, obj0, con, v, b, SExpr.sub, SExpr.Smooth]
  have hD0 := hd0 P t trivial hsm N (by
    intro s hs j e1 e2
    simp only [L0, obj0, con, v, b, SExpr.sub, SExpr.tsyms, SExpr.syms] at hs
    simp at hs
    rcases hs with rfl | rfl | rfl | rfl | rfl | rfl <;> simp_all <;> omega)
  have hb : b.val P t = P.par ['b'] := rfl
  rw [hb] at hD0
  simp only [add_zero] at hD0
  have huniq := hD.unique hD0
  rw [hval, hr2, haux] at huniq
  simp [turn, L0, obj0, con, v, b, shiftE, shiftSym, SExpr.replace, Finset.sum_range_succ, SExpr.sub, SExpr.diff, SExpr.val, SExpr.at, Valuation.symAt, RealPath.val] at huniq
  apply hnz
  have e1 : t - 1 - 1 = t + -2 := by ring
  rw [e1] at huniq
  linarith

/-- non-vacuity of `C48_shallow_partial`: control `x[]`, objective `V[] = x[] * x[-1] + b * V[1]`, constraint `y[] = x[] : m[]` -/
example : ∃ b B r L ms df obj cs, (∀ e ∈ b.equations, ∀ o ∈ e.vars, o.2.near) ∧ (∀ v ∈ b.controls, v.t.near) ∧
    loadBlock [] b = .ok B ∧ B.solve = .ok r ∧ astBlockToBlock [] b = .ok B ∧ B.controls = some cs ∧ cs ≠ [] ∧
    B.objective = some [(0, obj)] ∧ B.lagrangian = .ok (L, ms) ∧ discountFactor obj = .ok df ∧
    (∀ s ∈ L.tsyms, s.idx ≠ .ss) ∧ df.tsyms = [] := by
  let b : Blk :=
    { name := ['H']
      controls := [⟨['x'], .t 0⟩]
      objective := [{ lhs := .var ['V'] (.t 0)
                      rhs := .bin .add (.bin .mul (.var ['x'] (.t 0)) (.var ['x'] (.t (-1)))) (.bin .mul (.par ['b']) (.var ['V'] (.t 1))) }]
      constraints := [{ lhs := .var ['y'] (.t 0), rhs := .var ['x'] (.t 0), lagrange := some ['m'] }] }
  let a := mergeAssumptions none
  let v := fun (n : Str) (k : Int) => SExpr.sym (.tv ⟨n, .t k, a⟩)
  let obj : SEq := ⟨v ['V'] 0, .add (.mul (v ['x'] 0) (v ['x'] (-1))) (.mul (.sym (.par ['b'])) (v ['V'] 1))⟩
  let con : SEq := ⟨v ['y'] 0, v ['x'] 0⟩
  let L : SExpr := .sub obj.rhs (.mul (v ['m'] 0) (.sub con.lhs con.rhs))
  let B : Block :=
    { name := ['H'], controls := some [⟨['x'], .t 0, a⟩], objective := some [(0, obj)], constraints := some [(1, con)]
      multipliers := [(0, none), (1, some ⟨['m'], .t 0, a⟩)], flags := [(0, {}), (1, {})] }
  have hL : B.lagrangian = .ok (L, B.multipliers) := rfl
  have hss : ∀ s ∈ L.tsyms, s.idx ≠ .ss := by
    simp [L, obj, con, v, SExpr.sub, SExpr.tsyms, SExpr.syms]
  obtain ⟨r, hr⟩ := C23_total B 0 obj [] _ L _ _ rfl rfl (by simp [B, dget]) hL rfl rfl hss rfl (by simp)
  refine ⟨b, B, r, L, _, _, obj, _, ?_, ?_, rfl, hr, rfl, rfl, by simp, rfl, hL, rfl, hss, rfl⟩
  · simp [b, Blk.equations, Eqn.vars, Expr.vars]
    constructor
    · rintro _ _ (⟨rfl, rfl⟩ | ⟨rfl, rfl⟩ | ⟨rfl, rfl⟩ | ⟨rfl, rfl⟩) <;> simp [TIdx.near]
    · rintro _ _ (⟨rfl, rfl⟩ | ⟨rfl, rfl⟩) <;> simp [TIdx.near]
  · simp [b, TIdx.near]

/-- the hypotheses of the violation are met: the path constantly 1 with `b = 1` -/
example (a : Asm) : let P : RealPath := ⟨fun _ => 1, fun _ _ _ => 1, fun _ _ => 1⟩
    (∀ u, P.path lag1 a u = P.path ['x'] a (u - 1)) ∧ P.par ['b'] ^ 2 * P.path ['x'] a (0 + 2) ≠ 0 := by
  simp

end GE
