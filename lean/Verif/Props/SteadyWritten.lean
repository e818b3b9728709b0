import Verif.Props.SSDriver3
import Verif.Props.Responses
/-! # C133: what a reported steady state says about the file, as written -/

namespace GE

/-- specification: an economy at rest: every variable stays, at every date, at its steady state, and shocks are zero -/
structure AtRest (shocks : List TSym) (R : RealPath) : Prop where
  stays : ∀ n asm t, (∀ s ∈ shocks, ¬ (s.base = n ∧ s.asm = asm)) → R.path n asm t = R.ss n asm
  shock : ∀ s ∈ shocks, (∀ t, R.path s.base s.asm t = 0) ∧ R.ss s.base s.asm = 0

/-- specification: on the path, what the equations mention has the reported steady-state values and the parameters of the call -/
def Carries (eqs : List SExpr) (values pd : List (Str × Num)) (R : RealPath) : Prop :=
  ∀ e ∈ eqs, ∀ s ∈ e.syms, ∀ x, valueAt values pd s = some x → x = some (R.val.symAt 0 s)

namespace SWr

theorem in_shocks (shocks : List TSym) (n : Str) (a : Asm) :
    (⟨n, .ss, a⟩ : TSym) ∈ shocks.map toSS ↔ ∃ s ∈ shocks, s.base = n ∧ s.asm = a := by
  simp only [List.mem_map]
  constructor
  · rintro ⟨s, hs, h⟩
    refine ⟨s, hs, ?_⟩
    cases s
    simp only [toSS, TSym.mk.injEq] at h
    exact ⟨h.1, h.2.2⟩
  · rintro ⟨s, hs, rfl, rfl⟩
    exact ⟨s, hs, rfl⟩

theorem eval_congr {ρ ρ' : Sym → ℝ} : ∀ (e : SExpr), (∀ s ∈ e.syms, ρ s = ρ' s) → e.eval ρ = e.eval ρ' := by
  intro e
  induction e with
  | num q => intro _; rfl
  | sym s => intro h; exact h s (by simp [SExpr.syms])
  | add a b iha ihb =>
    intro h; simp only [SExpr.eval]
    rw [iha fun s hs => h s (by simp [SExpr.syms, hs]), ihb fun s hs => h s (by simp [SExpr.syms, hs])]
  | mul a b iha ihb =>
    intro h; simp only [SExpr.eval]
    rw [iha fun s hs => h s (by simp [SExpr.syms, hs]), ihb fun s hs => h s (by simp [SExpr.syms, hs])]
  | pow a b iha ihb =>
    intro h; simp only [SExpr.eval]
    rw [iha fun s hs => h s (by simp [SExpr.syms, hs]), ihb fun s hs => h s (by simp [SExpr.syms, hs])]
  | exp a ih => intro h; simp only [SExpr.eval]; rw [ih fun s hs => h s (by simp [SExpr.syms, hs])]
  | log a ih => intro h; simp only [SExpr.eval]; rw [ih fun s hs => h s (by simp [SExpr.syms, hs])]

/-- a resting path is the constant path -/
theorem constant {shocks : List TSym} {R : RealPath} (h : AtRest shocks R) : R.constant shocks = R := by
  classical
  obtain ⟨par, path, ss⟩ := R
  unfold RealPath.constant
  congr 1
  · funext n a t
    dsimp only
    split
    · next hm =>
      obtain ⟨s, hs, rfl, rfl⟩ := (in_shocks _ _ _).1 hm
      exact ((h.shock s hs).1 t).symm
    · next hm => exact (h.stays n a t fun s hs hc => hm ((in_shocks _ _ _).2 ⟨s, hs, hc⟩)).symm
  · funext n a
    dsimp only
    split
    · next hm =>
      obtain ⟨s, hs, rfl, rfl⟩ := (in_shocks _ _ _).1 hm
      exact (h.shock s hs).2.symm
    · rfl

end SWr

/-- **C133** the steady-state equations are the equations of the file at rest: each equation of a model block, as written, has one among
the steady-state equations of the model whose value, at any parameters and steady state, is at every date how far the equation is from
holding (right minus left side) in an economy resting there, with the definitions of the blocks holding and the auxiliary variables for
deeper lags and leads resting with the variables they stand for. -/
theorem C133_equations (text : List Char) (ts : List Tok) (f : Gcn.GFile) (P : Primitives) (hs : SpellsToks text ts) (hf : Gcn.IsFile ts f)
    (hl : Gcn.LoadGcn text P) (hd : f.DistinctNames)
    (simp : SExpr → SExpr) (hsimp : SameValues simp) (order : SExpr → List TSym) (ho : ∀ e s, s ∈ order e ↔ s ∈ e.tsyms)
    (b : Gcn.GBlock) (hb : f.IsModelBlock b) (e : Eqn) (he : e ∈ b.stated) :
    ∃ q ∈ systemToSS simp order P.equations P.shocks, ∀ R : RealPath, AtRest P.shocks R → f.DefinitionsHold R → f.ShiftsHold R → ∀ t : Int,
      q.eval (R.val.symAt 0) = - Gcn.writtenGap f e R t := by
  obtain ⟨q, hqP, hval⟩ := Rsp.written_gaps hs hf hl hd b hb e he
  obtain ⟨i, hi⟩ := List.mem_iff_getElem?.mp hqP
  obtain ⟨q', hq', hv⟩ := (C70_system simp hsimp order ho P.equations P.shocks).2 i q hi
  refine ⟨q', List.mem_of_getElem? hq', fun R hR hdef hsh t => ?_⟩
  rw [Rsp.eval_symAt, hv R t, SWr.constant hR, hval R hsh hdef t]

section
variable {m : SSModel} {nv : NumEval} {close : Str → List Str → List Str} {root minimize : SSSolver} {tol : ℝ} {how : How}

/-- **C133, the whole way**: a GCN file is read, its blocks become a model not declared linear, and `steady_state` reports success. Put the
economy at rest at the reported values (numbers) and the parameters of the call, with the definitions and the auxiliary variables holding. Then, at
every date: either every equation of the file, as written, holds up to `1e-8`; or the optimizer itself said it had converged; or every
equation, except those whose steady-state form has no unknown left once the known and fixed values are put in, holds up to the tolerance.
Missing: the last two cases leave equations unchecked (`C83_violated`). -/
theorem C133_written_partial (text : List Char) (ts : List Tok) (f : Gcn.GFile) (P : Primitives) (hs : SpellsToks text ts) (hf : Gcn.IsFile ts f)
    (hl : Gcn.LoadGcn text P) (hd : f.DistinctNames)
    (simp : SExpr → SExpr) (hsimp : SameValues simp) (order : SExpr → List TSym) (ho : ∀ e s, s ∈ order e ↔ s ∈ e.tsyms)
    (hm : m.ssEqs = systemToSS simp order P.equations P.shocks) (hw : m.WF) (hlin : m.linear = false) (hx : nv.Exact)
    (fixed : Option (List (Str × Rat))) (updates : List (Str × Num)) (r : SSRes)
    (h : m.steadyState nv close root minimize tol how fixed updates = .ok r) (hsu : r.success = true) :
    ∃ pd fs, m.parameters updates = .ok pd ∧ m.fixedSyms close (fixed.getD []) = .ok fs ∧
      ((∀ n, dget r.values n ≠ some none) → (∀ n, dget pd n ≠ some none) →
      ∀ R : RealPath, AtRest P.shocks R → f.DefinitionsHold R → f.ShiftsHold R → Carries m.ssEqs r.values pd R →
        (∀ b, f.IsModelBlock b → ∀ e ∈ b.stated, ∀ t : Int, |Gcn.writtenGap f e R t| ≤ 1 / 100000000) ∨
        ((Drv.solverFor root minimize how).solve (m.system fs).1 (m.system fs).2 pd).2 = true ∨
        ∀ b, f.IsModelBlock b → ∀ e ∈ b.stated, ∃ q ∈ m.ssEqs, (∀ R' : RealPath, AtRest P.shocks R' → f.DefinitionsHold R' → f.ShiftsHold R' → ∀ t : Int,
            q.eval (R'.val.symAt 0) = - Gcn.writtenGap f e R' t) ∧
          (StillUnknown (knownOf (dupdate m.ssSol (fs.map fun p => (p.1, SExpr.num p.2))) m.ssVars) m.ssVars q →
            ∀ t : Int, |Gcn.writtenGap f e R t| < tol)) := by
  obtain ⟨pd, fs, hp, hfs, key⟩ := C83_success_partial m nv close root minimize tol how hw hlin hx fixed updates r h
  refine ⟨pd, fs, hp, hfs, fun hn1 hn2 R hR hdef hsh hcar => ?_⟩
  let ρ : Sym → ℝ := fun s => ((valueAt r.values pd s).getD none).getD (R.val.symAt 0 s)
  have hρ : ∀ s x, valueAt r.values pd s = some x → x = some (ρ s) := by
    intro s x hx
    cases x with
    | none =>
      exfalso
      unfold valueAt at hx
      rw [Option.or_eq_some_iff] at hx
      rcases hx with hx | ⟨_, hx⟩
      · exact hn1 _ hx
      · exact hn2 _ hx
    | some v => simp only [ρ, hx]; rfl
  have hcong : ∀ e ∈ m.ssEqs, e.eval ρ = e.eval (R.val.symAt 0) := by
    intro e he
    refine SWr.eval_congr e fun s hs => ?_
    cases hv : valueAt r.values pd s with
    | none => simp only [ρ, hv]; rfl
    | some x =>
      have := hcar e he s hs x hv
      simp only [ρ, hv, this]; rfl
  have eqn := C133_equations text ts f P hs hf hl hd simp hsimp order ho
  rw [← hm] at eqn
  rcases key ρ hρ hsu with h1 | h1 | h1
  · refine .inl fun b hb e he t => ?_
    obtain ⟨q, hq, hv⟩ := eqn b hb e he
    have := h1 q (.inl hq)
    rwa [hcong q hq, hv R hR hdef hsh t, abs_neg] at this
  · exact .inr (.inl h1)
  · refine .inr (.inr fun b hb e he => ?_)
    obtain ⟨q, hq, hv⟩ := eqn b hb e he
    refine ⟨q, hq, hv, fun hu t => ?_⟩
    have := h1 q (.inl hq) hu
    rwa [hcong q hq, hv R hR hdef hsh t, abs_neg] at this

/-- **C133** when every variable has a known or a fixed value there is no other way to success: every equation of the file, as written,
holds at rest up to `1e-8` at every date. -/
theorem C133_known (text : List Char) (ts : List Tok) (f : Gcn.GFile) (P : Primitives) (hs : SpellsToks text ts) (hf : Gcn.IsFile ts f)
    (hl : Gcn.LoadGcn text P) (hd : f.DistinctNames)
    (simp : SExpr → SExpr) (hsimp : SameValues simp) (order : SExpr → List TSym) (ho : ∀ e s, s ∈ order e ↔ s ∈ e.tsyms)
    (hm : m.ssEqs = systemToSS simp order P.equations P.shocks) (hw : m.WF) (hlin : m.linear = false) (hx : nv.Exact)
    (fixed : Option (List (Str × Rat))) (updates : List (Str × Num)) (r : SSRes)
    (h : m.steadyState nv close root minimize tol how fixed updates = .ok r) (hc : m.calib = [] ∨ fixed = none ∧ m.vars ≠ [])
    (hall : ∀ v ∈ m.vars, Sym.tv (toSS v) ∈ dkeys m.ssSol ∨ ∃ f, fixed = some f ∧ ∃ n ∈ dkeys f, removeSuffixSS n = v.base) :
    ∃ pd, m.parameters updates = .ok pd ∧
      (r.success = true → ∀ R : RealPath, AtRest P.shocks R → f.DefinitionsHold R → f.ShiftsHold R →
        (∀ e ∈ m.ssEqs, ∀ s ∈ e.syms, valueAt r.values pd s = some (some (R.val.symAt 0 s))) →
        ∀ b, f.IsModelBlock b → ∀ e ∈ b.stated, ∀ t : Int, |Gcn.writtenGap f e R t| ≤ 1 / 100000000) := by
  obtain ⟨pd, hp, key⟩ := C83_known m nv close root minimize tol how hw hlin fixed updates r h hc hall
  refine ⟨pd, hp, fun hsu R hR hdef hsh hcar b hb e he t => ?_⟩
  have eqn := C133_equations text ts f P hs hf hl hd simp hsimp order ho b hb e he
  rw [← hm] at eqn
  obtain ⟨q, hq, hv⟩ := eqn
  obtain ⟨v, hv1, hv2⟩ := key.1 hsu q (.inl hq)
  have := hx q _ (R.val.symAt 0) v (fun s hs => by rw [hcar q hq s hs]; rfl) hv1
  rwa [this, hv R hR hdef hsh t, abs_neg] at hv2
end

namespace SWr
open Rsp

/-- exact arithmetic -/
noncomputable def exact : NumEval := fun e env =>
  open Classical in if ∀ s ∈ e.syms, (env s).isSome then some (e.eval fun s => (env s).getD 0) else none

theorem exact_exact : exact.Exact := by
  intro e env ρ x henv hx
  unfold exact at hx
  split at hx
  · rw [Option.some.injEq] at hx
    rw [← hx]
    exact eval_congr e fun s hs => by rw [henv s hs]; rfl
  · cases hx

/-- the steady state of the variable of the example -/
def exX : Sym := .tv (toSS rsX)
/-- its equation at the steady state -/
def exQ : SExpr := .add (.add (.add (.num 2) (.mul (.num (1/2)) (.sym exX))) (.mul (.num 0) (.sym exX))) (.mul (.num (-1)) (.sym exX))
/-- the model, with `x[ss] = 4` in its STEADY_STATE block -/
def exM : SSModel where
  vars := [rsX]
  shocks := [rsE]
  params := { free := [], det := [] }
  ssEqs := [exQ]
  ssSol := [(exX, .num 4)]

theorem ex_eqs : exM.ssEqs = systemToSS id SExpr.tsyms [rsQ] [rsE] := by decide +kernel

theorem ex_wf : exM.WF := ⟨by unfold SSModel.DistinctNames; decide, fun k hk => (by cases hk), by decide, by decide, by decide⟩

theorem ex_num : exact (.num 4) (fun _ => none) = some 4 := by
  unfold exact
  rw [if_pos (by simp [SExpr.syms])]
  simp [SExpr.eval]

theorem ex_resid (env : Sym → Num) (h : env exX = some 4) : exact exQ env = some 0 := by
  unfold exact
  rw [if_pos (by simp [exQ, SExpr.syms, h])]
  simp only [exQ, SExpr.eval, h, Option.getD_some, Option.some.injEq]
  norm_num

/-- the steady state is reported with success -/
theorem ex_runs (close root minimize tol how) :
    exM.steadyState exact close root minimize tol how none [] = .ok ⟨[("x_ss".toList, some 4)], true⟩ := by
  have hp : exM.parameters [] = .ok [] := by decide
  have hk : exM.known exact [] = .ok (some [(exX, some 4)]) := by
    have h0 : knownSS exM.ssSol (exM.vars.map Sym.tv) = some [(exX, .num 4)] := by decide +kernel
    unfold SSModel.known
    rw [h0]
    dsimp only
    rw [if_pos (by decide)]
    simp only [List.map_cons, List.map_nil, dget, Option.getD_none]
    rw [ex_num]
  have ht : exM.tryAnalytic exact [] (some [(exX, some 4)]) = .ok (some ⟨[("x_ss".toList, some 4)], true⟩) := by
    have hn : toNames [(exX, some (4 : ℝ))] = [("x_ss".toList, some 4)] := by
      unfold toNames
      rw [List.map_cons, List.map_nil, show symName exX = "x_ss".toList by decide]
      rfl
    unfold SSModel.tryAnalytic
    dsimp only
    rw [if_neg (by decide), hn]
    have hkw : kwMerge [("x_ss".toList, some (4 : ℝ))] [] = .ok [("x_ss".toList, some 4)] := by
      unfold kwMerge
      rw [if_neg (by simp [dkeys])]
      rfl
    rw [hkw]
    have hev : evalResid exact exM.equations [("x_ss".toList, some (4 : ℝ))] = .ok [some 0] := by
      have heq : exM.equations = [exQ] := by decide +kernel
      unfold evalResid
      rw [heq, if_neg (by simp), if_pos]
      · rw [List.map_cons, List.map_nil, ex_resid]
        rw [show symName exX = "x_ss".toList by decide]
        simp [dget]
      · simp only [List.all_cons, List.all_nil, Bool.and_true, List.all_eq_true, decide_eq_true_eq]
        intro s hs
        have : s = exX := by simpa [exQ, SExpr.syms] using hs
        rw [this, show symName exX = "x_ss".toList by decide]
        simp [dkeys]
    simp only [bind, Except.bind, hev, pure, Except.pure]
    simp [allClose]
  unfold SSModel.steadyState
  simp only [bind, Except.bind, hp, hk]
  rw [if_neg (by decide)]
  simp only [ht]

/-- the economy at rest at 4 -/
noncomputable def exR : RealPath := ⟨fun _ => 0, fun n _ _ => if n = rsX.base then 4 else 0, fun n _ => if n = rsX.base then 4 else 0⟩

theorem ex_rest : AtRest [rsE] exR := by
  refine ⟨fun _ _ _ _ => rfl, fun s hs => ?_⟩
  simp only [List.mem_singleton] at hs
  subst hs
  have : ¬ (rsE.base = rsX.base) := by decide
  exact ⟨fun t => if_neg (t := (4 : ℝ)) (e := 0) this, if_neg (t := (4 : ℝ)) (e := 0) this⟩

end SWr
open SWr Rsp

/-- the hypotheses are met: the file `x[] = 2 + 0.5*x[-1] + e[]*x[-1]` is read, its steady state 4 is reported with success, and the equation as
written holds when the economy rests there -/
example (close root minimize tol how) : ∃ P r, Gcn.LoadGcn rsText P ∧ exM.ssEqs = systemToSS id SExpr.tsyms P.equations P.shocks ∧
    exM.steadyState exact close root minimize tol how none [] = .ok r ∧ r.success = true ∧
    dget r.values "x_ss".toList = some (some 4) ∧ ∀ t : Int, |Gcn.writtenGap rsFile rsEq exR t| ≤ 1 / 100000000 := by
  obtain ⟨P, hl, h1, h2, h3⟩ := rs_load
  have hr := ex_runs close root minimize tol how
  have he : exM.ssEqs = systemToSS id SExpr.tsyms P.equations P.shocks := by rw [h1, h3]; exact ex_eqs
  refine ⟨P, _, hl, he, hr, rfl, rfl, fun t => ?_⟩
  obtain ⟨pd, hp, key⟩ := C133_known rsText rsToks rsFile P rs_spells rs_file hl (by simp [Gcn.GFile.DistinctNames, rsFile])
    id (fun _ _ _ => rfl) SExpr.tsyms (fun _ _ => Iff.rfl) he ex_wf rfl exact_exact none [] _ hr (.inl rfl)
    (fun v hv => .inl (by
      have : v = rsX := by simpa [exM] using hv
      subst this
      simp [exM, exX, dkeys]))
  refine key rfl exR (by rw [h3]; exact ex_rest) ?_ ?_ ?_ rsBlock rs_model rsEq (by simp [Gcn.GBlock.stated, rsBlock]) t
  · intro b hb e he
    cases rs_block b hb
    cases he
  · exact rs_shifts _
  · intro e he s hs
    have : e = exQ := by simpa [exM] using he
    subst this
    have : s = exX := by simpa [exQ, SExpr.syms] using hs
    subst this
    unfold valueAt
    rw [show symName exX = "x_ss".toList by decide]
    have : exR.val.symAt 0 exX = 4 := if_pos (c := rsX.base = rsX.base) (t := (4 : ℝ)) (e := 0) rfl
    rw [this]
    simp [dget]

/-- deeper lags: in the file `Y[] = K[-3] + g; K[] = 2`, the economy resting at income 7, capital 2 (and its auxiliary lags 2), `g = 5`: the first
equation holds as written and its steady-state form is zero -/
example : ∃ P, Gcn.LoadGcn Pip.exText P ∧ ∃ q ∈ systemToSS id SExpr.tsyms P.equations P.shocks, ∃ R : RealPath, AtRest P.shocks R ∧
    Pip.exFile.ShiftsHold R ∧ R.path "Y".toList = (fun _ _ => 7) ∧ q.eval (R.val.symAt 0) = 0 := by
  have hload : ∃ P, Gcn.LoadGcn Pip.exText P ∧ P.shocks = [] := by
    obtain ⟨P, h1, h2⟩ := Ldr.loaded Pip.exFile.toMdl (fun P => P.shocks) [] (by decide +kernel)
    exact ⟨P, ⟨Pip.exFile, (C107_parse _ _).2 ⟨_, Pip.ex_spells, Pip.ex_file⟩, h1⟩, h2⟩
  obtain ⟨P, hl, hsh⟩ := hload
  obtain ⟨q, hq, hv⟩ := C133_equations Pip.exText Pip.exToks Pip.exFile P Pip.ex_spells Pip.ex_file hl
    (by simp [Gcn.GFile.DistinctNames, Pip.exFile]) id (fun _ _ _ => rfl) SExpr.tsyms (fun _ _ => Iff.rfl) Pip.exBlock Pip.ex_model
    _ (List.mem_append_left _ (List.mem_append_left _ (List.mem_cons_self ..)))
  let R : RealPath := ⟨fun _ => 5, fun n _ _ => if n = "Y".toList then 7 else 2, fun n _ => if n = "Y".toList then 7 else 2⟩
  have hR : AtRest P.shocks R := ⟨fun _ _ _ _ => rfl, fun s hs => by rw [hsh] at hs; cases hs⟩
  have hp : ∀ n, n ≠ "Y".toList → ∀ t, pathOf Pip.exFile.assumptions R n t = 2 := fun n hn t => if_neg (t := (7 : ℝ)) (e := 2) hn
  have h1 : R.path "Y".toList = fun _ _ => 7 := by funext _ _; exact if_pos (c := "Y".toList = "Y".toList) (t := (7 : ℝ)) (e := 2) rfl
  have h2 : R.path "K".toList = fun _ _ => 2 := by
    funext _ _; exact if_neg (c := "K".toList = "Y".toList) (t := (7 : ℝ)) (e := 2) (by decide)
  have hS : Pip.exFile.ShiftsHold R := by
    intro b hb e he n K hK
    have hlen : ∀ (m : Str) (k : Str), 0 < m.length → n.length = 1 → (n ++ m ++ k) ≠ "Y".toList := by
      intro m k h0 h1 h
      have := congrArg List.length h
      simp only [List.length_append] at this
      have h2 : "Y".toList.length = 1 := rfl
      omega
    have hnk : ∀ s : TIdx, (n, s) ∈ e.vars → s ≠ .t 0 → n = "K".toList := by
      intro s h hs
      cases Pip.ex_block b hb
      simp only [Pip.exBlock, List.nil_append, List.mem_cons, List.not_mem_nil, or_false] at he
      rcases he with rfl | rfl
      · simp only [Eqn.vars, Expr.vars, List.append_nil, List.mem_append, List.mem_singleton, Prod.mk.injEq] at h
        rcases h with h | h
        · exact absurd h.2 hs
        · exact h.1
      · simp only [Eqn.vars, Expr.vars, List.append_nil, List.mem_singleton, Prod.mk.injEq] at h
        exact h.1
    refine ⟨fun h t => ?_, fun h t => ?_⟩
    · have := hnk _ h (by simp; omega)
      subst this
      rw [hp _ (hlen _ _ (by decide) rfl), hp _ (by decide)]
    · have := hnk _ h (by simp; omega)
      subst this
      rw [hp _ (hlen _ _ (by decide) rfl), hp _ (by decide)]
  refine ⟨P, hl, q, hq, R, hR, hS, h1, ?_⟩
  · rw [hv R hR (fun b hb e he => by cases Pip.ex_block b hb; simp [Pip.exBlock] at he) hS 0]
    simp only [Gcn.writtenGap, Expr.eval, realInterp, pathOf, h1, h2]
    simp only [R]
    norm_num

end GE
