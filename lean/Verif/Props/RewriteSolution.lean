import Verif.Props.RewriteDefault
import Verif.Props.WritingOrder
import Verif.Props.Responses
/-! # C148: a file with its blocks in another order has the same linear solution -/

namespace GE
namespace Lyt
open Gcn Pip Ldr FCal

/-- a text loads as one model only -/
theorem load_unique {text : List Char} {P P' : Primitives} (h : LoadGcn text P) (h' : LoadGcn text P') : P = P' := by
  obtain ⟨m, h1, h2⟩ := h
  obtain ⟨m', h1', h2'⟩ := h'
  cases C107_unique text m m' h1 h1'
  rw [h2] at h2'
  exact Except.ok.inj h2'

/-- no two shocks of a loaded model share a name -/
theorem shock_names {text ts m P} (hs : SpellsToks text ts) (hf : IsFile ts m) (hl : LoadGcn text P) (hn : m.DistinctNames) :
    (P.shocks.map TSym.base).Nodup := by
  obtain ⟨_, _, _, _, _, _, _, hm, _⟩ := load_ok (load_text hs hf hl hn).1
  obtain ⟨_, _, _, hnd, _⟩ := C52_merge ((P.blocks.map Prod.snd).map fun b => (b.variables, b.block.shocks.getD [])) ⟨[], .t 0, mergeAssumptions none⟩
  rw [← hm] at hnd
  have k := C120_shocks text ts m P hs hf hl hn
  refine hnd.map_on fun a hA b hB e => ?_
  obtain ⟨_, _, v, _, rfl⟩ := (k a).1 hA
  obtain ⟨_, _, w, _, rfl⟩ := (k b).1 hB
  simp only at e
  rw [e]

/-- `load_gcn_file` makes one model of a text only -/
theorem file_unique {ops : SimpOps} {text : List Char} {P P' : Primitives} {el el' : List (TSym × SExpr)} (h : LoadGcnFile ops text P el)
    (h' : LoadGcnFile ops text P' el') : P = P' := by
  obtain ⟨m, h1, h2⟩ := h
  obtain ⟨m', h1', h2'⟩ := h'
  cases C107_unique text m m' h1 h1'
  rw [h2] at h2'
  exact congrArg Prod.fst (Except.ok.inj h2')

/-- no two of its shocks share a name either -/
theorem file_shock_names {ops text ts m P el} (hs : SpellsToks text ts) (hf : IsFile ts m) (hl : LoadGcnFile ops text P el) (hn : m.DistinctNames) :
    (P.shocks.map TSym.base).Nodup := by
  have hpm : ParseGcn text m := (C107_parse _ _).2 ⟨ts, hs, hf⟩
  obtain ⟨m0, h0, h⟩ := hl
  cases C107_unique text m m0 hpm h0
  obtain ⟨P0, _, g1, _, _, _, _, g6, _⟩ := LSm.load_simp h
  rw [g6]
  exact shock_names hs hf ⟨m, hpm, g1⟩ hn

end Lyt
open Lyt Gcn Pip Ldr FCal

/-- **C148**: and so does the linear solution. Two files with the same blocks in different orders: whenever `solve_model(solver="gensys")` solves
both models at the same parameters and steady state, the policy matrices agree entry by entry, looked up by variable and shock name -/
theorem C148_solution (text text' : List Char) (ts ts' : List Tok) (m m' : GFile) (P P' : Primitives) (hs : SpellsToks text ts)
    (hf : IsFile ts m) (hl : LoadGcn text P) (hn : m.DistinctNames) (hpar : m.ParametersOnly) (hone : m.OneSteady)
    (hs' : SpellsToks text' ts') (hf' : IsFile ts' m') (hl' : LoadGcn text' P') (ha : m.assumptions = m'.assumptions)
    (htr : m.tryreduce = m'.tryreduce) (hp : m.blocks.Perm m'.blocks)
    (hnd : (P.variables.map TSym.base).Nodup) (hsq : P.equations.length = P.variables.length)
    (loglin loglin' : List TSym) (hll : loglin'.Perm loglin) (par : Str → ℝ) (ss : List (Str × ℝ))
    (hss : ∀ v ∈ P.variables, (dget (normalizeConditions ss) v.base).isSome) (tol : ℝ) (h0 : 0 < tol)
    (gen : GenOracle P.variables.length tol) (gen' : GenOracle P'.variables.length tol) (b b' : Bool) (maxIter maxIter' : ℕ) (fl fl' : Str)
    (hclean : ∀ M, linearMats P.variables P.equations P.shocks loglin par ss = some M → CleanLeads M.C tol)
    {T : Mat P.variables.length P.variables.length} {R : Mat P.variables.length P.shocks.length}
    {T' : Mat P'.variables.length P'.variables.length} {R' : Mat P'.variables.length P'.shocks.length}
    (h : solveModel (some (ss, b)) (linearMats P.variables P.equations P.shocks loglin par) tol gen maxIter false "gensys".toList fl = .ok (some (T, R)))
    (h' : solveModel (some (ss, b')) (linearMats P'.variables P'.equations P'.shocks loglin' par) tol gen' maxIter' false "gensys".toList fl' =
      .ok (some (T', R'))) :
    SameByName (fun i => P.variables[i].base) (fun i => P'.variables[i].base) (fun i => P.variables[i].base) (fun i => P'.variables[i].base) T T' ∧
    SameByName (fun i => P.variables[i].base) (fun i => P'.variables[i].base) (fun i => P.shocks[i].base) (fun i => P'.shocks[i].base) R R' := by
  obtain ⟨Q, q1, _, q2, q3, q4, _⟩ := C148_order text text' ts ts' m m' P hs hf hl hn hpar hone hs' hf' ha htr hp
  cases load_unique q1 hl'
  exact C140_solution P.variables P'.variables P.equations P'.equations P.shocks P'.shocks loglin loglin' par ss q3.symm q2.symm
    (by rw [q4]) hll hnd (shock_names hs hf hl hn) hsq hss tol h0 gen gen' b b' maxIter maxIter' fl fl' hclean h h'

/-- **C148**: the other two solvers even fail alike -/
theorem C148_other_solvers (text text' : List Char) (ts ts' : List Tok) (m m' : GFile) (P P' : Primitives) (hs : SpellsToks text ts)
    (hf : IsFile ts m) (hl : LoadGcn text P) (hn : m.DistinctNames) (hpar : m.ParametersOnly) (hone : m.OneSteady)
    (hs' : SpellsToks text' ts') (hf' : IsFile ts' m') (hl' : LoadGcn text' P') (ha : m.assumptions = m'.assumptions)
    (htr : m.tryreduce = m'.tryreduce) (hp : m.blocks.Perm m'.blocks)
    (hnd : (P.variables.map TSym.base).Nodup) (hsq : P.equations.length = P.variables.length)
    (loglin loglin' : List TSym) (hll : loglin'.Perm loglin) (par : Str → ℝ) (ss : List (Str × ℝ))
    (hss : ∀ v ∈ P.variables, (dget (normalizeConditions ss) v.base).isSome) (tol : ℝ)
    (gen : GenOracle P.variables.length tol) (gen' : GenOracle P'.variables.length tol) (b b' backward : Bool) (maxIter : ℕ) (solver fl : Str)
    (hsol : backward = true ∨ solver ≠ "gensys".toList) :
    (∀ e, solveModel (some (ss, b)) (linearMats P.variables P.equations P.shocks loglin par) tol gen maxIter backward solver fl = .error e ↔
      solveModel (some (ss, b')) (linearMats P'.variables P'.equations P'.shocks loglin' par) tol gen' maxIter backward solver fl = .error e) ∧
    ∀ r r', solveModel (some (ss, b)) (linearMats P.variables P.equations P.shocks loglin par) tol gen maxIter backward solver fl = .ok r →
      solveModel (some (ss, b')) (linearMats P'.variables P'.equations P'.shocks loglin' par) tol gen' maxIter backward solver fl = .ok r' →
      (r = none ↔ r' = none) ∧ ∀ T R T' R', r = some (T, R) → r' = some (T', R') →
        SameByName (fun i => P.variables[i].base) (fun i => P'.variables[i].base) (fun i => P.variables[i].base) (fun i => P'.variables[i].base) T T' ∧
        SameByName (fun i => P.variables[i].base) (fun i => P'.variables[i].base) (fun i => P.shocks[i].base) (fun i => P'.shocks[i].base) R R' := by
  obtain ⟨Q, q1, _, q2, q3, q4, _⟩ := C148_order text text' ts ts' m m' P hs hf hl hn hpar hone hs' hf' ha htr hp
  cases load_unique q1 hl'
  exact C140_other_solvers P.variables P'.variables P.equations P'.equations P.shocks P'.shocks loglin loglin' par ss q3.symm q2.symm
    (by rw [q4]) hll hnd (shock_names hs hf hl hn) hsq hss tol gen gen' b b' backward maxIter solver fl hsol

/-- **C148**: the same of the models `load_gcn_file` makes -/
theorem C148_default_solution (ops : SimpOps) (text text' : List Char) (ts ts' : List Tok) (m m' : GFile) (P P' : Primitives)
    (el el' : List (TSym × SExpr)) (hs : SpellsToks text ts) (hf : IsFile ts m) (hl : LoadGcnFile ops text P el) (hn : m.DistinctNames)
    (hpar : m.ParametersOnly) (hone : m.OneSteady) (hs' : SpellsToks text' ts') (hf' : IsFile ts' m') (hl' : LoadGcnFile ops text' P' el')
    (ha : m.assumptions = m'.assumptions) (htr : m.tryreduce = m'.tryreduce) (hp : m.blocks.Perm m'.blocks)
    (hnd : (P.variables.map TSym.base).Nodup) (hsq : P.equations.length = P.variables.length)
    (loglin loglin' : List TSym) (hll : loglin'.Perm loglin) (par : Str → ℝ) (ss : List (Str × ℝ))
    (hss : ∀ v ∈ P.variables, (dget (normalizeConditions ss) v.base).isSome) (tol : ℝ) (h0 : 0 < tol)
    (gen : GenOracle P.variables.length tol) (gen' : GenOracle P'.variables.length tol) (b b' : Bool) (maxIter maxIter' : ℕ) (fl fl' : Str)
    (hclean : ∀ M, linearMats P.variables P.equations P.shocks loglin par ss = some M → CleanLeads M.C tol)
    {T : Mat P.variables.length P.variables.length} {R : Mat P.variables.length P.shocks.length}
    {T' : Mat P'.variables.length P'.variables.length} {R' : Mat P'.variables.length P'.shocks.length}
    (h : solveModel (some (ss, b)) (linearMats P.variables P.equations P.shocks loglin par) tol gen maxIter false "gensys".toList fl = .ok (some (T, R)))
    (h' : solveModel (some (ss, b')) (linearMats P'.variables P'.equations P'.shocks loglin' par) tol gen' maxIter' false "gensys".toList fl' =
      .ok (some (T', R'))) :
    SameByName (fun i => P.variables[i].base) (fun i => P'.variables[i].base) (fun i => P.variables[i].base) (fun i => P'.variables[i].base) T T' ∧
    SameByName (fun i => P.variables[i].base) (fun i => P'.variables[i].base) (fun i => P.shocks[i].base) (fun i => P'.shocks[i].base) R R' := by
  obtain ⟨Q, eq, q1, _, q2, _, q3, q4, _⟩ := C148_default ops text text' ts ts' m m' P el hs hf hl hn hpar hone hs' hf' ha htr hp
  cases file_unique q1 hl'
  exact C140_solution P.variables P'.variables P.equations P'.equations P.shocks P'.shocks loglin loglin' par ss q3.symm q2.symm
    (by rw [q4]) hll hnd (file_shock_names hs hf hl hn) hsq hss tol h0 gen gen' b b' maxIter maxIter' fl fl' hclean h h'

/-- **C148**: and here too the other two solvers even fail alike -/
theorem C148_default_other_solvers (ops : SimpOps) (text text' : List Char) (ts ts' : List Tok) (m m' : GFile) (P P' : Primitives) (el el' : List (TSym × SExpr)) (hs : SpellsToks text ts)
    (hf : IsFile ts m) (hl : LoadGcnFile ops text P el) (hn : m.DistinctNames) (hpar : m.ParametersOnly) (hone : m.OneSteady)
    (hs' : SpellsToks text' ts') (hf' : IsFile ts' m') (hl' : LoadGcnFile ops text' P' el') (ha : m.assumptions = m'.assumptions)
    (htr : m.tryreduce = m'.tryreduce) (hp : m.blocks.Perm m'.blocks)
    (hnd : (P.variables.map TSym.base).Nodup) (hsq : P.equations.length = P.variables.length)
    (loglin loglin' : List TSym) (hll : loglin'.Perm loglin) (par : Str → ℝ) (ss : List (Str × ℝ))
    (hss : ∀ v ∈ P.variables, (dget (normalizeConditions ss) v.base).isSome) (tol : ℝ)
    (gen : GenOracle P.variables.length tol) (gen' : GenOracle P'.variables.length tol) (b b' backward : Bool) (maxIter : ℕ) (solver fl : Str)
    (hsol : backward = true ∨ solver ≠ "gensys".toList) :
    (∀ e, solveModel (some (ss, b)) (linearMats P.variables P.equations P.shocks loglin par) tol gen maxIter backward solver fl = .error e ↔
      solveModel (some (ss, b')) (linearMats P'.variables P'.equations P'.shocks loglin' par) tol gen' maxIter backward solver fl = .error e) ∧
    ∀ r r', solveModel (some (ss, b)) (linearMats P.variables P.equations P.shocks loglin par) tol gen maxIter backward solver fl = .ok r →
      solveModel (some (ss, b')) (linearMats P'.variables P'.equations P'.shocks loglin' par) tol gen' maxIter backward solver fl = .ok r' →
      (r = none ↔ r' = none) ∧ ∀ T R T' R', r = some (T, R) → r' = some (T', R') →
        SameByName (fun i => P.variables[i].base) (fun i => P'.variables[i].base) (fun i => P.variables[i].base) (fun i => P'.variables[i].base) T T' ∧
        SameByName (fun i => P.variables[i].base) (fun i => P'.variables[i].base) (fun i => P.shocks[i].base) (fun i => P'.shocks[i].base) R R' := by
  obtain ⟨Q, eq, q1, _, q2, _, q3, q4, _⟩ := C148_default ops text text' ts ts' m m' P el hs hf hl hn hpar hone hs' hf' ha htr hp
  cases file_unique q1 hl'
  exact C140_other_solvers P.variables P'.variables P.equations P'.equations P.shocks P'.shocks loglin loglin' par ss q3.symm q2.symm
    (by rw [q4]) hll hnd (file_shock_names hs hf hl hn) hsq hss tol gen gen' b b' backward maxIter solver fl hsol

/-! ## the hypotheses are met -/

namespace Lyt
open Rsp

/-- the file `rsText`, its shock in a block of its own -/
def lawShockText : List Char := "block A { identities { x[] = 2 + 0.5*x[-1] + e[]*x[-1]; }; }; block S { shocks { e[]; }; };".toList
/-- and the two blocks the other way around -/
def shockLawText : List Char := "block S { shocks { e[]; }; };\nblock A { identities { x[] = 2 + 0.5*x[-1] + e[]*x[-1]; }; };".toList
/-- the tokens of the first block -/
def lawToks : List Tok := [.id "block".toList, .id "A".toList, .lbrace, .id "identities".toList, .lbrace, .id "x".toList, .tix (.t 0), .eq, .num 2, .op .add,
  .num (1/2), .op .mul, .id "x".toList, .tix (.t (-1)), .op .add, .id "e".toList, .tix (.t 0), .op .mul, .id "x".toList, .tix (.t (-1)), .semi, .rbrace, .semi,
  .rbrace, .semi]
/-- the tokens of the second -/
def shockToks : List Tok := [.id "block".toList, .id "S".toList, .lbrace, .id "shocks".toList, .lbrace, .id "e".toList, .tix (.t 0), .semi, .rbrace, .semi, .rbrace, .semi]
/-- the first block -/
def lawBlock : GBlock where
  name := "A".toList
  identities := [rsEq]
/-- the second -/
def shockBlock : GBlock where
  name := "S".toList
  shocks := [⟨"e".toList, .t 0⟩]
def lawShock : GFile := { blocks := [lawBlock, shockBlock] }
def shockLaw : GFile := { blocks := [shockBlock, lawBlock] }

theorem ls_spells : SpellsToks lawShockText (lawToks ++ shockToks) := (C106_reading _ _).1 (by decide +kernel)
theorem sl_spells : SpellsToks shockLawText (shockToks ++ lawToks) := (C106_reading _ _).1 (by decide +kernel)
theorem ls_file : IsFile (lawToks ++ shockToks) lawShock := (C107_grammar _ _).1 ⟨30, rfl⟩
theorem sl_file : IsFile (shockToks ++ lawToks) shockLaw := (C107_grammar _ _).1 ⟨30, rfl⟩
theorem ls_load : ∃ P, LoadGcn lawShockText P ∧ P.equations = [rsQ] ∧ P.variables = [rsX] ∧ P.shocks = [rsE] := by
  obtain ⟨P, h1, h2⟩ := Ldr.loaded lawShock.toMdl (fun P => (P.equations, P.variables, P.shocks)) ([rsQ], [rsX], [rsE]) (by decide +kernel)
  exact ⟨P, ⟨lawShock, (C107_parse _ _).2 ⟨_, ls_spells, ls_file⟩, h1⟩, congrArg Prod.fst h2, congrArg (fun p => p.2.1) h2, congrArg (fun p => p.2.2) h2⟩
theorem sl_load : ∃ P, LoadGcn shockLawText P ∧ P.equations = [rsQ] ∧ P.variables = [rsX] ∧ P.shocks = [rsE] := by
  obtain ⟨P, h1, h2⟩ := Ldr.loaded shockLaw.toMdl (fun P => (P.equations, P.variables, P.shocks)) ([rsQ], [rsX], [rsE]) (by decide +kernel)
  exact ⟨P, ⟨shockLaw, (C107_parse _ _).2 ⟨_, sl_spells, sl_file⟩, h1⟩, congrArg Prod.fst h2, congrArg (fun p => p.2.1) h2, congrArg (fun p => p.2.2) h2⟩

theorem ls_names : lawShock.DistinctNames := by simp [GFile.DistinctNames, lawShock, lawBlock, shockBlock]
theorem ls_blocks {b : GBlock} (h : b ∈ lawShock.blocks) : b = lawBlock ∨ b = shockBlock := by simpa [lawShock] using h
theorem ls_pars : lawShock.ParametersOnly := by
  intro b hb e he _
  rcases ls_blocks hb.1 with rfl | rfl <;> simp [lawBlock, shockBlock] at he
theorem ls_steady : lawShock.OneSteady := by
  intro b hb c _ h
  exfalso
  have : isSSName b.name = true := (C54_ss_names _).2 h
  rcases ls_blocks hb with rfl | rfl <;> revert this <;> decide

theorem rs_mats_all : ∃ m, linearMats [rsX] [rsQ] [rsE] [] (fun _ => 0) rsSS = some m ∧ (∀ i j, m.A i j = 1 / 2) ∧ (∀ i j, m.B i j = -1) ∧ m.C = 0 := by
  obtain ⟨m, hm, hB, hC⟩ := rs_mats
  refine ⟨m, hm, ?_, hB, hC⟩
  have e := hm
  rw [linearMats, Ptb.linearizeModel_eq _ _ _ _ _ (evalAt fun _ => 0) rs_named.varNames (by simp [rs_ss])] at e
  intro i j
  rw [← Option.some.inj e]
  have hi : (i : ℕ) = 0 := by exact Nat.lt_one_iff.1 i.isLt
  have hj : (j : ℕ) = 0 := by exact Nat.lt_one_iff.1 j.isLt
  simp only [matsOf, Matrix.of_apply, entryAt, hi, hj, List.map_cons, List.map_nil, List.getElem?_cons_zero, Option.bind_some, Option.getD_some, rs_entry]
  rw [if_pos (by decide), if_neg (by decide), if_neg (by decide)]
  simp [promisedScale]

theorem rs_gensys : ∃ gen T R, solveModel (some (rsSS, true)) (linearMats [rsX] [rsQ] [rsE] [] fun _ => 0) (1 / 100) gen 5 false
    "gensys".toList "error".toList = .ok (some (T, R)) := by
  classical
  obtain ⟨m, hm, hA, hB, hC⟩ := rs_mats_all
  obtain ⟨o, T, R, ho⟩ := WOr.diag_solved (fun _ => 1 / 2) (A := m.A) (B := m.B) (C := m.C)
    (by ext i j; rw [hA, Subsingleton.elim (α := Fin 1) i j, Matrix.diagonal_apply_eq])
    (by ext i j; rw [hB, Subsingleton.elim (α := Fin 1) i j, Matrix.neg_apply, Matrix.one_apply_eq]) hC
    (fun _ => by rw [abs_of_pos (by norm_num)]; norm_num) (tol := 1 / 100) (by norm_num) (by norm_num) m.D true
  refine ⟨fun A B C => if h : A = m.A ∧ B = m.B ∧ C = m.C then some (by rw [h.1, h.2.1, h.2.2]; exact o) else none, T, R, ?_⟩
  unfold solveModel
  rw [if_neg (by simp)]
  dsimp only
  rw [hm]
  dsimp only
  unfold solveLinear
  simp [ho]

end Lyt
open Rsp

/-- the hypotheses of `C148_solution` are met: the file of C130, its shock declared in a block of its own after or before the law of motion,
is solved by gensys either way, and the policy matrices agree -/
example : ∃ (P P' : Primitives) (gen : GenOracle P.variables.length (1 / 100)) (gen' : GenOracle P'.variables.length (1 / 100))
    (T : Mat P.variables.length P.variables.length) (R : Mat P.variables.length P.shocks.length)
    (T' : Mat P'.variables.length P'.variables.length) (R' : Mat P'.variables.length P'.shocks.length),
    LoadGcn lawShockText P ∧ LoadGcn shockLawText P' ∧
    solveModel (some (rsSS, true)) (linearMats P.variables P.equations P.shocks [] fun _ => 0) (1 / 100) gen 5 false "gensys".toList "error".toList = .ok (some (T, R)) ∧
    solveModel (some (rsSS, true)) (linearMats P'.variables P'.equations P'.shocks [] fun _ => 0) (1 / 100) gen' 5 false "gensys".toList "error".toList = .ok (some (T', R')) ∧
    SameByName (fun i => P.variables[i].base) (fun i => P'.variables[i].base) (fun i => P.shocks[i].base) (fun i => P'.shocks[i].base) R R' := by
  obtain ⟨P, hl, h1, h2, h3⟩ := ls_load
  obtain ⟨P', hl', h1', h2', h3'⟩ := sl_load
  obtain ⟨eqs, vars, shs, p4, p5, p6, p7, p8, p9⟩ := P
  obtain ⟨eqs', vars', shs', p4', p5', p6', p7', p8', p9'⟩ := P'
  simp only at h1 h2 h3 h1' h2' h3'
  subst h1 h2 h3 h1' h2' h3'
  obtain ⟨gen, T, R, h⟩ := rs_gensys
  refine ⟨_, _, gen, gen, T, R, T, R, hl, hl', h, h, ?_⟩
  refine (C148_solution lawShockText shockLawText _ _ lawShock shockLaw _ _ ls_spells ls_file hl ls_names ls_pars ls_steady sl_spells sl_file hl' rfl rfl
    (List.Perm.swap _ _ _) (by simp) rfl [] [] (List.Perm.refl _) (fun _ => 0) rsSS (by simp [rs_ss]) (1 / 100) (by norm_num) gen gen true true 5 5 _ _
    (fun M hM => ?_) h h).2
  obtain ⟨M', hM', -, -, hC⟩ := rs_mats_all
  have : M = M' := Option.some.inj (hM.symm.trans hM')
  subst this
  intro j _ i
  rw [hC]; rfl

namespace Lyt
open Rsp

theorem ls_loadS : ∃ P el, LoadGcnFile LSm.exOps lawShockText P el ∧ P.equations = [rsQ] ∧ P.variables = [rsX] ∧ P.shocks = [rsE] := by
  obtain ⟨⟨P, el⟩, h1, h2⟩ := LSm.loadedS lawShock.toMdl (fun x => (x.1.equations, x.1.variables, x.1.shocks)) ([rsQ], [rsX], [rsE]) (by decide +kernel)
  exact ⟨P, el, ⟨lawShock, (C107_parse _ _).2 ⟨_, ls_spells, ls_file⟩, h1⟩, congrArg Prod.fst h2, congrArg (fun p => p.2.1) h2, congrArg (fun p => p.2.2) h2⟩
theorem sl_loadS : ∃ P el, LoadGcnFile LSm.exOps shockLawText P el ∧ P.equations = [rsQ] ∧ P.variables = [rsX] ∧ P.shocks = [rsE] := by
  obtain ⟨⟨P, el⟩, h1, h2⟩ := LSm.loadedS shockLaw.toMdl (fun x => (x.1.equations, x.1.variables, x.1.shocks)) ([rsQ], [rsX], [rsE]) (by decide +kernel)
  exact ⟨P, el, ⟨shockLaw, (C107_parse _ _).2 ⟨_, sl_spells, sl_file⟩, h1⟩, congrArg Prod.fst h2, congrArg (fun p => p.2.1) h2, congrArg (fun p => p.2.2) h2⟩

end Lyt
open Lyt Rsp

/-- the same two files, loaded by `load_gcn_file` and solved: `C148_default_solution` applies -/
example : ∃ (P P' : Primitives) (el el' : List (TSym × SExpr)) (gen : GenOracle P.variables.length (1 / 100)) (gen' : GenOracle P'.variables.length (1 / 100))
    (T : Mat P.variables.length P.variables.length) (R : Mat P.variables.length P.shocks.length)
    (T' : Mat P'.variables.length P'.variables.length) (R' : Mat P'.variables.length P'.shocks.length),
    LoadGcnFile LSm.exOps lawShockText P el ∧ LoadGcnFile LSm.exOps shockLawText P' el' ∧
    solveModel (some (rsSS, true)) (linearMats P.variables P.equations P.shocks [] fun _ => 0) (1 / 100) gen 5 false "gensys".toList "error".toList = .ok (some (T, R)) ∧
    solveModel (some (rsSS, true)) (linearMats P'.variables P'.equations P'.shocks [] fun _ => 0) (1 / 100) gen' 5 false "gensys".toList "error".toList = .ok (some (T', R')) ∧
    SameByName (fun i => P.variables[i].base) (fun i => P'.variables[i].base) (fun i => P.shocks[i].base) (fun i => P'.shocks[i].base) R R' := by
  obtain ⟨P, el, hl, h1, h2, h3⟩ := ls_loadS
  obtain ⟨P', el', hl', h1', h2', h3'⟩ := sl_loadS
  obtain ⟨eqs, vars, shs, p4, p5, p6, p7, p8, p9⟩ := P
  obtain ⟨eqs', vars', shs', p4', p5', p6', p7', p8', p9'⟩ := P'
  simp only at h1 h2 h3 h1' h2' h3'
  subst h1 h2 h3 h1' h2' h3'
  obtain ⟨gen, T, R, h⟩ := rs_gensys
  refine ⟨_, _, el, el', gen, gen, T, R, T, R, hl, hl', h, h, ?_⟩
  refine (C148_default_solution LSm.exOps lawShockText shockLawText _ _ lawShock shockLaw _ _ el el' ls_spells ls_file hl ls_names ls_pars ls_steady sl_spells
    sl_file hl' rfl rfl (List.Perm.swap _ _ _) (by simp) rfl [] [] (List.Perm.refl _) (fun _ => 0) rsSS (by simp [rs_ss]) (1 / 100) (by norm_num) gen gen
    true true 5 5 _ _ (fun M hM => ?_) h h).2
  obtain ⟨M', hM', -, -, hC⟩ := rs_mats_all
  have : M = M' := Option.some.inj (hM.symm.trans hM')
  subst this
  intro j _ i
  rw [hC]; rfl

end GE
