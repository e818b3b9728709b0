import Verif.Props.DynareBlocks
import Verif.Props.Responses
/-!
# C135: from the text of a GCN file to the text of a Dynare file

The chain: the text is read (`Model/Lexer.lean`, `Model/Grammar.lean`), the blocks become equations (`Model/Loader.lean`), the equations are
printed as a Dynare model block (`Model/Dynare.lean`), Dynare reads the block (`Model/DynareGrammar.lean`).
-/

namespace GE
open Dyn

/-! ## specification -/

/-- the values of the variables as seen from date `t` of the path -/
def RealPath.seen (R : RealPath) (t : Int) (s : TSym) : ℝ :=
  match s.idx with
  | .t k => R.path s.base s.asm (t + k)
  | .ss => R.ss s.base s.asm

/-- the exported equation is the loaded one as sympy holds it: both are worth the same at every date of the path -/
def SameOn (F : Funs) (R : RealPath) (q : SExpr) (e : DE) : Prop := ∀ t, e.val F (R.seen t) R.par = q.val R t

/-- the values Dynare has for the declared names are those of the path; `declared n u` is the value of `n` at date `u` -/
structure SameNames (R : RealPath) (declared : Str → Int → ℝ) (m : ModelView) : Prop where
  dated : ∀ e ∈ m.equations, ∀ s, Sum.inl s ∈ e.syms → s.idx ≠ .ss → ∀ u, declared s.base u = R.path s.base s.asm u
  parameters : ∀ e ∈ m.equations, ∀ p, Sum.inr p ∈ e.syms → ∀ u, declared p u = R.par p
  /-- no variable or parameter is called `x_ss`, with `x[ss]` in the equations -/
  noclash : ∀ e ∈ m.equations, ∀ x ∈ e.syms, isSteady x = false → ∀ s ∈ findSS m, (dynName x).1 ≠ ssName s
  /-- a steady state symbol has one set of assumptions -/
  one : ∀ s ∈ findSS m, ∀ s' ∈ findSS m, s.base = s'.base → s = s'

/-- the steady state values the equations mention all have closed forms in the parameters, worth the path's steady state -/
structure ClosedForms (F : Funs) (R : RealPath) (declared : Str → Int → ℝ) (m : ModelView) : Prop where
  all : ∀ s ∈ findSS m, ∃ e, (s, e) ∈ m.ssRel
  form : ∀ s e, (s, e) ∈ m.ssRel → s ∈ findSS m → e.Canon ∧ (∀ t, e.RealPowers F (R.seen t) R.par ∧ e.val F (R.seen t) R.par = R.ss s.base s.asm) ∧
    ∀ x ∈ e.syms, ∃ p, x = .inr p ∧ (∀ u, declared p u = R.par p) ∧ ∀ s' ∈ findSS m, p ≠ ssName s'

/-- one of them has none; the numerical steady state has all of them -/
structure Numbers (R : RealPath) (m : ModelView) : Prop where
  some : ∃ s ∈ findSS m, ∀ e, (s, e) ∉ m.ssRel
  all : ∀ s ∈ findSS m, ∃ v, (.inl s, v) ∈ m.steady
  value : ∀ s v, (.inl s, v) ∈ m.steady → s ∈ findSS m → R.ss s.base s.asm = v

/-- Dynare finds the value `v` for line `i` of the model block at date `t`, and no other -/
def LineValue (F : Funs) (declared : Str → Int → ℝ) (m : ModelView) (t : Int) (i : Nat) (v : ℝ) : Prop :=
  (∃ vals, BlockVals F (fun n k => declared n (t + k)) (modelBlock m) vals) ∧
  ∀ vals, BlockVals F (fun n k => declared n (t + k)) (modelBlock m) vals → vals[i]? = some v

namespace DWr

theorem seen_symAt (R : RealPath) (t : Int) (s : TSym) : R.seen t s = R.val.symAt t (.tv s) := by
  obtain ⟨b, ix, a⟩ := s
  cases ix <;> rfl

theorem block_vals {F : Funs} {R : RealPath} {declared : Str → Int → ℝ} {m : ModelView} (hn : SameNames R declared m)
    (hc : ∀ e ∈ m.equations, e.Canon ∧ ∀ t, e.RealPowers F (R.seen t) R.par)
    (hss : ClosedForms F R declared m ∨ Numbers R m) (t : Int) :
    (∃ vals, BlockVals F (fun n k => declared n (t + k)) (modelBlock m) vals) ∧
    ∀ vals, BlockVals F (fun n k => declared n (t + k)) (modelBlock m) vals → vals = m.equations.map (DE.val F (R.seen t) R.par) := by
  have hyp : BlockHyp F (R.seen t) R.par (fun n k => declared n (t + k)) m := by
    refine ⟨fun e he => ⟨(hc e he).1, (hc e he).2 t⟩, fun e he x hx hs => ?_, hn.noclash, hn.one⟩
    cases x with
    | inr p => exact hn.parameters e he p hx _
    | inl s =>
      have hi : s.idx ≠ .ss := by simpa [isSteady] using hs
      obtain ⟨b, ix, a⟩ := s
      cases ix with
      | ss => exact absurd rfl hi
      | t k => exact hn.dated e he _ hx hi _
  rcases hss with h | h
  · refine C103_analytic F _ _ _ m hyp h.all fun s e hse hs => ?_
    obtain ⟨h1, h2, h3⟩ := h.form s e hse hs
    have hss : s.idx = .ss := ((mem_findSS m s).1 hs).1
    refine ⟨h1, (h2 t).1, ?_, fun x hx => ?_⟩
    · rw [(h2 t).2]
      obtain ⟨b, ix, a⟩ := s
      simp only at hss; subst hss; rfl
    · obtain ⟨p, rfl, h4, h5⟩ := h3 x hx
      exact ⟨rfl, h4 _, h5⟩
  · refine C103_numeric F _ _ _ m hyp h.some h.all fun s v hv hs => ?_
    have hss : s.idx = .ss := ((mem_findSS m s).1 hs).1
    rw [← h.value s v hv hs]
    obtain ⟨b, ix, a⟩ := s
    simp only at hss; subst hss; rfl

end DWr

/-- **C135** every equation of the GCN file has a line in the exported model block; what Dynare computes for that line at any date, along any
path with the definitions of the blocks holding (and the auxiliary variables for deep lags and leads being those), is right minus left
side of the equation as written -/
theorem C135_lines (text : List Char) (ts : List Tok) (f : Gcn.GFile) (P : Primitives) (hs : SpellsToks text ts) (hf : Gcn.IsFile ts f)
    (hl : Gcn.LoadGcn text P) (hd : f.DistinctNames) (F : Funs) (m : ModelView) (R : RealPath) (declared : Str → Int → ℝ)
    (hsame : List.Forall₂ (SameOn F R) P.equations m.equations)
    (hcanon : ∀ e ∈ m.equations, e.Canon ∧ ∀ t, e.RealPowers F (R.seen t) R.par)
    (hnames : SameNames R declared m) (hss : ClosedForms F R declared m ∨ Numbers R m)
    (hdef : f.DefinitionsHold R) (hshift : f.ShiftsHold R)
    (b : Gcn.GBlock) (hb : f.IsModelBlock b) (e : Eqn) (he : e ∈ b.stated) :
    ∃ i < (modelBlock m).2.length, ∀ t, LineValue F declared m t i (- Gcn.writtenGap f e R t) := by
  obtain ⟨q, hq, hval⟩ := Rsp.written_gaps hs hf hl hd b hb e he
  obtain ⟨i, hi⟩ := List.getElem?_of_mem hq
  obtain ⟨hlen, hget⟩ := List.forall₂_iff_get.1 hsame
  obtain ⟨hi1, hi2⟩ := List.getElem?_eq_some_iff.1 hi
  have hi' : i < m.equations.length := hlen ▸ hi1
  refine ⟨i, by simpa [modelBlock] using hi', fun t => ?_⟩
  obtain ⟨h1, h2⟩ := DWr.block_vals hnames hcanon hss t
  refine ⟨h1, fun vals hv => ?_⟩
  rw [h2 vals hv, List.getElem?_map, List.getElem?_eq_getElem hi', Option.map_some]
  have := hget i hi1 hi'
  simp only [List.get_eq_getElem, hi2] at this
  rw [this t, hval R hshift hdef t]

/-- **C135** the paths Dynare's model block accepts (every line zero at every date) are the solutions of the loaded model, and on them every
equation of the GCN file holds as written -/
theorem C135_solutions (text : List Char) (ts : List Tok) (f : Gcn.GFile) (P : Primitives) (hs : SpellsToks text ts) (hf : Gcn.IsFile ts f)
    (hl : Gcn.LoadGcn text P) (hd : f.DistinctNames) (F : Funs) (m : ModelView) (R : RealPath) (declared : Str → Int → ℝ)
    (hsame : List.Forall₂ (SameOn F R) P.equations m.equations)
    (hcanon : ∀ e ∈ m.equations, e.Canon ∧ ∀ t, e.RealPowers F (R.seen t) R.par)
    (hnames : SameNames R declared m) (hss : ClosedForms F R declared m ∨ Numbers R m) :
    ((∀ t, ∀ i < (modelBlock m).2.length, LineValue F declared m t i 0) ↔ ∀ q ∈ P.equations, ∀ t, q.val R t = 0) ∧
    (f.DefinitionsHold R → f.ShiftsHold R → (∀ t, ∀ i < (modelBlock m).2.length, LineValue F declared m t i 0) → f.EquationsHold R) := by
  obtain ⟨hlen, hget⟩ := List.forall₂_iff_get.1 hsame
  have hiff : (∀ t, ∀ i < (modelBlock m).2.length, LineValue F declared m t i 0) ↔ ∀ q ∈ P.equations, ∀ t, q.val R t = 0 := by
    constructor
    · intro h q hq t
      obtain ⟨i, hi1, hi2⟩ := List.getElem_of_mem hq
      have hi' : i < m.equations.length := hlen ▸ hi1
      obtain ⟨h1, h2⟩ := DWr.block_vals hnames hcanon hss t
      obtain ⟨vals, hv⟩ := h1
      have h3 := (h t i (by simpa [modelBlock] using hi')).2 vals hv
      rw [h2 vals hv, List.getElem?_map, List.getElem?_eq_getElem hi', Option.map_some] at h3
      have := hget i hi1 hi' t
      simp only [List.get_eq_getElem, hi2] at this
      rw [← this]
      exact Option.some.inj h3
    · intro h t i hi
      have hi' : i < m.equations.length := by simpa [modelBlock] using hi
      have hi1 : i < P.equations.length := hlen ▸ hi'
      obtain ⟨h1, h2⟩ := DWr.block_vals hnames hcanon hss t
      refine ⟨h1, fun vals hv => ?_⟩
      rw [h2 vals hv, List.getElem?_map, List.getElem?_eq_getElem hi', Option.map_some]
      have := hget i hi1 hi' t
      simp only [List.get_eq_getElem] at this
      rw [this, h _ (List.getElem_mem hi1) t]
  refine ⟨hiff, fun hdef hshift h b hb e he t => ?_⟩
  obtain ⟨q, hq, hval⟩ := Rsp.written_gaps hs hf hl hd b hb e he
  have h0 := hiff.1 h q hq t
  rw [hval R hshift hdef t] at h0
  have : Gcn.writtenGap f e R t = 0 := by linarith
  unfold Gcn.writtenGap at this
  unfold Eqn.holds
  linarith

namespace DWr
open Rsp

/-- the exported model of the file `rsText`: `2 + x(-1)/2 + e*x(-1) - x` -/
def rsView : ModelView where
  vars := [rsX]
  shocks := [rsE]
  params := []
  values := []
  equations := [.add [.num 2, .mul [.num (1/2), .tv (rsX.atT (-1))], .mul [.tv rsE, .tv (rsX.atT (-1))], .mul [.num (-1), .tv rsX]]]
  ssRel := []
  steady := []

/-- the line of the exported file -/
example : (modelBlock rsView).2 = [[.num 2, .op .add, .name "x".toList, .lpar, .op .sub, .num 1, .rpar, .op .div, .num 2, .op .add, .name "e".toList,
    .op .mul, .name "x".toList, .lpar, .op .sub, .num 1, .rpar, .op .sub, .name "x".toList]] := by decide +kernel

/-- Dynare's values along a path -/
noncomputable def rsDeclared (R : RealPath) (n : Str) (u : Int) : ℝ := R.path n rsX.asm u

theorem rs_find : findSS rsView = [] := by decide +kernel

theorem rs_names (R : RealPath) : SameNames R (rsDeclared R) rsView := by
  have hs : ∀ e ∈ rsView.equations, ∀ x ∈ e.syms, x = .inl (rsX.atT (-1)) ∨ x = .inl rsE ∨ x = .inl rsX := by
    intro e he x hx
    simp only [rsView, List.mem_singleton] at he
    subst he
    simp only [DE.syms, DE.symsL, List.append_nil, List.nil_append, List.mem_append, List.mem_singleton] at hx
    tauto
  refine ⟨fun e he s h _ u => ?_, fun e he p h => ?_, fun e he x hx _ s h => ?_, fun s h => ?_⟩
  · rcases hs e he _ h with h | h | h <;> cases h <;> rfl
  · rcases hs e he _ h with h | h | h <;> cases h
  · rw [rs_find] at h; cases h
  · rw [rs_find] at h; cases h

theorem rs_same (F : Funs) (R : RealPath) : List.Forall₂ (SameOn F R) [rsQ] rsView.equations := by
  refine .cons (fun t => ?_) .nil
  simp only [DE.val, DE.vals, List.sum_cons, List.sum_nil, List.prod_cons, List.prod_nil, seen_symAt]
  rw [← eval_symAt]
  simp only [rsQ, SExpr.eval]
  push_cast
  ring

end DWr
open Rsp DWr

/-- **C135** for a concrete file: a path on which the exported line is zero at every date satisfies `x[] = 2 + 0.5*x[-1] + e[]*x[-1]` -/
example (F : Funs) (R : RealPath) (h : ∀ t, LineValue F (rsDeclared R) rsView t 0 0) : rsFile.EquationsHold R := by
  obtain ⟨P, hl, he, _⟩ := rs_load
  refine (C135_solutions rsText rsToks rsFile P rs_spells rs_file hl (by simp [Gcn.GFile.DistinctNames, rsFile]) F rsView R (rsDeclared R) (he ▸ rs_same F R) ?_ (rs_names R)
    (.inl ⟨by rw [rs_find]; simp, by simp [rsView]⟩)).2 ?_ (rs_shifts R) ?_
  · intro e he
    simp only [rsView, List.mem_singleton] at he
    subst he
    simp [DE.Canon, DE.CanonL, DE.RealPowers, DE.RealPowersL]
  · intro b hb e he
    rw [rs_block b hb] at he
    simp [rsBlock] at he
  · intro t i hi
    have : i = 0 := by simp [modelBlock, rsView] at hi; omega
    subst this
    exact h t

end GE
