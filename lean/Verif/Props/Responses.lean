import Verif.Model.Responses
import Verif.Props.ObsEq
import Verif.Props.ClosedForm
import Verif.Props.SolveModel
import Verif.Props.Simulate
import Verif.Props.StationaryDefs
/-! # C130: from the text of a file to its impulse responses -/

open Matrix

namespace GE

namespace Rsp

theorem eval_symAt (R : RealPath) (t : Int) (e : SExpr) : e.eval (R.val.symAt t) = e.val R t := by
  induction e with
  | num q => rfl
  | sym s => rfl
  | add a b iha ihb => simp only [SExpr.eval]; rw [iha, ihb]; rfl
  | mul a b iha ihb => simp only [SExpr.eval]; rw [iha, ihb]; rfl
  | pow a b iha ihb => simp only [SExpr.eval]; rw [iha, ihb]; rfl
  | exp a iha => simp only [SExpr.eval]; rw [iha]; rfl
  | log a iha => simp only [SExpr.eval]; rw [iha]; rfl

theorem smoothAt (R : RealPath) (t : Int) (e : SExpr) (h : e.Smooth R t) : e.SmoothAt (R.val.symAt t) := by
  induction e with
  | num q => trivial
  | sym s => trivial
  | add a b iha ihb => exact ⟨iha h.1, ihb h.2⟩
  | mul a b iha ihb => exact ⟨iha h.1, ihb h.2⟩
  | pow a b iha ihb => exact ⟨iha h.1, ihb h.2.1, by rw [eval_symAt]; exact h.2.2⟩
  | exp a iha => exact iha h
  | log a iha => exact ⟨iha h.1, by rw [eval_symAt]; exact h.2⟩

theorem smoothAt_congr (e : SExpr) (env env' : Sym → ℝ) (h : ∀ s ∈ e.syms, env s = env' s) (hs : e.SmoothAt env) : e.SmoothAt env' := by
  induction e with
  | num q => trivial
  | sym s => trivial
  | add a b iha ihb => exact ⟨iha (fun s hs => h s (by simp [SExpr.syms, hs])) hs.1, ihb (fun s hs => h s (by simp [SExpr.syms, hs])) hs.2⟩
  | mul a b iha ihb => exact ⟨iha (fun s hs => h s (by simp [SExpr.syms, hs])) hs.1, ihb (fun s hs => h s (by simp [SExpr.syms, hs])) hs.2⟩
  | pow a b iha ihb =>
    refine ⟨iha (fun s hs => h s (by simp [SExpr.syms, hs])) hs.1, ihb (fun s hs => h s (by simp [SExpr.syms, hs])) hs.2.1, ?_⟩
    rw [← OEq.eval_congr a env env' fun s hs => h s (by simp [SExpr.syms, hs])]
    exact hs.2.2
  | exp a iha => exact iha (fun s hs => h s (by simpa [SExpr.syms] using hs)) hs
  | log a iha =>
    refine ⟨iha (fun s hs => h s (by simpa [SExpr.syms] using hs)) hs.1, ?_⟩
    rw [← OEq.eval_congr a env env' fun s hs => h s (by simpa [SExpr.syms] using hs)]
    exact hs.2

theorem scale_logs (loglin : List TSym) (v : TSym) (s x : ℝ) :
    HasDerivAt (fun h => deviated loglin v s (h * x)) (promisedScale loglin v s * x) 0 := by
  unfold deviated promisedScale
  by_cases h : InLogs loglin v s
  · simp only [if_pos h]
    rw [if_pos (by exact h)]
    have h1 : HasDerivAt (fun h : ℝ => h * x) (1 * x) 0 := (hasDerivAt_id 0).mul_const x
    have := (h1.exp).const_mul s
    refine this.congr_deriv ?_
    simp
  · simp only [if_neg h]
    rw [if_neg (by exact h)]
    have h1 : HasDerivAt (fun h : ℝ => h * x) (1 * x) 0 := (hasDerivAt_id 0).mul_const x
    exact h1.const_add s

variable {vars shocks loglin : List TSym} {par : Str → ℝ} {ss : List (Str × ℝ)} {dev : Int → Fin vars.length → ℝ}
  {eps : Int → Fin shocks.length → ℝ} {last : Int}

/-- how fast the symbol moves at date `t` -/
noncomputable def speed (vars shocks loglin : List TSym) (ss : List (Str × ℝ)) (dev : Int → Fin vars.length → ℝ)
    (eps : Int → Fin shocks.length → ℝ) (t : Int) : Sym → ℝ
  | .par _ => 0
  | .tv x => match x.idx with
    | .ss => 0
    | .t d =>
      (∑ j : Fin vars.length, if x.base = vars[j].base ∧ x.asm = vars[j].asm then promisedScale loglin vars[j] (ssOf ss vars[j]) * dev (t + d) j else 0) +
        ∑ i : Fin shocks.length, if x.base = shocks[i].base ∧ x.asm = shocks[i].asm then eps (t + d) i else 0

theorem base_inj {l : List TSym} (h : (l.map TSym.base).Nodup) {i j : Fin l.length} (he : l[i].base = l[j].base) : i = j := by
  have := (List.nodup_iff_injective_get.1 h)
  apply Fin.ext
  have h2 := @this ⟨i, by simp⟩ ⟨j, by simp⟩ (by simpa using he)
  simpa using h2

theorem speed_var (hn : Named vars shocks) (t d : Int) (j : Fin vars.length) :
    speed vars shocks loglin ss dev eps t (.tv (vars[j].atT d)) = promisedScale loglin vars[j] (ssOf ss vars[j]) * dev (t + d) j := by
  show (∑ k : Fin vars.length, if vars[j].base = vars[k].base ∧ vars[j].asm = vars[k].asm then promisedScale loglin vars[k] (ssOf ss vars[k]) * dev (t + d) k else 0) +
        (∑ i : Fin shocks.length, if vars[j].base = shocks[i].base ∧ vars[j].asm = shocks[i].asm then eps (t + d) i else 0) = _
  rw [Finset.sum_eq_single j, if_pos ⟨rfl, rfl⟩, Finset.sum_eq_zero, add_zero]
  · intro i _
    rw [if_neg]
    exact fun h => hn.apart _ (List.getElem_mem _) _ (List.getElem_mem _) h.1
  · intro b _ hb
    rw [if_neg]
    exact fun h => hb (base_inj hn.varNames h.1.symm)
  · simp

theorem speed_shock (hn : Named vars shocks) (t : Int) (i : Fin shocks.length) :
    speed vars shocks loglin ss dev eps t (.tv shocks[i]) = eps t i := by
  have h0 : shocks[i].idx = .t 0 := hn.now _ (List.getElem_mem _)
  simp only [speed, h0, Int.add_zero]
  rw [Finset.sum_eq_zero, zero_add, Finset.sum_eq_single i, if_pos ⟨rfl, rfl⟩]
  · intro b _ hb
    rw [if_neg]
    exact fun h => hb (base_inj hn.shockNames h.1.symm)
  · simp
  · intro j _
    rw [if_neg]
    exact fun h => hn.apart _ (List.getElem_mem _) _ (List.getElem_mem _) h.1.symm

/-- the symbols that move -/
def moving (vars shocks : List TSym) : List Sym :=
  vars.map (fun v => .tv (v.atT (-1))) ++ vars.map (fun v => .tv (v.atT 0)) ++ vars.map (fun v => .tv (v.atT 1)) ++ shocks.map .tv

theorem moving_nodup (hn : Named vars shocks) : (moving vars shocks).Nodup := by
  have hv : ∀ d, (vars.map fun v => Sym.tv (v.atT d)).Nodup := fun d => by
    have := hn.varNames
    rw [List.nodup_map_iff_inj_on (List.Nodup.of_map _ this)]
    intro x hx y hy h
    simp only [Sym.tv.injEq, TSym.atT, TSym.mk.injEq] at h
    exact List.inj_on_of_nodup_map this hx hy h.1
  have hs : (shocks.map Sym.tv).Nodup := (List.nodup_map_iff (fun a b h => by simpa using h)).2 (List.Nodup.of_map _ hn.shockNames)
  unfold moving
  rw [List.nodup_append, List.nodup_append, List.nodup_append]
  refine ⟨⟨⟨hv _, hv _, ?_⟩, hv _, ?_⟩, hs, ?_⟩
  · simp only [List.mem_map]
    rintro _ ⟨v, _, rfl⟩ _ ⟨w, _, rfl⟩ h
    simp [TSym.atT] at h
  · simp only [List.mem_append, List.mem_map]
    rintro _ (⟨v, _, rfl⟩ | ⟨v, _, rfl⟩) _ ⟨w, _, rfl⟩ h <;> simp [TSym.atT] at h
  · simp only [List.mem_append, List.mem_map]
    rintro _ ((⟨v, hv, rfl⟩ | ⟨v, hv, rfl⟩) | ⟨v, hv, rfl⟩) _ ⟨w, hw, rfl⟩ h <;>
    · simp only [Sym.tv.injEq] at h
      exact hn.apart v hv w hw (by rw [← h]; rfl)

/-- what a symbol of a shallow equation is -/
theorem sym_cases {eqs : List SExpr} (hsh : Shallow vars shocks eqs) (hn : Named vars shocks) {q : SExpr} (hq : q ∈ eqs) {s : Sym} (hs : s ∈ q.syms) :
    (∃ n, s = .par n) ∨ (∃ x, s = .tv x ∧ x.idx = .ss ∧ ((∃ v ∈ vars, x.base = v.base ∧ x.asm = v.asm) ∨ ∃ v ∈ shocks, x.base = v.base ∧ x.asm = v.asm)) ∨
      (∃ j : Fin vars.length, ∃ d : Int, s = .tv (vars[j].atT d) ∧ (d = -1 ∨ d = 0 ∨ d = 1)) ∨ ∃ i : Fin shocks.length, s = .tv shocks[i] := by
  cases s with
  | par n => exact .inl ⟨n, rfl⟩
  | tv x =>
    right
    rcases hsh q hq x (mem_tsyms.2 hs) with ⟨v, hv, h1, h2, h3⟩ | ⟨v, hv, h1, h2, h3⟩
    · obtain ⟨j, hj, rfl⟩ := List.getElem_of_mem hv
      rcases h3 with h3 | h3
      · exact .inl ⟨x, rfl, h3, .inl ⟨_, hv, h1, h2⟩⟩
      · right; left
        obtain ⟨b, i, a⟩ := x
        simp only at h1 h2 h3
        subst h1 h2
        rcases h3 with rfl | rfl | rfl
        · exact ⟨⟨j, hj⟩, -1, rfl, by simp⟩
        · exact ⟨⟨j, hj⟩, 0, rfl, by simp⟩
        · exact ⟨⟨j, hj⟩, 1, rfl, by simp⟩
    · obtain ⟨j, hj, rfl⟩ := List.getElem_of_mem hv
      rcases h3 with h3 | h3
      · exact .inl ⟨x, rfl, h3, .inr ⟨_, hv, h1, h2⟩⟩
      · right; right
        refine ⟨⟨j, hj⟩, ?_⟩
        have := hn.now _ hv
        obtain ⟨b, i, a⟩ := x
        simp only at h1 h2 h3
        subst h1 h2 h3
        show _ = Sym.tv shocks[j]
        rw [← this]

theorem not_shock (hn : Named vars shocks) {v : TSym} (hv : v ∈ vars) : (⟨v.base, .ss, v.asm⟩ : TSym) ∉ shocks.map toSS := by
  intro h
  obtain ⟨s, hs, h⟩ := List.mem_map.1 h
  have := congrArg TSym.base h
  exact hn.apart v hv s hs this.symm

/-- with `h = 0` nothing moves -/
theorem at_zero {eqs : List SExpr} (hsh : Shallow vars shocks eqs) (hn : Named vars shocks) {R : RealPath}
    (hR : Deviates vars shocks loglin par ss dev eps last 0 R) {q : SExpr} (hq : q ∈ eqs) {s : Sym} (hs : s ∈ q.syms) {t : Int} (ht : t + 1 ≤ last) (u : Int) :
    R.val.symAt t s = (steadyPath par (ssOf ss) shocks).val.symAt u s := by
  rcases sym_cases hsh hn hq hs with ⟨n, rfl⟩ | ⟨x, rfl, hx, h⟩ | ⟨j, d, rfl, hd⟩ | ⟨i, rfl⟩
  · simp only [Valuation.symAt, RealPath.val, hR.par, steadyPath]
  · simp only [Valuation.symAt, hx, RealPath.val, steadyPath]
    rcases h with ⟨v, hv, h1, h2⟩ | ⟨v, hv, h1, h2⟩
    · rw [h1, h2, hR.steady v hv, if_neg (not_shock hn hv)]
      simp [ssOf]
    · rw [h1, h2, hR.quiet v hv, if_pos (show (⟨v.base, .ss, v.asm⟩ : TSym) ∈ shocks.map toSS from List.mem_map.2 ⟨v, hv, rfl⟩)]
  · simp only [Valuation.symAt, TSym.atT, RealPath.val, steadyPath]
    rw [hR.moves j (t + d) (by omega), if_neg (show (⟨vars[j].base, .ss, vars[j].asm⟩ : TSym) ∉ shocks.map toSS from not_shock hn (List.getElem_mem _))]
    unfold deviated
    split <;> simp [ssOf]
  · have h0 := hn.now _ (List.getElem_mem i.isLt)
    have h0 : shocks[i].idx = .t 0 := h0
    simp only [Valuation.symAt, h0, RealPath.val, steadyPath]
    rw [hR.hits i (t + 0) (by omega), zero_mul, if_pos (show (⟨shocks[i].base, .ss, shocks[i].asm⟩ : TSym) ∈ shocks.map toSS from List.mem_map.2 ⟨_, List.getElem_mem i.isLt, rfl⟩)]

theorem sum_get {α : Type} (l : List α) (f : α → ℝ) : (l.map f).sum = ∑ j : Fin l.length, f l[j] := by
  rw [← List.sum_ofFn]
  congr 1
  apply List.ext_getElem <;> simp

end Rsp
open Rsp

/-- **C130**: the linear system is the model to first order. Let the variables and shocks deviate from the steady state by `h` times given
amounts (in percent for the log-linearised ones). Then every equation, at every date, changes at the rate the matrices of
`linearize_model` say: `A` times yesterday's, plus `B` times today's, plus `C` times tomorrow's deviations, plus `D` times the shocks -/
theorem C130_first_order (vars : List TSym) (eqs : List SExpr) (shocks loglin : List TSym) (par : Str → ℝ) (ss : List (Str × ℝ))
    (hn : Named vars shocks) (hsh : Shallow vars shocks eqs) (hss : ∀ v ∈ vars, (dget (normalizeConditions ss) v.base).isSome)
    (hsm : ∀ e ∈ eqs, e.Smooth (steadyPath par (ssOf ss) shocks) 0) (dev : Int → Fin vars.length → ℝ) (eps : Int → Fin shocks.length → ℝ)
    (last : Int) (F : ℝ → RealPath) (hF : ∀ h, Deviates vars shocks loglin par ss dev eps last h (F h)) :
    ∃ m, linearMats vars eqs shocks loglin par ss = some m ∧ ∀ (i : Fin vars.length) (q : SExpr), eqs[(i : ℕ)]? = some q → ∀ t : Int, t + 1 ≤ last →
      HasDerivAt (fun h => q.val (F h) t)
        ((m.A *ᵥ dev (t - 1) + m.B *ᵥ dev t + m.C *ᵥ dev (t + 1) + m.D *ᵥ eps t) i) 0 := by
  refine ⟨_, by rw [linearMats, Ptb.linearizeModel_eq vars eqs shocks loglin ss (evalAt par) hn.varNames hss]; rfl, ?_⟩
  intro i q hqi t ht
  have hq : q ∈ eqs := List.mem_of_getElem? hqi
  let c : ℝ → Sym → ℝ := fun h x => if x ∈ q.syms then (F h).val.symAt t x else 0
  let c' : Sym → ℝ := fun x => if x ∈ q.syms then speed vars shocks loglin ss dev eps t x else 0
  have hval : ∀ (e : SExpr) h, (∀ s ∈ e.syms, s ∈ q.syms) → e.eval (c h) = e.val (F h) t := fun e h he => by
    rw [← eval_symAt]
    exact OEq.eval_congr _ _ _ fun s hs => by simp [c, he s hs]
  have hsteady : ∀ e : SExpr, (∀ s ∈ e.syms, s ∈ q.syms) → e.eval (c 0) = e.val (steadyPath par (ssOf ss) shocks) 0 := fun e he => by
    rw [← eval_symAt]
    exact OEq.eval_congr _ _ _ fun s hs => by
      simp only [c, if_pos (he s hs)]
      exact at_zero hsh hn (hF 0) hq (he s hs) ht 0
  have hc : ∀ x, HasDerivAt (fun h => c h x) (c' x) 0 := by
    intro x
    by_cases hx : x ∈ q.syms
    · simp only [c, c', if_pos hx]
      rcases sym_cases hsh hn hq hx with ⟨n, rfl⟩ | ⟨y, rfl, hy, h⟩ | ⟨j, d, rfl, hd⟩ | ⟨k, rfl⟩
      · simp only [Valuation.symAt, RealPath.val, (hF _).par, speed]
        exact hasDerivAt_const _ _
      · have : ∀ h, (F h).val.symAt t (.tv y) = (F 0).val.symAt t (.tv y) := fun h' => by
          simp only [Valuation.symAt, hy, RealPath.val]
          rcases h with ⟨v, hv, h1, h2⟩ | ⟨v, hv, h1, h2⟩
          · rw [h1, h2, (hF _).steady v hv, (hF _).steady v hv]
          · rw [h1, h2, (hF _).quiet v hv, (hF _).quiet v hv]
        simp only [this, speed, hy]
        exact hasDerivAt_const _ _
      · rw [speed_var hn]
        have : ∀ h, (F h).val.symAt t (.tv (vars[j].atT d)) = deviated loglin vars[j] (ssOf ss vars[j]) (h * dev (t + d) j) := fun h => by
          simp only [Valuation.symAt, TSym.atT, RealPath.val]
          exact (hF h).moves j (t + d) (by omega)
        simp only [this]
        exact scale_logs _ _ _ _
      · rw [speed_shock hn]
        have h0 : shocks[k].idx = .t 0 := hn.now _ (List.getElem_mem _)
        have : ∀ h, (F h).val.symAt t (.tv shocks[k]) = h * eps t k := fun h => by
          simp only [Valuation.symAt, h0, RealPath.val]
          rw [(hF h).hits k (t + 0) (by omega), Int.add_zero]
        simp only [this]
        simpa using (hasDerivAt_id (0 : ℝ)).mul_const (eps t k)
    · simp only [c, c', if_neg hx]
      exact hasDerivAt_const _ _
  have h0 : ∀ x, x ∉ moving vars shocks → c' x = 0 := by
    intro x hx
    simp only [c']
    split
    · rename_i hxq
      rcases sym_cases hsh hn hq hxq with ⟨n, rfl⟩ | ⟨y, rfl, hy, h⟩ | ⟨j, d, rfl, hd⟩ | ⟨k, rfl⟩
      · rfl
      · simp [speed, hy]
      · exfalso
        apply hx
        have hm : vars[j] ∈ vars := List.getElem_mem _
        simp only [moving, List.mem_append, List.mem_map]
        rcases hd with rfl | rfl | rfl
        · exact .inl (.inl (.inl ⟨_, hm, rfl⟩))
        · exact .inl (.inl (.inr ⟨_, hm, rfl⟩))
        · exact .inl (.inr ⟨_, hm, rfl⟩)
      · exact absurd (by simp only [moving, List.mem_append, List.mem_map]; exact .inr ⟨_, List.getElem_mem _, rfl⟩) hx
    · rfl
  have hsm' : q.SmoothAt (c 0) := by
    refine smoothAt_congr q _ _ (fun s hs => ?_) (smoothAt _ 0 q (hsm q hq))
    simp only [c, if_pos hs]
    exact (at_zero hsh hn (hF 0) hq hs ht 0).symm
  have key := OEq.chain (moving vars shocks) (moving_nodup hn) c c' 0 hc h0 q hsm'
  simp only [hval q _ fun s hs => hs] at key
  refine key.congr_deriv ?_
  -- the terms
  have term : ∀ (x : TSym), (q.diff (.tv x)).eval (c 0) * c' (.tv x) =
      evalAt par (ssOf ss) (jacEntry shocks q x) * speed vars shocks loglin ss dev eps t (.tv x) := by
    intro x
    have hd : (q.diff (.tv x)).eval (c 0) = evalAt par (ssOf ss) (jacEntry shocks q x) := by
      rw [hsteady _ fun s hs => Clf.syms_diff _ _ s hs]
      exact (Ptb.jacEntry_val par (ssOf ss) _ shocks q x 0 0).symm
    rw [hd]
    by_cases hx : Sym.tv x ∈ q.syms
    · simp only [c', if_pos hx]
    · have : evalAt par (ssOf ss) (jacEntry shocks q x) = 0 := Ptb.jacEntry_zero shocks q x (fun h => hx (mem_tsyms.1 h)) _ _
      rw [this, zero_mul, zero_mul]
  simp only [moving, List.map_append, List.map_map, List.sum_append, Function.comp_def, term, sum_get, speed_var hn, speed_shock hn]
  simp only [Pi.add_apply, mulVec, dotProduct, matsOf, Matrix.of_apply, entryAt, List.getElem?_map, hqi, Option.map_some, Option.bind_some]
  have e1 : ∀ (j : Fin vars.length), vars[(j : ℕ)]? = some vars[j] := fun j => by simp
  have e2 : ∀ (j : Fin shocks.length), shocks[(j : ℕ)]? = some shocks[j] := fun j => by simp
  simp only [e1, e2, Option.map_some, Option.getD_some, mul_assoc, Int.add_zero, ← Int.sub_eq_add_neg]

namespace Rsp

theorem mulVec_oneShock {n k : ℕ} (D : Mat n k) (j : Fin k) (size : ℝ) : D *ᵥ oneShock j size 0 = size • D.col j := by
  funext i
  simp only [mulVec, dotProduct, oneShock, true_and, Pi.smul_apply, Matrix.col_apply, smul_eq_mul]
  rw [Finset.sum_eq_single j]
  · rw [if_pos rfl]; ring
  · intro b _ hb; rw [if_neg hb, mul_zero]
  · simp

theorem mulVec_later {n k : ℕ} (D : Mat n k) (j : Fin k) (size : ℝ) {t : Int} (ht : t ≠ 0) : D *ᵥ oneShock j size t = 0 := by
  have : oneShock j size t = 0 := by funext i; simp [oneShock, ht]
  rw [this, Matrix.mulVec_zero]

theorem col_mul {n k : ℕ} (T : Mat n n) (R : Mat n k) (j : Fin k) : (T * R).col j = T *ᵥ R.col j := by
  funext i; simp [Matrix.mul_apply, mulVec, dotProduct, Matrix.col_apply]

/-- the first-order residual of a table that repeats `T^t R` -/
theorem residual {n k : ℕ} (m : LinMats n k) (T : Mat n n) (R : Mat n k) (h0 : m.B * R + m.C * T * R + m.D = 0) (j : Fin k) (size : ℝ) (len : ℕ)
    (d : List (Fin n → ℝ)) (hd : ∀ t, t < len → atTime d t = size • (T ^ t * R).col j) (t : Int) (h1 : 0 ≤ t) (h2 : t + 1 < len) :
    m.A *ᵥ tableDev d (t - 1) + m.B *ᵥ tableDev d t + m.C *ᵥ tableDev d (t + 1) + m.D *ᵥ oneShock j size t =
      (m.A + m.B * T + m.C * T * T) *ᵥ tableDev d (t - 1) := by
  have row : ∀ u : ℕ, u < len → tableDev d (u : Int) = size • (T ^ u * R).col j := fun u hu => by
    rw [← hd u hu]
    funext i
    simp [tableDev, atTime]
  obtain ⟨u, rfl⟩ := Int.eq_ofNat_of_zero_le h1
  rcases u with _ | u
  · have e0 : tableDev d (((0 : ℕ) : Int) - 1) = 0 := by funext i; simp [tableDev]
    rw [e0, Matrix.mulVec_zero, Matrix.mulVec_zero, zero_add, row 0 (by omega)]
    have e1 : tableDev d (((0 : ℕ) : Int) + 1) = size • (T ^ 1 * R).col j := row 1 (by omega)
    rw [e1]
    show _ + m.D *ᵥ oneShock j size 0 = 0
    rw [mulVec_oneShock, pow_zero, Matrix.one_mul, pow_one, col_mul, Matrix.mulVec_smul, Matrix.mulVec_smul, ← smul_add, ← smul_add]
    have : m.B *ᵥ R.col j + m.C *ᵥ (T *ᵥ R.col j) + m.D.col j = 0 := by
      have := congrArg (fun M : Mat n k => M.col j) h0
      rw [Matrix.mulVec_mulVec, ← col_mul, ← col_mul]
      funext i
      have := congrFun this i
      simpa [Matrix.col_apply] using this
    rw [this, smul_zero]
  · have e0 : tableDev d (((u + 1 : ℕ) : Int) - 1) = size • (T ^ u * R).col j := by
      have : ((u + 1 : ℕ) : Int) - 1 = (u : Int) := by push_cast; ring
      rw [this]; exact row u (by omega)
    have e1 : tableDev d ((u + 1 : ℕ) : Int) = T *ᵥ (size • (T ^ u * R).col j) := by
      rw [row (u + 1) (by omega), Matrix.mulVec_smul, ← col_mul, ← Matrix.mul_assoc, pow_succ']
    have e2 : tableDev d (((u + 1 : ℕ) : Int) + 1) = T *ᵥ (T *ᵥ (size • (T ^ u * R).col j)) := by
      have : ((u + 1 : ℕ) : Int) + 1 = ((u + 2 : ℕ) : Int) := by push_cast; ring
      rw [this, row (u + 2) (by omega), Matrix.mulVec_smul, Matrix.mulVec_smul, ← col_mul, ← col_mul, ← Matrix.mul_assoc, ← Matrix.mul_assoc, pow_succ', pow_succ',
        Matrix.mul_assoc T T]
    rw [mulVec_later _ _ _ (by omega), e0, e1, e2, add_zero, Matrix.add_mulVec, Matrix.add_mulVec]
    simp only [Matrix.mulVec_mulVec]
    rw [← Matrix.mul_assoc]

end Rsp
open Rsp

/-- **C130**: what `impulse_response_function` prints is an approximate path of the model. Take any model whose equations are those of
`Shallow`, whatever pair `solve_model` returns for it and whatever table of individual responses is then computed. Scale the response to a
shock by `h` and put the variables of the model on it (percent deviations for the log-linearised ones), with the shock `h` times its size at
date 0. Then, to first order in `h`, every equation at every date of the table changes only by what the pair misses of
`A + B T + C T² = 0` (the equation for `R` is exact) -/
theorem C130_residual (vars : List TSym) (eqs : List SExpr) (shocks loglin : List TSym) (par : Str → ℝ) (ss : List (Str × ℝ)) (found : Bool)
    (hn : Named vars shocks) (hsh : Shallow vars shocks eqs) (hsm : ∀ e ∈ eqs, e.Smooth (steadyPath par (ssOf ss) shocks) 0)
    (hss : ∀ v ∈ vars, (dget (normalizeConditions ss) v.base).isSome)
    (tol : ℝ) (gen : GenOracle vars.length tol) (maxIter : ℕ) (backward : Bool) (solver onFailure : Str) (htol : 0 < tol)
    (hclean : ∀ m, linearMats vars eqs shocks loglin par ss = some m → CleanLeads m.C tol)
    (hback : ∀ m, linearMats vars eqs shocks loglin par ss = some m → backward = true → m.C = 0)
    (T : Mat vars.length vars.length) (R : Mat vars.length shocks.length)
    (hsolve : solveModel (some (ss, found)) (linearMats vars eqs shocks loglin par) tol gen maxIter backward solver onFailure = .ok (some (T, R)))
    (chol : Mat shocks.length shocks.length → Option (Mat shocks.length shocks.length)) (z : Fin shocks.length → ℝ) (len : ℕ) (s : ShockSize)
    (rq : Option Bool) (orth : Bool) (sel : List Str) (data : List (List (Fin vars.length → ℝ)))
    (hirf : impulseResponse chol z (fun i => shocks[i].base) T R len ⟨some s, none, none⟩ rq orth = .ok (.individual sel data)) :
    ∃ m, linearMats vars eqs shocks loglin par ss = some m ∧
      (m.A + m.B * T + m.C * T * T = 0 ∨ (backward = false ∧ solver = "cycle_reduction".toList)) ∧
      ∀ (p : Fin shocks.length × List (Fin vars.length → ℝ)), p ∈ ((List.finRange shocks.length).filter (fun i => shocks[i].base ∈ sel)).zip data →
      ∀ (F : ℝ → RealPath), (∀ h, Deviates vars shocks loglin par ss (tableDev p.2) (oneShock p.1 (specSize (fun i => shocks[i].base) s p.1)) (len - 1) h (F h)) →
      ∀ (i : Fin vars.length) (q : SExpr), eqs[(i : ℕ)]? = some q → ∀ t : Int, 0 ≤ t → t + 1 < len →
        HasDerivAt (fun h => q.val (F h) t) (((m.A + m.B * T + m.C * T * T) *ᵥ tableDev p.2 (t - 1)) i) 0 := by
  have hsolve' : solveModel (some ((), found)) (fun _ => linearMats vars eqs shocks loglin par ss) tol gen maxIter backward solver onFailure = .ok (some (T, R)) := hsolve
  obtain ⟨-, -, m, -, hm, hR, hT⟩ := C89_sound _ _ tol gen maxIter backward solver onFailure T R htol (fun _ => hclean) (fun _ => hback) hsolve'
  refine ⟨m, hm, hT.imp id fun h => ⟨h.1, h.2.1⟩, ?_⟩
  rintro ⟨j, d⟩ hp F hF i q hq t h1 h2
  obtain ⟨idx, rfl, -, -, hall⟩ := C37_individual chol z _ T R len s rq orth sel data hirf
  have hd := (List.forall₂_iff_zip.1 hall).2 hp
  obtain ⟨m', hm', hder⟩ := C130_first_order vars eqs shocks loglin par ss hn hsh hss hsm _ _ _ F hF
  obtain rfl : m = m' := by simpa [hm] using hm'
  have := hder i q hq t (by omega)
  rwa [residual m T R hR j _ len d hd.2 t h1 h2] at this

/-- **C130**: for the solvers that return exact solutions (all but cycle reduction), the printed responses satisfy every equation of the model
to first order at every date: if the steady state solves the equations, the equations along the scaled response are smaller than any multiple of `h` -/
theorem C130_irf (vars : List TSym) (eqs : List SExpr) (shocks loglin : List TSym) (par : Str → ℝ) (ss : List (Str × ℝ)) (found : Bool)
    (hn : Named vars shocks) (hsh : Shallow vars shocks eqs) (hsm : ∀ e ∈ eqs, e.Smooth (steadyPath par (ssOf ss) shocks) 0)
    (hss : ∀ v ∈ vars, (dget (normalizeConditions ss) v.base).isSome) (hsq : eqs.length = vars.length)
    (hzero : ∀ e ∈ eqs, e.val (steadyPath par (ssOf ss) shocks) 0 = 0)
    (tol : ℝ) (gen : GenOracle vars.length tol) (maxIter : ℕ) (backward : Bool) (solver onFailure : Str) (htol : 0 < tol)
    (hclean : ∀ m, linearMats vars eqs shocks loglin par ss = some m → CleanLeads m.C tol)
    (hback : ∀ m, linearMats vars eqs shocks loglin par ss = some m → backward = true → m.C = 0)
    (hexact : backward = true ∨ solver ≠ "cycle_reduction".toList)
    (T : Mat vars.length vars.length) (R : Mat vars.length shocks.length)
    (hsolve : solveModel (some (ss, found)) (linearMats vars eqs shocks loglin par) tol gen maxIter backward solver onFailure = .ok (some (T, R)))
    (chol : Mat shocks.length shocks.length → Option (Mat shocks.length shocks.length)) (z : Fin shocks.length → ℝ) (len : ℕ) (s : ShockSize)
    (rq : Option Bool) (orth : Bool) (sel : List Str) (data : List (List (Fin vars.length → ℝ)))
    (hirf : impulseResponse chol z (fun i => shocks[i].base) T R len ⟨some s, none, none⟩ rq orth = .ok (.individual sel data))
    (j : Fin shocks.length) (d : List (Fin vars.length → ℝ)) (hp : (j, d) ∈ ((List.finRange shocks.length).filter (fun i => shocks[i].base ∈ sel)).zip data)
    (F : ℝ → RealPath) (hF : ∀ h, Deviates vars shocks loglin par ss (tableDev d) (oneShock j (specSize (fun i => shocks[i].base) s j)) (len - 1) h (F h))
    (q : SExpr) (hq : q ∈ eqs) (t : Int) (h1 : 0 ≤ t) (h2 : t + 1 < len) :
    (fun h => q.val (F h) t) =o[nhds 0] fun h : ℝ => h := by
  obtain ⟨m, hm, hT, hall⟩ := C130_residual vars eqs shocks loglin par ss found hn hsh hsm hss tol gen maxIter backward solver onFailure htol hclean hback T R hsolve
    chol z len s rq orth sel data hirf
  have hT : m.A + m.B * T + m.C * T * T = 0 := by
    rcases hT with hT | ⟨h3, h4⟩
    · exact hT
    · rcases hexact with h | h
      · rw [h3] at h; cases h
      · exact absurd h4 h
  obtain ⟨i, hi, hqi⟩ := List.getElem_of_mem hq
  have hder := hall (j, d) hp F hF ⟨i, by omega⟩ q (by simpa [List.getElem?_eq_getElem hi] using hqi) t h1 h2
  rw [hT, Matrix.zero_mulVec] at hder
  have h0 : q.val (F 0) t = 0 := by
    have hz := hzero q hq
    rw [← eval_symAt] at hz ⊢
    refine Eq.trans ?_ hz
    exact OEq.eval_congr _ _ _ fun x hx => at_zero hsh hn (hF 0) hq hx (by omega) 0
  have := hasDerivAt_iff_isLittleO.1 hder
  simpa [h0] using this

/-- **C130**: such paths exist for every scale, so the theorems above speak about something -/
theorem C130_paths_exist (vars shocks loglin : List TSym) (hn : Named vars shocks) (par : Str → ℝ) (ss : List (Str × ℝ))
    (dev : Int → Fin vars.length → ℝ) (eps : Int → Fin shocks.length → ℝ) (last : Int) :
    ∃ F : ℝ → RealPath, ∀ h, Deviates vars shocks loglin par ss dev eps last h (F h) := by
  classical
  let at' : Str → ℝ → (Fin vars.length → ℝ) → (Fin shocks.length → ℝ) → ℝ := fun b dflt f g =>
    if h : ∃ j : Fin vars.length, vars[j].base = b then f h.choose else if h : ∃ i : Fin shocks.length, shocks[i].base = b then g h.choose else dflt
  have hv : ∀ dflt f g (j : Fin vars.length), at' vars[j].base dflt f g = f j := fun dflt f g j => by
    have h : ∃ j' : Fin vars.length, vars[j'].base = vars[j].base := ⟨j, rfl⟩
    simp only [at', dif_pos h, base_inj hn.varNames h.choose_spec]
  have hs : ∀ dflt f g (i : Fin shocks.length), at' shocks[i].base dflt f g = g i := fun dflt f g i => by
    have h : ∃ i' : Fin shocks.length, shocks[i'].base = shocks[i].base := ⟨i, rfl⟩
    have h' : ¬ ∃ j : Fin vars.length, vars[j].base = shocks[i].base := fun ⟨j, hj⟩ => hn.apart _ (List.getElem_mem _) _ (List.getElem_mem _) hj
    simp only [at', dif_neg h', dif_pos h, base_inj hn.shockNames h.choose_spec]
  refine ⟨fun h => { par := par, ss := fun b _ => at' b 0 (fun j => ssOf ss vars[j]) (fun _ => 0), path := fun b _ u => at' b 0 (fun j => deviated loglin vars[j] (ssOf ss vars[j]) (h * dev u j)) (fun i => h * eps u i) }, fun h => ?_⟩
  refine ⟨rfl, ?_, ?_, ?_, ?_⟩
  · intro v hm
    obtain ⟨j, hj, rfl⟩ := List.getElem_of_mem hm
    exact hv 0 (fun j => ssOf ss vars[j]) (fun _ => 0) ⟨j, hj⟩
  · intro v hm
    obtain ⟨j, hj, rfl⟩ := List.getElem_of_mem hm
    exact hs 0 (fun j => ssOf ss vars[j]) (fun _ => 0) ⟨j, hj⟩
  · intro j u _; exact hv 0 (fun j => deviated loglin vars[j] (ssOf ss vars[j]) (h * dev u j)) (fun i => h * eps u i) j
  · intro i u _; exact hs 0 (fun j => deviated loglin vars[j] (ssOf ss vars[j]) (h * dev u j)) (fun i => h * eps u i) i

namespace Rsp
open Ldr Num Pip Gcn

/-- right side minus left side of an equation as written -/
noncomputable def gapOf (asm : List (Str × Asm)) (R : RealPath) (t : Int) (e : Eqn) : ℝ :=
  e.rhs.eval (realInterp asm R) (pathOf asm R) t - e.lhs.eval (realInterp asm R) (pathOf asm R) t

theorem conv_gap {asm e s} (h : eqnToSympy asm e = .ok s) (hc : (extractFlags e).isCalibrating = false) (R : RealPath) (t : Int) :
    s.rhs.val R t - s.lhs.val R t = gapOf asm R t e := by
  unfold eqnToSympy at h
  split at h
  · cases h
  · rename_i l hl
    split at h
    · cases h
    · rename_i r hr
      rcases no_arrow (asm := asm) hc with hc | hc <;>
      · rw [hc] at h
        cases h
        show r.val R t - l.val R t = _
        rw [C51_same_value asm _ _ hl, C51_same_value asm _ _ hr]
        rfl

theorem gaps_conv {asm} {es : List Eqn} {ss : List SEq} (h : List.Forall₂ (fun e s => eqnToSympy asm e = .ok s) es ss)
    (hc : ∀ e ∈ es, (extractFlags e).isCalibrating = false) (R : RealPath) (t : Int) : gaps R t ss = es.map (gapOf asm R t) := by
  induction h with
  | nil => rfl
  | @cons e s es ss h1 h2 ih =>
    have := conv_gap h1 (hc e (List.mem_cons_self ..)) R t
    simp only [gaps, List.map_cons]
    rw [this]
    exact congrArg _ (ih fun e he => hc e (List.mem_cons_of_mem _ he))

/-- what a converted block's components are worth -/
theorem stated_gaps {asm b B0} (h : astBlockToBlock asm b = .ok B0) (hv : B0.validate = .ok ()) (R : RealPath) (t : Int) :
    gaps R t (dvals B0.identities ++ B0.keptConstraints ++ dvals B0.objective) = (Pip.stated b).map (gapOf asm R t) := by
  have wf := (C67_accepted_iff B0).1 hv
  obtain ⟨⟨ds, os, cs, is, ks, hds, ed, hos, eo, hcs, ec, his, ei, _⟩, hfl, _⟩ := C20_numbering asm b B0 h
  have ld := hds.length_eq
  have lo := hos.length_eq
  have po := comp_plain h eo hos (fun j e he => by
    have := (List.getElem?_eq_some_iff.1 he).1
    simp only [Blk.equations, List.append_assoc]
    rw [List.getElem?_append_right (by omega), Nat.add_sub_cancel_left, List.getElem?_append_left this, he])
    (fun l hl p hp => (wf.objective l hl p hp).1)
  have gc : ∀ j e, b.constraints[j]? = some e → b.equations[b.definitions.length + b.objective.length + j]? = some e := fun j e he => by
    have := (List.getElem?_eq_some_iff.1 he).1
    simp only [Blk.equations, List.append_assoc]
    rw [List.getElem?_append_right (by omega), List.getElem?_append_right (by omega), List.getElem?_append_left (by omega), ← he]
    congr 1; omega
  have pc := comp_plain h ec hcs gc wf.constraints
  have pi := comp_plain h ei his (fun j e he => by
    have := (List.getElem?_eq_some_iff.1 he).1
    simp only [Blk.equations, List.append_assoc]
    rw [List.getElem?_append_right (by omega), List.getElem?_append_right (by omega), List.getElem?_append_right (by omega), ← he]
    congr 1; omega) wf.identities
  have hk := kept_conv B0.flags hcs _ (fun j e he => flag_at h _ e (gc j e he))
  rw [← keptConstraints_eq B0 _ cs ec] at hk
  have e1 := gaps_conv his pi R t
  have e2 := gaps_conv hk (fun a ha => pc a (List.mem_of_mem_filter ha)) R t
  have e3 := gaps_conv hos po R t
  rw [ei, eo, dvals_component, dvals_component]
  simp only [gaps, Pip.stated, List.map_append] at e1 e2 e3 ⊢
  rw [e1, e2, e3]

/-- every equation a built block states is worth, along any path with its definitions, one of the equations built -/
theorem built_gaps {asm ss b r} (h : constructBlock asm ss b = .ok r) (e : Eqn) (he : e ∈ Pip.stated (expandBlock b)) :
    ∃ q ∈ r.equations, ∀ R : RealPath, (∀ t, ∀ e ∈ (expandBlock b).definitions, e.holds (realInterp asm R) (pathOf asm R) t) → ∀ t,
      q.val R t = gapOf asm R t e := by
  obtain ⟨B0, B, vs0, dicts, s, h1, h2, h3, _, _, h6, _, _, h9, _⟩ := build_ok h
  rw [h9]
  have wf := (C67_accepted_iff B0).1 h2
  have hdefs : ∀ R : RealPath, (∀ t, ∀ e ∈ (expandBlock b).definitions, e.holds (realInterp asm R) (pathOf asm R) t) →
      DefsHold (dvals B0.definitions) R := fun R hR s hs t => ((stated_conv h1 h2 R t).2.2 (hR t)) s hs
  obtain ⟨dd, hB⟩ : ∃ ds, B = { B0 with definitions := ds } := by
    unfold Block.consolidate at h3
    split at h3
    · exact ⟨B0.definitions, by cases h3; rfl⟩
    · split at h3
      · cases h3; exact ⟨_, rfl⟩
      · cases h3
  have e1 : B.identities = B0.identities := by rw [hB]
  have e2 : B.keptConstraints = B0.keptConstraints := by rw [hB]; rfl
  have e3 : B.objective = B0.objective := by rw [hB]
  have e4 : B.controls = B0.controls := by rw [hB]
  -- it is enough to have the list of values
  suffices hp : ∃ plain : List SExpr, (∀ q ∈ plain, q ∈ s.equations) ∧
      plain.length = (dvals B0.identities ++ B0.keptConstraints ++ dvals B0.objective).length ∧ ∀ R : RealPath, DefsHold (dvals B.definitions) R → ∀ t,
      plain.map (·.val R t) = gaps R t (dvals B0.identities ++ B0.keptConstraints ++ dvals B0.objective) by
    obtain ⟨plain, hp1, hp0, hp2⟩ := hp
    obtain ⟨i, hi, hei⟩ := List.getElem_of_mem he
    have hlen : plain.length = (Pip.stated (expandBlock b)).length := by
      have := congrArg List.length (stated_gaps h1 h2 ⟨fun _ => 0, fun _ _ _ => 0, fun _ _ => 0⟩ 0)
      simp only [gaps, List.length_map] at this
      rw [hp0, this]
    have hne : i < plain.length := by omega
    refine ⟨plain[i], hp1 _ (List.getElem_mem _), fun R hR t => ?_⟩
    have hv := hp2 R (defsHold_consolidate h3 R (hdefs R hR)).1 t
    rw [stated_gaps h1 h2] at hv
    have := congrArg (fun l => l[i]?) hv
    simp only [List.getElem?_map, List.getElem?_eq_getElem hne, List.getElem?_eq_getElem hi, Option.map_some, Option.some.injEq, hei] at this
    exact this
  cases hc : B.controls with
  | none =>
    have ho : B.objective = none := by
      rw [e3]; have := wf.both; rw [← e4, hc] at this
      cases hh : B0.objective with
      | none => rfl
      | some x => rw [hh] at this; simp at this
    obtain ⟨hl, h7⟩ := C23_no_optimisation B s hc ho h6
    refine ⟨s.equations, fun _ h => h, by rw [hl, ← e3, ho, ← e1, ← e2]; simp [dvals], ?_⟩
    intro R hR t
    rw [h7 R hR t, ← e3, ho, ← e1, ← e2]
    simp [gaps, dvals]
  | some cs =>
    have ho : ∃ okey obj, B.objective = some [(okey, obj)] := by
      have hb := wf.both; rw [← e4, hc, ← e3] at hb
      cases hh : B.objective with
      | none => rw [hh] at hb; simp at hb
      | some x =>
        have hl := wf.one x (by rw [← e3, hh])
        rcases x with _ | ⟨⟨k, o⟩, _ | ⟨y, z⟩⟩
        · unfold Block.solve at h6
          cases hp : B.plainEquations with
          | error e => rw [hp] at h6; cases h6
          | ok eqs => rw [hp] at h6; simp only [hh, hc] at h6; cases h6
        · exact ⟨k, o, rfl⟩
        · simp at hl
    obtain ⟨okey, obj, ho⟩ := ho
    obtain ⟨L, ms, df, plain, focs, _, _, h7, hl, h8, _⟩ := C23_equations B s okey obj [] cs hc ho h6
    refine ⟨plain, fun q hq => by rw [h7]; exact List.mem_append_left _ hq, by rw [hl, ← e3, ho, ← e1, ← e2]; simp [dvals]; omega, ?_⟩
    intro R hR t
    rw [h8 R hR t, ← e3, ho, ← e1, ← e2]
    simp [gaps, dvals]

end Rsp
open Rsp

/-- the equation of the file, as written, at date `t` on the path: left minus right side -/
noncomputable def Gcn.writtenGap (m : Gcn.GFile) (e : Eqn) (R : RealPath) (t : Int) : ℝ :=
  e.lhs.eval (realInterp m.assumptions R) (pathOf m.assumptions R) t - e.rhs.eval (realInterp m.assumptions R) (pathOf m.assumptions R) t

namespace Rsp

/-- along the path, the names put in place of `o` mean `o` -/
def Moves (path : Str → Int → ℝ) (o : Str × TIdx) : Prop :=
  ∀ K : Nat, 1 ≤ K → (o.2 = .t (-(K + 1)) → ∀ t, path (makeLagName o.1 K) t = path o.1 (t - K)) ∧
    (o.2 = .t (K + 1) → ∀ t, path (makeLeadName o.1 K) t = path o.1 (t + K))

theorem moved_var (I : Interp ℝ) (path : Str → Int → ℝ) (d : Deep) (x : Str) (s : TIdx) (h : Moves path (x, s)) (t : Int) :
    (Expr.var (replaceVar d x s).1 (replaceVar d x s).2).eval I path t = (Expr.var x s).eval I path t := by
  cases s with
  | ss => rfl
  | t k =>
    simp only [replaceVar]
    split
    · rename_i h1
      simp only [Expr.eval]
      rw [(h (k.natAbs - 1) (by omega)).1 (by simp only [TIdx.t.injEq]; omega)]
      congr 1; omega
    · split
      · rename_i h0 h1
        simp only [Expr.eval]
        rw [(h (k.natAbs - 1) (by omega)).2 (by simp only [TIdx.t.injEq]; omega)]
        congr 1; omega
      · rfl

mutual
theorem moved_expr (I : Interp ℝ) (path : Str → Int → ℝ) (d : Deep) (t : Int) (e : Expr) (h : ∀ o ∈ e.vars, Moves path o) :
    (replaceExpr d e).eval I path t = e.eval I path t := by
  cases e with
  | num v => rfl
  | par n => rfl
  | var n s => exact moved_var I path d n s (h (n, s) (by simp [Expr.vars])) t
  | bin op l r =>
    simp only [replaceExpr, Expr.eval]
    rw [moved_expr I path d t l fun o ho => h o (by simp [Expr.vars, ho]), moved_expr I path d t r fun o ho => h o (by simp [Expr.vars, ho])]
  | neg e =>
    simp only [replaceExpr, Expr.eval]
    rw [moved_expr I path d t e fun o ho => h o (by simpa [Expr.vars] using ho)]
  | call f as =>
    simp only [replaceExpr, Expr.eval]
    rw [moved_args I path d t as fun o ho => h o (by simpa [Expr.vars] using ho)]
  | expect e =>
    simp only [replaceExpr, Expr.eval]
    rw [moved_expr I path d t e fun o ho => h o (by simpa [Expr.vars] using ho)]
theorem moved_args (I : Interp ℝ) (path : Str → Int → ℝ) (d : Deep) (t : Int) (as : List Expr) (h : ∀ o ∈ Expr.varsArgs as, Moves path o) :
    Expr.evalArgs I path t (replaceArgs d as) = Expr.evalArgs I path t as := by
  cases as with
  | nil => rfl
  | cons a as =>
    simp only [replaceArgs, Expr.evalArgs]
    rw [moved_expr I path d t a fun o ho => h o (by simp [Expr.varsArgs, ho]), moved_args I path d t as fun o ho => h o (by simp [Expr.varsArgs, ho])]
end

theorem moved_eqn (I : Interp ℝ) (path : Str → Int → ℝ) (d : Deep) (t : Int) (e : Eqn) (h : ∀ o ∈ e.vars, Moves path o) :
    (replaceEqn d e).lhs.eval I path t = e.lhs.eval I path t ∧ (replaceEqn d e).rhs.eval I path t = e.rhs.eval I path t :=
  ⟨moved_expr I path d t e.lhs fun o ho => h o (by simp [Eqn.vars, ho]), moved_expr I path d t e.rhs fun o ho => h o (by simp [Eqn.vars, ho])⟩

/-- what the equations a block states become when its deep dates are replaced -/
theorem expanded_stated (b : Blk) : ∃ g : Eqn → Eqn, (∀ e ∈ Pip.stated b, g e ∈ Pip.stated (expandBlock b)) ∧
    (∀ e ∈ (expandBlock b).definitions, ∃ e' ∈ b.definitions, e = g e') ∧ ∀ (I : Interp ℝ) (path : Str → Int → ℝ) (t : Int) (e : Eqn),
      (∀ o ∈ e.vars, Moves path o) → (g e).lhs.eval I path t = e.lhs.eval I path t ∧ (g e).rhs.eval I path t = e.rhs.eval I path t := by
  by_cases h : (blockDeep b).lags.isEmpty ∧ (blockDeep b).leads.isEmpty
  · have he : expandBlock b = b := by simp only [expandBlock]; rw [if_pos h]
    rw [he]
    exact ⟨id, fun e he => he, fun e he => ⟨e, he, rfl⟩, fun _ _ _ _ _ => ⟨rfl, rfl⟩⟩
  · refine ⟨replaceEqn (blockDeep b), fun e he => ?_, fun e he => ?_, fun I path t e h => moved_eqn I path _ t e h⟩
    · simp only [expandBlock]
      rw [if_neg h]
      simp only [Pip.stated, List.mem_append, List.mem_filter, List.mem_map] at he ⊢
      rcases he with (he | he) | he
      · exact .inl (.inl ⟨e, .inl he, rfl⟩)
      · exact .inl (.inr ⟨⟨e, he.1, rfl⟩, he.2⟩)
      · exact .inr ⟨e, he, rfl⟩
    · simp only [expandBlock] at he
      rw [if_neg h] at he
      obtain ⟨e', he', rfl⟩ := List.mem_map.1 he
      exact ⟨e', he', rfl⟩

theorem moves_of_shifts {f : Gcn.GFile} {R : RealPath} (h : f.ShiftsHold R) {b : Gcn.GBlock} (hb : f.IsModelBlock b) {e : Eqn}
    (he : e ∈ b.definitions ++ b.objective ++ b.constraints ++ b.identities) : ∀ o ∈ e.vars, Moves (pathOf f.assumptions R) o := by
  intro o ho K hK
  obtain ⟨n, s⟩ := o
  have hr : natStr K = (Nat.repr K).toList := by unfold natStr Nat.repr; simp only [String.toList_ofList]
  refine ⟨fun hs t => ?_, fun hs t => ?_⟩
  · simp only at hs
    subst hs
    unfold makeLagName
    rw [hr]
    exact (h b hb e he n K hK).1 ho t
  · simp only at hs
    subst hs
    unfold makeLeadName
    rw [hr]
    exact (h b hb e he n K hK).2 ho t

/-- every equation of the file is, along any path with its definitions and its auxiliary variables, worth one of the loaded equations -/
theorem written_gaps {text : List Char} {ts : List Tok} {f : Gcn.GFile} {P : Primitives} (hs : SpellsToks text ts) (hf : Gcn.IsFile ts f)
    (hl : Gcn.LoadGcn text P) (hd : f.DistinctNames) (b : Gcn.GBlock) (hb : f.IsModelBlock b) (e : Eqn) (he : e ∈ b.stated) :
    ∃ q ∈ P.equations, ∀ R : RealPath, f.ShiftsHold R → f.DefinitionsHold R → ∀ t, q.val R t = - Gcn.writtenGap f e R t := by
  obtain ⟨ss', hb1, hb2⟩ := Pip.loaded_blocks hs hf hl hd
  obtain ⟨p, hpm, hc⟩ := (Pip.forall2_mem hb2).1 b ((Pip.modelBlock_iff f b).1 hb)
  obtain ⟨g, hg1, hg2, hg3⟩ := expanded_stated b.toBlk
  obtain ⟨q, hq, hval⟩ := built_gaps hc (g e) (hg1 e he)
  refine ⟨q, by rw [hb1, List.mem_flatMap]; exact ⟨p, hpm, hq⟩, fun R hsh hdef t => ?_⟩
  have hin : e ∈ b.definitions ++ b.objective ++ b.constraints ++ b.identities := by
    simp only [Gcn.GBlock.stated, List.mem_append, List.mem_filter] at he ⊢
    rcases he with (he | he) | he
    · exact .inr he
    · exact .inl (.inr he.1)
    · exact .inl (.inl (.inr he))
  rw [hval R ?_ t]
  · obtain ⟨h1, h2⟩ := hg3 (realInterp f.assumptions R) (pathOf f.assumptions R) t e (moves_of_shifts hsh hb hin)
    unfold gapOf Gcn.writtenGap
    rw [h1, h2]
    ring
  · intro u e' he'
    obtain ⟨e0, h0, rfl⟩ := hg2 e' he'
    have h0' : e0 ∈ b.definitions ++ b.objective ++ b.constraints ++ b.identities := by
      simp only [List.mem_append]; exact .inl (.inl (.inl h0))
    obtain ⟨h1, h2⟩ := hg3 (realInterp f.assumptions R) (pathOf f.assumptions R) u e0 (moves_of_shifts hsh hb h0')
    have := hdef b hb e0 h0 u
    unfold Eqn.holds at this ⊢
    rw [h1, h2]
    exact this

/-- dates `-1`, `0`, `1` need no auxiliary variables -/
theorem shifts_of_near {f : Gcn.GFile} (hnear : ∀ b, f.IsModelBlock b → ∀ e ∈ b.definitions ++ b.objective ++ b.constraints ++ b.identities,
    ∀ n k, (n, TIdx.t k) ∈ e.vars → -1 ≤ k ∧ k ≤ 1) (R : RealPath) : f.ShiftsHold R := by
  intro b hb e he n K hK
  refine ⟨fun h => ?_, fun h => ?_⟩
  · have := hnear b hb e he n _ h; omega
  · have := hnear b hb e he n _ h; omega

end Rsp

/-- **C130, the whole way**: a GCN file is read, its blocks become a system of equations, the system is linearised at a steady state that
solves it and solved, and impulse responses are printed. Put the economy on a printed response scaled by `h`, with the definitions of the
blocks holding (and the auxiliary variables standing for deeper lags and leads being those). Then every equation of the file, as written,
holds at every date of the table up to something smaller than any multiple of `h`. -/
theorem C130_written (text : List Char) (ts : List Tok) (f : Gcn.GFile) (P : Primitives) (hs : SpellsToks text ts) (hf : Gcn.IsFile ts f)
    (hl : Gcn.LoadGcn text P) (hd : f.DistinctNames)
    (loglin : List TSym) (par : Str → ℝ) (ss : List (Str × ℝ)) (found : Bool)
    (hn : Named P.variables P.shocks) (hsh : Shallow P.variables P.shocks P.equations)
    (hsm : ∀ e ∈ P.equations, e.Smooth (steadyPath par (ssOf ss) P.shocks) 0)
    (hss : ∀ v ∈ P.variables, (dget (normalizeConditions ss) v.base).isSome) (hsq : P.equations.length = P.variables.length)
    (hzero : ∀ e ∈ P.equations, e.val (steadyPath par (ssOf ss) P.shocks) 0 = 0)
    (tol : ℝ) (gen : GenOracle P.variables.length tol) (maxIter : ℕ) (backward : Bool) (solver onFailure : Str) (htol : 0 < tol)
    (hclean : ∀ m, linearMats P.variables P.equations P.shocks loglin par ss = some m → CleanLeads m.C tol)
    (hback : ∀ m, linearMats P.variables P.equations P.shocks loglin par ss = some m → backward = true → m.C = 0)
    (hexact : backward = true ∨ solver ≠ "cycle_reduction".toList)
    (T : Mat P.variables.length P.variables.length) (R : Mat P.variables.length P.shocks.length)
    (hsolve : solveModel (some (ss, found)) (linearMats P.variables P.equations P.shocks loglin par) tol gen maxIter backward solver onFailure =
      .ok (some (T, R)))
    (chol : Mat P.shocks.length P.shocks.length → Option (Mat P.shocks.length P.shocks.length)) (z : Fin P.shocks.length → ℝ) (len : ℕ) (s : ShockSize)
    (rq : Option Bool) (orth : Bool) (sel : List Str) (data : List (List (Fin P.variables.length → ℝ)))
    (hirf : impulseResponse chol z (fun i => P.shocks[i].base) T R len ⟨some s, none, none⟩ rq orth = .ok (.individual sel data))
    (j : Fin P.shocks.length) (d : List (Fin P.variables.length → ℝ))
    (hp : (j, d) ∈ ((List.finRange P.shocks.length).filter (fun i => P.shocks[i].base ∈ sel)).zip data)
    (F : ℝ → RealPath) (hdef : ∀ h, f.DefinitionsHold (F h)) (hshift : ∀ h, f.ShiftsHold (F h))
    (hF : ∀ h, Deviates P.variables P.shocks loglin par ss (tableDev d) (oneShock j (specSize (fun i => P.shocks[i].base) s j)) (len - 1) h (F h))
    (b : Gcn.GBlock) (hb : f.IsModelBlock b) (e : Eqn) (he : e ∈ b.stated) (t : Int) (h1 : 0 ≤ t) (h2 : t + 1 < len) :
    (fun h => Gcn.writtenGap f e (F h) t) =o[nhds 0] fun h : ℝ => h := by
  obtain ⟨q, hqP, hval⟩ := written_gaps hs hf hl hd b hb e he
  have key := C130_irf P.variables P.equations P.shocks loglin par ss found hn hsh hsm hss hsq hzero tol gen maxIter backward solver onFailure htol hclean hback
    hexact T R hsolve chol z len s rq orth sel data hirf j d hp F hF q hqP t h1 h2
  have : (fun h => Gcn.writtenGap f e (F h) t) = fun h => - q.val (F h) t := by
    funext h
    rw [hval (F h) (hshift h) (hdef h) t, neg_neg]
  rw [this]
  exact key.neg_left

namespace Rsp
open Gcn

/-- a file with one nonlinear equation -/
def rsText : List Char := "block AR { identities { x[] = 2 + 0.5*x[-1] + e[]*x[-1]; }; shocks { e[]; }; };".toList
/-- its tokens -/
def rsToks : List Tok := [.id "block".toList, .id "AR".toList, .lbrace, .id "identities".toList, .lbrace, .id "x".toList, .tix (.t 0), .eq, .num 2, .op .add,
  .num (1/2), .op .mul, .id "x".toList, .tix (.t (-1)), .op .add, .id "e".toList, .tix (.t 0), .op .mul, .id "x".toList, .tix (.t (-1)), .semi, .rbrace, .semi,
  .id "shocks".toList, .lbrace, .id "e".toList, .tix (.t 0), .semi, .rbrace, .semi, .rbrace, .semi]
/-- its equation -/
def rsEq : Eqn where
  lhs := .var "x".toList (.t 0)
  rhs := .bin .add (.bin .add (.num 2) (.bin .mul (.num (1/2)) (.var "x".toList (.t (-1))))) (.bin .mul (.var "e".toList (.t 0)) (.var "x".toList (.t (-1))))
  lagrange := none
  calibrating := none
  tags := []
/-- its block -/
def rsBlock : GBlock where
  name := "AR".toList
  identities := [rsEq]
  shocks := [⟨"e".toList, .t 0⟩]
/-- the file -/
def rsFile : GFile := { blocks := [rsBlock] }

/-- the variable -/
def rsX : TSym := ⟨"x".toList, .t 0, [("real".toList, true), ("finite".toList, true)]⟩
/-- the shock -/
def rsE : TSym := ⟨"e".toList, .t 0, [("real".toList, true), ("finite".toList, true)]⟩
/-- the loaded equation -/
def rsQ : SExpr := .add (.add (.add (.num 2) (.mul (.num (1/2)) (.sym (.tv (rsX.atT (-1)))))) (.mul (.sym (.tv rsE)) (.sym (.tv (rsX.atT (-1))))))
  (.mul (.num (-1)) (.sym (.tv rsX)))

theorem rs_spells : SpellsToks rsText rsToks := (C106_reading _ _).1 (by decide +kernel)
theorem rs_file : IsFile rsToks rsFile := (C107_grammar _ _).1 ⟨30, rfl⟩
theorem rs_load : ∃ P, LoadGcn rsText P ∧ P.equations = [rsQ] ∧ P.variables = [rsX] ∧ P.shocks = [rsE] := by
  obtain ⟨P, h1, h2⟩ := Ldr.loaded rsFile.toMdl (fun P => (P.equations, P.variables, P.shocks)) ([rsQ], [rsX], [rsE]) (by decide +kernel)
  exact ⟨P, ⟨rsFile, (C107_parse _ _).2 ⟨_, rs_spells, rs_file⟩, h1⟩, congrArg Prod.fst h2, congrArg (fun p => p.2.1) h2, congrArg (fun p => p.2.2) h2⟩

theorem rs_block (b : GBlock) (h : rsFile.IsModelBlock b) : b = rsBlock := by simpa [rsFile] using h.1

theorem rs_model : rsFile.IsModelBlock rsBlock := by
  have h : ¬ (isSkippedName rsBlock.name = true) := by decide
  rw [C53_skipped_names, not_or] at h
  exact ⟨by simp [rsFile], h⟩

theorem rs_shifts (R : RealPath) : rsFile.ShiftsHold R := by
  refine shifts_of_near (fun b hb e he n k h => ?_) R
  cases rs_block b hb
  simp only [rsBlock, List.nil_append, List.append_nil, List.mem_singleton] at he
  subst he
  simp only [Eqn.vars, rsEq, Expr.vars, List.nil_append, List.mem_append, List.mem_singleton, Prod.mk.injEq, TIdx.t.injEq] at h
  rcases h with h | h | h | h <;> omega

/-- the steady state: 4 = 2 + 4 / 2 -/
noncomputable def rsSS : List (Str × ℝ) := [("x_ss".toList, 4)]

theorem rs_named : Named [rsX] [rsE] := ⟨by decide, by decide, by decide, by decide⟩

theorem rs_shallow : Shallow [rsX] [rsE] [rsQ] := by
  intro q hq s hs
  simp only [List.mem_singleton] at hq
  subst hq
  have : s ∈ [rsX.atT (-1), rsE, rsX.atT (-1), rsX] := by
    have h := mem_tsyms.1 hs
    simpa [rsQ, SExpr.syms] using h
  simp only [List.mem_cons, List.not_mem_nil, or_false] at this
  rcases this with rfl | rfl | rfl | rfl
  · exact .inl ⟨rsX, by simp, rfl, rfl, .inr (.inl rfl)⟩
  · exact .inr ⟨rsE, by simp, rfl, rfl, .inr rfl⟩
  · exact .inl ⟨rsX, by simp, rfl, rfl, .inr (.inl rfl)⟩
  · exact .inl ⟨rsX, by simp, rfl, rfl, .inr (.inr (.inl rfl))⟩

theorem rs_ss : dget (normalizeConditions rsSS) rsX.base = some 4 := by
  simp [normalizeConditions, removeSuffixSS, ssSuffix, dupdate, dset, dget, rsX, rsSS, List.isSuffixOf]

/-- the value of the expressions in the example at the steady state -/
theorem rs_x (k : Int) : (steadyPath (fun _ => 0) (ssOf rsSS) [rsE]).val.symAt 0 (.tv (rsX.atT k)) = 4 := by
  simp only [Valuation.symAt, TSym.atT, RealPath.val, steadyPath]
  rw [if_neg (by decide)]
  simp [ssOf, rs_ss]
theorem rs_e : (steadyPath (fun _ => 0) (ssOf rsSS) [rsE]).val.symAt 0 (.tv rsE) = 0 := by
  show (if (⟨rsE.base, .ss, rsE.asm⟩ : TSym) ∈ [rsE].map toSS then (0 : ℝ) else ssOf rsSS ⟨rsE.base, .ss, rsE.asm⟩) = 0
  rw [if_pos (by decide)]

/-- the derivative of the equation at the steady state -/
theorem rs_diff (v : Sym) : (rsQ.diff v).eval ((steadyPath (fun _ => 0) (ssOf rsSS) [rsE]).val.symAt 0) =
    1 / 2 * (if Sym.tv (rsX.atT (-1)) = v then 1 else 0) + (if Sym.tv rsE = v then 1 else 0) * 4 - (if Sym.tv rsX = v then 1 else 0) := by
  have h : ∀ s : Sym, ((SExpr.sym s).diff v).eval ((steadyPath (fun _ => 0) (ssOf rsSS) [rsE]).val.symAt 0) = if s = v then 1 else 0 := fun s => by
    simp only [SExpr.diff]; split <;> simp [SExpr.eval]
  have h0 : ∀ q : ℚ, ((SExpr.num q).diff v).eval ((steadyPath (fun _ => 0) (ssOf rsSS) [rsE]).val.symAt 0) = 0 := fun q => by simp [SExpr.diff, SExpr.eval]
  have hx := rs_x (-1)
  show ((_ + (_ * _ + _ * _)) + (_ * _ + _ * _)) + (_ * _ + _ * _) = _
  simp only [h, h0, SExpr.eval, rs_e, hx]
  push_cast
  ring

theorem rs_entry (v : TSym) : evalAt (fun _ => 0) (ssOf rsSS) (jacEntry [rsE] rsQ v) =
    1 / 2 * (if Sym.tv (rsX.atT (-1)) = .tv v then 1 else 0) + (if Sym.tv rsE = .tv v then 1 else 0) * 4 - (if Sym.tv rsX = .tv v then 1 else 0) := by
  rw [evalAt, Ptb.jacEntry_val _ _ _ _ _ _ 0 0, ← rs_diff, eval_symAt]

theorem rs_mats : ∃ m, linearMats [rsX] [rsQ] [rsE] [] (fun _ => 0) rsSS = some m ∧ (∀ i j, m.B i j = -1) ∧ m.C = 0 := by
  refine ⟨_, by rw [linearMats, Ptb.linearizeModel_eq _ _ _ _ _ (evalAt fun _ => 0) rs_named.varNames (by simp [rs_ss])]; rfl, ?_, ?_⟩
  · intro i j
    have hi : (i : ℕ) = 0 := by exact Nat.lt_one_iff.1 i.isLt
    have hj : (j : ℕ) = 0 := by exact Nat.lt_one_iff.1 j.isLt
    simp only [matsOf, Matrix.of_apply, entryAt, hi, hj, List.map_cons, List.map_nil, List.getElem?_cons_zero, Option.bind_some, Option.getD_some, rs_entry]
    rw [if_neg (by decide), if_neg (by decide), if_pos (by decide)]
    simp [promisedScale]
  · ext i j
    have hi : (i : ℕ) = 0 := by exact Nat.lt_one_iff.1 i.isLt
    have hj : (j : ℕ) = 0 := by exact Nat.lt_one_iff.1 j.isLt
    simp only [matsOf, Matrix.of_apply, entryAt, hi, hj, List.map_cons, List.map_nil, List.getElem?_cons_zero, Option.bind_some, Option.getD_some, rs_entry]
    rw [if_neg (by decide), if_neg (by decide), if_neg (by decide)]
    simp

end Rsp
open Rsp

/-- the hypotheses are met: a file with `x[] = 2 + 0.5*x[-1] + e[]*x[-1]` is read, linearised at `x = 4`, solved, and its responses over ten
periods satisfy the nonlinear equation to first order -/
example : ∃ (P : Primitives) (T : Mat P.variables.length P.variables.length) (R : Mat P.variables.length P.shocks.length) (sel : List Str)
    (data : List (List (Fin P.variables.length → ℝ))) (F : ℝ → RealPath), Gcn.LoadGcn rsText P ∧
    solveModel (some (rsSS, true)) (linearMats P.variables P.equations P.shocks [] (fun _ => 0)) 1 (fun _ _ _ => none) 5 true "gensys".toList "error".toList =
      .ok (some (T, R)) ∧
    impulseResponse (fun Q => some Q) 0 (fun i => P.shocks[i].base) T R 10 ⟨some (.scalar 1), none, none⟩ none false = .ok (.individual sel data) ∧
    ∀ t : Int, 0 ≤ t → t < 9 → (fun h => Gcn.writtenGap rsFile rsEq (F h) t) =o[nhds 0] fun h : ℝ => h := by
  obtain ⟨P, hl, h1, h2, h3⟩ := rs_load
  obtain ⟨eqs, vars, shs, p4, p5, p6, p7, p8, p9⟩ := P
  simp only at h1 h2 h3
  subst h1 h2 h3
  obtain ⟨m, hm, hB, hC⟩ := rs_mats
  have hdet : IsUnit m.B.det := by
    have : m.B.det = -1 := by
      have : m.B = (Matrix.of fun _ _ => -1 : Matrix (Fin 1) (Fin 1) ℝ) := by ext i j; exact hB i j
      rw [this]
      exact Matrix.det_fin_one _
    rw [this]
    exact isUnit_one.neg
  obtain ⟨⟨T, R⟩, hTR⟩ := Option.isSome_iff_exists.1 ((C36_backward m.A m.B m.C m.D).1.2 hdet)
  have hsolve : solveModel (some (rsSS, true)) (linearMats [rsX] [rsQ] [rsE] [] (fun _ => 0)) 1 (fun _ _ _ => none) 5 true "gensys".toList "error".toList =
      .ok (some (T, R)) := by
    unfold solveModel
    rw [if_neg (by simp)]
    dsimp only
    rw [hm]
    dsimp only
    unfold solveLinear
    rw [if_pos rfl, if_neg (by decide), if_neg (by decide), if_pos rfl, if_pos rfl, hTR]
  obtain ⟨sel, data, hirf⟩ := C38_accepts (fun Q => some Q) 0 (fun i => [rsE][i].base) T R 9 (.scalar 1) false trivial
  obtain ⟨idx, hidx, -, hnm, hall⟩ := C37_individual _ _ _ T R _ _ _ _ _ _ hirf
  let j : Fin [rsE].length := ⟨0, by simp⟩
  obtain ⟨n, hn, hjn⟩ := List.getElem_of_mem ((hnm j).2 (by intro d h; cases h))
  have hlen := hall.length_eq
  have hp : (j, data[n]'(by omega)) ∈ ((List.finRange [rsE].length).filter (fun i => [rsE][i].base ∈ sel)).zip data := by
    rw [← hidx, ← hjn]
    have : n < (idx.zip data).length := by simp; omega
    have := List.getElem_mem this
    simpa using this
  obtain ⟨F, hF⟩ := C130_paths_exist [rsX] [rsE] [] rs_named (fun _ => 0) rsSS (tableDev (data[n]'(by omega)))
    (oneShock j (specSize (fun i => [rsE][i].base) (.scalar 1) j)) (((9 + 1 : ℕ) : Int) - 1)
  refine ⟨_, T, R, sel, data, F, hl, hsolve, hirf, fun t h1 h2 => ?_⟩
  refine C130_written rsText rsToks rsFile _ rs_spells rs_file hl (by simp [Gcn.GFile.DistinctNames, rsFile]) [] (fun _ => 0) rsSS true rs_named rs_shallow
    ?_ ?_ rfl ?_ 1 (fun _ _ _ => none) 5 true "gensys".toList "error".toList one_pos ?_ ?_ (.inl rfl) T R hsolve _ _ _ _ _ _ _ _ hirf j _ hp F ?_ (fun h => rs_shifts _) hF rsBlock rs_model
    rsEq (by simp [Gcn.GBlock.stated, rsBlock]) t h1 (by push_cast; omega)
  · intro e he
    simp only [List.mem_singleton] at he
    subst he
    simp [rsQ, SExpr.Smooth]
  · intro v hv
    simp only [List.mem_singleton] at hv
    subst hv
    rw [rs_ss]; rfl
  · intro e he
    simp only [List.mem_singleton] at he
    subst he
    rw [← eval_symAt]
    have hx : (steadyPath (fun _ => 0) (ssOf rsSS) [rsE]).val.symAt 0 (.tv rsX) = 4 := rs_x 0
    simp only [rsQ, SExpr.eval, rs_x, rs_e, hx]
    norm_num
  · intro m' hm'
    obtain rfl : m = m' := by simpa [hm] using hm'
    rw [hC]
    intro j _ i
    rfl
  · intro m' hm' _
    obtain rfl : m = m' := by simpa [hm] using hm'
    exact hC
  · intro h b hb e he
    cases rs_block b hb
    cases he

end GE
