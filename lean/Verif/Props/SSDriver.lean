import Verif.Model.SSDriver
import Verif.Props.SteadyState
import Verif.Props.PerfectForesight
import Verif.Props.Containers2
import Verif.Props.Lagrangian
/-!
# C79-C85: the steady-state driver
-/

namespace GE

/-! ## C79: bounds -/

/-- specification: the value lies strictly inside the bound -/
def Bound.Holds (b : Bound) (x : ℝ) : Prop := (∀ a, b.1 = some a → (a : ℝ) < x) ∧ ∀ c, b.2 = some c → x < (c : ℝ)

/-- specification: the bound leaves room -/
def Bound.Proper (b : Bound) : Prop := ∀ a c, b.1 = some a → b.2 = some c → a < c

/-- specification: the open region a transform stands for -/
def regionOf : Option Transform → Bound
  | none => (none, none)
  | some .log => (some 0, none)
  | some .logodds => (some 0, some 1)
  | some (.interval lo hi) => (lo, hi)

namespace Drv

/-- the real function a transform maps back with -/
noncomputable def back (t : Option Transform) (y : ℝ) : ℝ := (backwardExpr t (.sym (.par []))).eval fun _ => y

theorem sigmoid_eval (y : SExpr) (env : Sym → ℝ) : (sigmoidExpr y).eval env = 1 / (1 + Real.exp (-(y.eval env))) := by
  simp [sigmoidExpr, SExpr.neg, SExpr.eval, Real.rpow_neg_one]

theorem back_eval (t : Option Transform) (y : SExpr) (env : Sym → ℝ) : (backwardExpr t y).eval env = back t (y.eval env) := by
  rcases t with _ | ⟨lo, hi⟩ | _ | _
  · simp [back, backwardExpr, SExpr.eval]
  · rcases lo with _ | lo <;> rcases hi with _ | hi <;>
      simp [back, backwardExpr, SExpr.eval, SExpr.sub, sigmoid_eval]
  · simp [back, backwardExpr, sigmoid_eval, SExpr.eval]
  · simp [back, backwardExpr, SExpr.eval]

theorem sig_bounds (y : ℝ) : 0 < 1 / (1 + Real.exp (-y)) ∧ 1 / (1 + Real.exp (-y)) < 1 := by
  have h := Real.exp_pos (-y)
  refine ⟨by positivity, ?_⟩
  rw [div_lt_one (by positivity)]
  linarith

theorem back_region (t : Option Transform) (ht : (regionOf t).Proper) (y : ℝ) : (regionOf t).Holds (back t y) := by
  have he := Real.exp_pos y
  obtain ⟨h0, h1⟩ := sig_bounds y
  rcases t with _ | ⟨lo, hi⟩ | _ | _
  · simp [regionOf, Bound.Holds]
  · rcases lo with _ | lo <;> rcases hi with _ | hi
    · simp [regionOf, Bound.Holds]
    · simp [regionOf, Bound.Holds, back, backwardExpr, SExpr.eval, SExpr.sub, he]
    · simp [regionOf, Bound.Holds, back, backwardExpr, SExpr.eval, he]
    · have hlt : (lo : ℝ) < hi := by exact_mod_cast ht lo hi rfl rfl
      simp only [regionOf, Bound.Holds, back, backwardExpr, SExpr.eval, SExpr.sub, sigmoid_eval]
      set s := 1 / (1 + Real.exp (-y))
      push_cast
      constructor
      · intro a ha
        obtain rfl : lo = a := by simpa using ha
        nlinarith
      · intro a ha
        obtain rfl : hi = a := by simpa using ha
        nlinarith
  · simp only [regionOf, Bound.Holds, back, backwardExpr, sigmoid_eval, SExpr.eval]
    refine ⟨fun a ha => ?_, fun a ha => ?_⟩
    · obtain rfl : (0 : Rat) = a := by simpa using ha
      simpa using h0
    · obtain rfl : (1 : Rat) = a := by simpa using ha
      push_cast
      exact h1
  · simp [regionOf, Bound.Holds, back, backwardExpr, SExpr.eval, he]

theorem sig_logit (p : ℝ) (h0 : 0 < p) (w : ℝ) (hw : Real.exp (-w) = (1 - p) / p) : 1 / (1 + Real.exp (-w)) = p := by
  rw [hw]; field_simp; ring

theorem forward_back (t : Option Transform) (x : ℝ) (hx : (regionOf t).Holds x) : ∃ y, forwardNum t x = some y ∧ back t y = x := by
  rcases t with _ | ⟨lo, hi⟩ | _ | _
  · exact ⟨x, rfl, rfl⟩
  · rcases lo with _ | lo <;> rcases hi with _ | hi
    · exact ⟨x, rfl, rfl⟩
    · have h : x < hi := hx.2 hi rfl
      refine ⟨Real.log (hi - x), by simp [forwardNum, h], ?_⟩
      simp [back, backwardExpr, SExpr.eval, SExpr.sub, Real.exp_log (sub_pos.mpr h)]
    · have h : (lo : ℝ) < x := hx.1 lo rfl
      refine ⟨Real.log (x - lo), by simp [forwardNum, h], ?_⟩
      simp [back, backwardExpr, SExpr.eval, Real.exp_log (sub_pos.mpr h)]
    · have hl : (lo : ℝ) < x := hx.1 lo rfl
      have hh : x < hi := hx.2 hi rfl
      refine ⟨Real.log (x - lo) - Real.log (hi - x), by simp [forwardNum, hl, hh], ?_⟩
      have hd : (0 : ℝ) < hi - lo := by linarith
      have hs := sig_logit ((x - lo) / (hi - lo)) (div_pos (sub_pos.mpr hl) hd)
        (Real.log (x - lo) - Real.log (hi - x)) (by
          rw [neg_sub, Real.exp_sub, Real.exp_log (sub_pos.mpr hh), Real.exp_log (sub_pos.mpr hl)]
          have := sub_pos.mpr hl
          have := sub_pos.mpr hh
          field_simp
          ring)
      simp only [back, backwardExpr, SExpr.eval, SExpr.sub, sigmoid_eval]
      rw [hs]
      push_cast
      field_simp
      ring
  · have h0 : 0 < x := by simpa using hx.1 0 rfl
    have h1 : x < 1 := by simpa using hx.2 1 rfl
    refine ⟨Real.log x - Real.log (1 - x), by simp [forwardNum, h0, h1], ?_⟩
    simp only [back, backwardExpr, sigmoid_eval, SExpr.eval]
    refine sig_logit x h0 _ ?_
    rw [neg_sub, Real.exp_sub, Real.exp_log h0, Real.exp_log (sub_pos.mpr h1)]
  · have h0 : 0 < x := by simpa using hx.1 0 rfl
    refine ⟨Real.log x, by simp [forwardNum, h0], ?_⟩
    simp [back, backwardExpr, SExpr.eval, Real.exp_log h0]

theorem sig_inj {y y' : ℝ} (h : 1 / (1 + Real.exp (-y)) = 1 / (1 + Real.exp (-y'))) : y = y' := by
  have h1 := Real.exp_pos (-y)
  have h2 := Real.exp_pos (-y')
  rw [div_eq_div_iff (by positivity) (by positivity)] at h
  have : Real.exp (-y) = Real.exp (-y') := by linarith
  have := Real.exp_injective this
  linarith

theorem back_inj (t : Option Transform) (ht : (regionOf t).Proper) {y y' : ℝ} (h : back t y = back t y') : y = y' := by
  rcases t with _ | ⟨lo, hi⟩ | _ | _
  · simpa [back, backwardExpr, SExpr.eval] using h
  · rcases lo with _ | lo <;> rcases hi with _ | hi
    · simpa [back, backwardExpr, SExpr.eval] using h
    · simpa [back, backwardExpr, SExpr.eval, SExpr.sub] using h
    · simpa [back, backwardExpr, SExpr.eval] using h
    · have hlt : (lo : ℝ) < hi := by exact_mod_cast ht lo hi rfl rfl
      simp only [back, backwardExpr, SExpr.eval, SExpr.sub, sigmoid_eval] at h
      push_cast at h
      apply sig_inj
      have hd : (hi : ℝ) - lo ≠ 0 := by linarith
      have : (1 / (1 + Real.exp (-y)) - 1 / (1 + Real.exp (-y'))) * ((hi : ℝ) - lo) = 0 := by linarith
      rcases mul_eq_zero.mp this with h | h
      · linarith
      · exact absurd h hd
  · apply sig_inj
    simpa only [back, backwardExpr, sigmoid_eval, SExpr.eval] using h
  · simpa [back, backwardExpr, SExpr.eval] using h

theorem toConstrained_eq (ts : List (Option Transform)) (y : List ℝ) : toConstrained ts y = List.zipWith back ts y := rfl

theorem plan_transformed {parAsm : Str → Asm} {vars : List Sym} {user : List (Str × Bound)} {prefer : Bool} {method : Option Str} {m : Str}
    {ts : List (Option Transform)} (h : boundPlan parAsm vars user prefer method = .transformed m ts) :
    ts = vars.map fun v => inferTransform (asmOf parAsm v) (some ((dget (boundDict parAsm vars user) (symName v)).getD (none, none))) := by
  unfold boundPlan at h
  rcases method with _ | m'
  · simp only [BoundPlan.transformed.injEq] at h
    exact h.2.symm
  · dsimp only at h
    split at h
    · simp at h
    · simp only [BoundPlan.transformed.injEq] at h
      exact h.2.symm

theorem dget_map_name {α : Type} {β : Type} {vars : List α} {nm : α → Str} (f : α → β) (hn : (vars.map nm).Nodup) {v : α} (hv : v ∈ vars) :
    dget (dupdate [] (vars.map fun v => (nm v, f v))) (nm v) = some (f v) := by
  have hk : (dkeys (vars.map fun v => (nm v, f v))).Nodup := by
    simpa [dkeys, List.map_map, Function.comp_def] using hn
  rw [dupdate_fresh [] _ (by simpa using hk)]
  exact dget_of_mem _ (by simpa using hk) _ _ (by simpa using ⟨v, hv, rfl, rfl⟩)

end Drv

open Drv in
/-- **C79** (every optimizer, every start) a variable for which the user gives a proper bound under the name of its steady state ends
strictly inside that bound, whatever the optimizer returns. -/
theorem C79_user_bound (parAsm : Str → Asm) (vars : List Sym) (user : List (Str × Bound)) (prefer : Bool) (method : Option Str) (m : Str)
    (ts : List (Option Transform)) (h : boundPlan parAsm vars user prefer method = .transformed m ts) (y : List ℝ)
    (hy : y.length = vars.length) (hu : (dkeys user).Nodup) (i : Nat) (v : Sym) (hv : vars[i]? = some v) (b : Bound)
    (hb : dget user (symName v) = some b) (hne : b ≠ (none, none)) (hp : b.Proper) :
    ∃ x, (minimizePoint (.transformed m ts) y)[i]? = some x ∧ b.Holds x := by
  have hts := plan_transformed h
  subst hts
  have hi : i < vars.length := by
    by_contra hc
    rw [List.getElem?_eq_none (by omega)] at hv
    cases hv
  obtain ⟨w, hw⟩ : ∃ w, y[i]? = some w := ⟨y[i], List.getElem?_eq_getElem (by omega)⟩
  have hd : dget (boundDict parAsm vars user) (symName v) = some b := by
    unfold boundDict
    rw [dget_dupdate, Cont2.dget_perm user hu, hb]
    rfl
  have ht : inferTransform (asmOf parAsm v) (some b) = some (.interval b.1 b.2) := by
    rcases b with ⟨_ | lo, _ | hi⟩
    · exact absurd rfl hne
    all_goals rfl
  refine ⟨back (some (.interval b.1 b.2)) w, ?_, back_region (some (.interval b.1 b.2)) hp w⟩
  simp only [minimizePoint, toConstrained_eq, List.getElem?_zipWith, List.getElem?_map, hv, hw, hd, Option.map_some, Option.getD_some, ht]

namespace Drv

theorem point_at {parAsm : Str → Asm} {vars : List Sym} {user : List (Str × Bound)} {prefer : Bool} {method : Option Str} {m : Str}
    {ts : List (Option Transform)} (h : boundPlan parAsm vars user prefer method = .transformed m ts) (y : List ℝ)
    {i : Nat} {v : Sym} (hv : vars[i]? = some v) {w : ℝ} (hw : y[i]? = some w) (b : Bound)
    (hd : dget (boundDict parAsm vars user) (symName v) = some b) :
    (minimizePoint (.transformed m ts) y)[i]? = some (back (inferTransform (asmOf parAsm v) (some b)) w) := by
  have hts := plan_transformed h
  subst hts
  simp only [minimizePoint, toConstrained_eq, List.getElem?_zipWith, List.getElem?_map, hv, hw, hd, Option.map_some, Option.getD_some]

theorem boundDict_default {parAsm : Str → Asm} {vars : List Sym} {user : List (Str × Bound)} (hn : (vars.map symName).Nodup)
    (hu : (dkeys user).Nodup) {v : Sym} (hv : v ∈ vars) (hb : symName v ∉ dkeys user) :
    dget (boundDict parAsm vars user) (symName v) = some (inferBounds (asmOf parAsm v)) := by
  unfold boundDict
  rw [dget_dupdate, Cont2.dget_perm user hu, (dget_eq_none _ _).mpr hb]
  exact dget_map_name (fun v => inferBounds (asmOf parAsm v)) hn hv

end Drv

open Drv in
/-- **C79** a variable without a user bound: declared positive it ends above `1e-8`, declared negative below `-1e-8`, with neither it is
whatever the optimizer returns (declared `unit_interval` without `positive`: in the open unit interval). -/
theorem C79_assumed_bound (parAsm : Str → Asm) (vars : List Sym) (user : List (Str × Bound)) (prefer : Bool) (method : Option Str) (m : Str)
    (ts : List (Option Transform)) (h : boundPlan parAsm vars user prefer method = .transformed m ts) (y : List ℝ)
    (hn : (vars.map symName).Nodup) (hu : (dkeys user).Nodup) (i : Nat) (v : Sym) (hv : vars[i]? = some v)
    (hb : symName v ∉ dkeys user) (w : ℝ) (hw : y[i]? = some w) :
    let a := asmOf parAsm v
    ∃ x, (minimizePoint (.transformed m ts) y)[i]? = some x ∧
      (a.has "positive".toList = true → a.has "negative".toList = false → 1e-8 < x) ∧
      (a.has "negative".toList = true → a.has "positive".toList = false → x < -1e-8) ∧
      (a.has "positive".toList = false → a.has "negative".toList = false → a.has "unit_interval".toList = false → x = w) ∧
      (a.has "positive".toList = false → a.has "negative".toList = false → a.has "unit_interval".toList = true → 0 < x ∧ x < 1) := by
  intro a
  have hp := point_at h y hv hw _ (boundDict_default hn hu (List.mem_of_getElem? hv) hb)
  refine ⟨_, hp, ?_, ?_, ?_, ?_⟩
  · intro h1 h2
    have h1' : (asmOf parAsm v).has positiveStr = true := h1
    have h2' : (asmOf parAsm v).has negativeStr = false := h2
    have ht : inferTransform (asmOf parAsm v) (some (inferBounds (asmOf parAsm v))) = some (.interval (some (1 / 100000000)) none) := by
      simp [inferBounds, h1', h2', inferTransform]
    rw [ht]
    have := (back_region (some (.interval (some (1 / 100000000)) none)) (by simp [regionOf, Bound.Proper]) w).1 _ rfl
    push_cast at this
    norm_num at this ⊢
    exact this
  · intro h1 h2
    have h1' : (asmOf parAsm v).has negativeStr = true := h1
    have h2' : (asmOf parAsm v).has positiveStr = false := h2
    have ht : inferTransform (asmOf parAsm v) (some (inferBounds (asmOf parAsm v))) = some (.interval none (some (-1 / 100000000))) := by
      simp [inferBounds, h1', h2', inferTransform]
    rw [ht]
    have := (back_region (some (.interval none (some (-1 / 100000000)))) (by simp [regionOf, Bound.Proper]) w).2 _ rfl
    push_cast at this
    norm_num at this ⊢
    exact this
  · intro h1 h2 h3
    have h1' : (asmOf parAsm v).has positiveStr = false := h1
    have h2' : (asmOf parAsm v).has negativeStr = false := h2
    have h3' : (asmOf parAsm v).has unitInterval = false := h3
    simp [inferBounds, h1', h2', inferTransform, h3', back, backwardExpr, SExpr.eval]
  · intro h1 h2 h3
    have h1' : (asmOf parAsm v).has positiveStr = false := h1
    have h2' : (asmOf parAsm v).has negativeStr = false := h2
    have h3' : (asmOf parAsm v).has unitInterval = true := h3
    have ht : inferTransform (asmOf parAsm v) (some (inferBounds (asmOf parAsm v))) = some .logodds := by
      simp [inferBounds, h1', h2', inferTransform, h3']
    rw [ht]
    have hr := back_region (some .logodds) (by intro a c ha hc; simp [regionOf] at ha hc; subst ha hc; norm_num) w
    exact ⟨by simpa using hr.1 0 rfl, by simpa using hr.2 1 rfl⟩

open Drv in
/-- **C79** an explicit `(None, None)` bound does not undo the declaration: in the unit interval, above zero or below zero as declared, and
unrestricted without a declaration. -/
theorem C79_open_bound (parAsm : Str → Asm) (vars : List Sym) (user : List (Str × Bound)) (prefer : Bool) (method : Option Str) (m : Str)
    (ts : List (Option Transform)) (h : boundPlan parAsm vars user prefer method = .transformed m ts) (y : List ℝ)
    (hu : (dkeys user).Nodup) (i : Nat) (v : Sym) (hv : vars[i]? = some v)
    (hb : dget user (symName v) = some (none, none)) (w : ℝ) (hw : y[i]? = some w) :
    let a := asmOf parAsm v
    ∃ x, (minimizePoint (.transformed m ts) y)[i]? = some x ∧
      (a.has "unit_interval".toList = true → 0 < x ∧ x < 1) ∧
      (a.has "positive".toList = true → 0 < x) ∧
      (a.has "negative".toList = true → a.has "unit_interval".toList = false → a.has "positive".toList = false → x < 0) ∧
      (a.has "positive".toList = false → a.has "negative".toList = false → a.has "unit_interval".toList = false → x = w) := by
  intro a
  have hd : dget (boundDict parAsm vars user) (symName v) = some (none, none) := by
    unfold boundDict
    rw [dget_dupdate, Cont2.dget_perm user hu, hb]
    rfl
  have hp := point_at h y hv hw _ hd
  have hlo : ∀ w, 0 < back (some .logodds) w ∧ back (some .logodds) w < 1 := by
    intro w
    have hr := back_region (some .logodds) (by intro a c ha hc; simp [regionOf] at ha hc; subst ha hc; norm_num) w
    exact ⟨by simpa using hr.1 0 rfl, by simpa using hr.2 1 rfl⟩
  refine ⟨_, hp, ?_, ?_, ?_, ?_⟩
  · intro h3
    have h3' : (asmOf parAsm v).has unitInterval = true := h3
    have ht : inferTransform (asmOf parAsm v) (some (none, none)) = some .logodds := by simp [inferTransform, h3']
    rw [ht]
    exact hlo w
  · intro h1
    have h1' : (asmOf parAsm v).has positiveStr = true := h1
    cases h3' : (asmOf parAsm v).has unitInterval with
    | true =>
      have ht : inferTransform (asmOf parAsm v) (some (none, none)) = some .logodds := by simp [inferTransform, h3']
      rw [ht]
      exact (hlo w).1
    | false =>
      have ht : inferTransform (asmOf parAsm v) (some (none, none)) = some .log := by simp [inferTransform, h3', h1']
      rw [ht]
      simp only [back, backwardExpr, SExpr.eval]
      exact Real.exp_pos _
  · intro h2 h3 h1
    have h1' : (asmOf parAsm v).has positiveStr = false := h1
    have h2' : (asmOf parAsm v).has negativeStr = true := h2
    have h3' : (asmOf parAsm v).has unitInterval = false := h3
    have ht : inferTransform (asmOf parAsm v) (some (none, none)) = some (.interval none (some 0)) := by simp [inferTransform, h3', h1', h2']
    rw [ht]
    have := (back_region (some (.interval none (some 0))) (by simp [regionOf, Bound.Proper]) w).2 _ rfl
    simpa using this
  · intro h1 h2 h3
    have h1' : (asmOf parAsm v).has positiveStr = false := h1
    have h2' : (asmOf parAsm v).has negativeStr = false := h2
    have h3' : (asmOf parAsm v).has unitInterval = false := h3
    simp [h1', h2', inferTransform, h3', back, backwardExpr, SExpr.eval]

open Drv in
/-- **C79** no feasible point is lost and none is counted twice: every point strictly inside the regions is reached from exactly one
unconstrained point, the one `to_unconstrained` gives. -/
theorem C79_bijective (ts : List (Option Transform)) (hp : ∀ t ∈ ts, (regionOf t).Proper) :
    (∀ x : List ℝ, x.length = ts.length → (∀ (i : Nat) (t : Option Transform) (v : ℝ), ts[i]? = some t → x[i]? = some v → (regionOf t).Holds v) →
      ∃ y : List ℝ, y.length = ts.length ∧ toUnconstrained ts x = y.map some ∧ toConstrained ts y = x) ∧
    (∀ y : List ℝ, ∀ (i : Nat) (t : Option Transform) (v : ℝ), ts[i]? = some t → (toConstrained ts y)[i]? = some v → (regionOf t).Holds v) ∧
    (∀ y y' : List ℝ, y.length = ts.length → y'.length = ts.length → toConstrained ts y = toConstrained ts y' → y = y') := by
  refine ⟨?_, ?_, ?_⟩
  · clear hp
    induction ts with
    | nil =>
      intro x hx _
      exact ⟨[], rfl, rfl, by simpa [toConstrained] using hx⟩
    | cons t ts ih =>
      intro x hx hr
      rcases x with _ | ⟨v, x⟩
      · simp at hx
      obtain ⟨y, h1, h2, h3⟩ := ih x (by simpa using hx) (fun i t' v' ht hv => hr (i + 1) t' v' (by simpa using ht) (by simpa using hv))
      obtain ⟨w, hw, hb⟩ := forward_back t v (hr 0 t v rfl rfl)
      refine ⟨w :: y, by simp [h1], ?_, ?_⟩
      · simp only [toUnconstrained, List.zipWith_cons_cons, hw, List.map_cons] at h2 ⊢
        rw [h2]
      · simp only [toConstrained_eq, List.zipWith_cons_cons, hb] at h3 ⊢
        rw [h3]
  · intro y i t v ht hv
    rw [toConstrained_eq, List.getElem?_zipWith, ht] at hv
    cases hy : y[i]? with
    | none => simp [hy] at hv
    | some w =>
      simp only [hy, Option.some.injEq] at hv
      rw [← hv]
      exact back_region t (hp t (List.mem_of_getElem? ht)) w
  · induction ts with
    | nil =>
      intro y y' h h' _
      rw [List.length_eq_zero_iff.mp h, List.length_eq_zero_iff.mp h']
    | cons t ts ih =>
      intro y y' h h' he
      rcases y with _ | ⟨w, y⟩
      · simp at h
      rcases y' with _ | ⟨w', y'⟩
      · simp at h'
      simp only [toConstrained_eq, List.zipWith_cons_cons, List.cons.injEq] at he
      rw [back_inj t (hp t (by simp)) he.1, ih (fun t ht => hp t (by simp [ht])) y y' (by simpa using h) (by simpa using h') he.2]

namespace Drv

theorem eval_replace (f : Sym → SExpr) (env env' : Sym → ℝ) (h : ∀ s, (f s).eval env = env' s) (e : SExpr) :
    (e.replace f).eval env = e.eval env' := by
  induction e with
  | num q => rfl
  | sym s => exact h s
  | add a b iha ihb => simp [SExpr.replace, SExpr.eval, iha, ihb]
  | mul a b iha ihb => simp [SExpr.replace, SExpr.eval, iha, ihb]
  | pow a b iha ihb => simp [SExpr.replace, SExpr.eval, iha, ihb]
  | exp a iha => simp [SExpr.replace, SExpr.eval, iha]
  | log a iha => simp [SExpr.replace, SExpr.eval, iha]

end Drv

/-- the values `xs` given to the symbols `nodes` in order, the others as in `env` -/
def assign (nodes : List Sym) (xs : List ℝ) (env : Sym → ℝ) (s : Sym) : ℝ := (dget (nodes.zip xs) s).getD (env s)

open Drv in
/-- **C79** the system handed to the optimizer is the original one: at every unconstrained point its equations have the values of the
original equations at the corresponding constrained point. -/
theorem C79_same_system (eqs : List SExpr) (nodes : List Sym) (ts : List (Option Transform)) (hn : nodes.Nodup) (hl : ts.length = nodes.length)
    (y : List ℝ) (hy : y.length = nodes.length) (env : Sym → ℝ) :
    (transformEquations eqs nodes ts).map (fun e => e.eval (assign nodes y env))
      = eqs.map fun e => e.eval (assign nodes (toConstrained ts y) env) := by
  unfold transformEquations
  rw [List.map_map]
  apply List.map_congr_left
  intro e _
  apply eval_replace
  intro s
  have hk : (dkeys (nodes.zip ts)).Nodup := by
    have : dkeys (nodes.zip ts) = nodes := by
      unfold dkeys
      rw [List.map_fst_zip (by omega)]
    rw [this]; exact hn
  rw [dupdate_fresh [] _ (by simpa using hk)]
  rw [List.nil_append]
  have key : ∀ (nodes : List Sym) (ts : List (Option Transform)) (y : List ℝ), ts.length = nodes.length → y.length = nodes.length →
      (dget (nodes.zip (List.zipWith back ts y)) s) = (dget (nodes.zip ts) s).bind fun t => (dget (nodes.zip y) s).map (back t) := by
    intro nodes
    induction nodes with
    | nil => intro ts y _ _; simp [dget]
    | cons n nodes ih =>
      intro ts y h1 h2
      rcases ts with _ | ⟨t, ts⟩
      · simp at h1
      rcases y with _ | ⟨w, y⟩
      · simp at h2
      simp only [List.zipWith_cons_cons, List.zip_cons_cons, dget]
      split
      · simp
      · exact ih ts y (by simpa using h1) (by simpa using h2)
  have hsome : ∀ (nodes : List Sym) (ts : List (Option Transform)) (y : List ℝ), ts.length = nodes.length → y.length = nodes.length →
      ((dget (nodes.zip ts) s).isSome ↔ (dget (nodes.zip y) s).isSome) := by
    intro nodes ts y h1 h2
    rw [dget_isSome, dget_isSome]
    unfold dkeys
    rw [List.map_fst_zip (by omega), List.map_fst_zip (by omega)]
  simp only [assign, toConstrained_eq, key nodes ts y hl hy]
  cases ht : dget (nodes.zip ts) s with
  | none =>
    have := (hsome nodes ts y hl hy)
    rw [ht] at this
    have hno : dget (nodes.zip y) s = none := by
      cases hq : dget (nodes.zip y) s with
      | none => rfl
      | some w => rw [hq] at this; simp at this
    simp [SExpr.eval, assign, hno]
  | some t =>
    have := (hsome nodes ts y hl hy)
    rw [ht] at this
    obtain ⟨w, hw⟩ := Option.isSome_iff_exists.mp (this.mp rfl)
    simp only [back_eval, SExpr.eval, assign, hw, Option.getD_some, Option.bind_some, Option.map_some]

/-- the assumptions a GCN file with `unit_interval { x }` gives to `x` -/
def unitAsm : Asm := (dget (buildAssumptions [("unit_interval".toList, [['x']])]) ['x']).getD []

/-- **C79** (violation) a variable declared `unit_interval` in the GCN file is also `positive`, so its bound is `(1e-8, None)` and the
log-odds transform is never chosen: the reported steady state may be above 1. -/
theorem C79_unit_interval_violated :
    let v : Sym := .tv ⟨['x'], .ss, unitAsm⟩
    ∃ m ts, boundPlan (fun _ => []) [v] [] false none = .transformed m ts ∧
      ∃ y x : ℝ, minimizePoint (.transformed m ts) [y] = [x] ∧ 1 < x := by
  refine ⟨_, _, rfl, 1, Real.exp 1 + 1 / 100000000, ?_, ?_⟩
  · have ht : inferTransform (asmOf (fun _ => []) (.tv ⟨['x'], .ss, unitAsm⟩))
        (some ((dget (boundDict (fun _ => []) [.tv ⟨['x'], .ss, unitAsm⟩] []) (symName (.tv ⟨['x'], .ss, unitAsm⟩))).getD (none, none)))
        = some (.interval (some (1 / 100000000)) none) := by decide +kernel
    simp only [minimizePoint, List.map_cons, List.map_nil, ht]
    simp [toConstrained, backwardExpr, SExpr.eval]
  · have := Real.add_one_lt_exp (show (1 : ℝ) ≠ 0 by norm_num)
    norm_num at this ⊢
    linarith

/-- **C79** (violation) the documentation asks for bounds "keyed by variable name"; a bound given as `x` instead of `x_ss` has no effect: the
result is whatever the optimizer returns. -/
theorem C79_short_name_violated (y : ℝ) :
    let v : Sym := .tv ⟨['x'], .ss, []⟩
    ∃ m ts, boundPlan (fun _ => []) [v] [(['x'], (some 0, some 1))] false none = .transformed m ts ∧
      minimizePoint (.transformed m ts) [y] = [y] := by
  refine ⟨_, _, rfl, ?_⟩
  have ht : inferTransform (asmOf (fun _ => []) (.tv ⟨['x'], .ss, []⟩))
      (some ((dget (boundDict (fun _ => []) [.tv ⟨['x'], .ss, []⟩] [(['x'], (some 0, some 1))]) (symName (.tv ⟨['x'], .ss, []⟩))).getD (none, none)))
      = none := by decide +kernel
  simp only [minimizePoint, List.map_cons, List.map_nil, ht]
  simp [toConstrained, backwardExpr, SExpr.eval]

/-- **C79** (violation) an upper bound given by the user replaces the declared positivity: the result may be negative. -/
theorem C79_one_sided_violated :
    let v : Sym := .tv ⟨['x'], .ss, [(positiveStr, true)]⟩
    ∃ m ts, boundPlan (fun _ => []) [v] [("x_ss".toList, (none, some 1))] false none = .transformed m ts ∧
      ∃ y x : ℝ, minimizePoint (.transformed m ts) [y] = [x] ∧ x < 0 := by
  refine ⟨_, _, rfl, 1, 1 - Real.exp 1, ?_, ?_⟩
  · have ht : inferTransform (asmOf (fun _ => []) (.tv ⟨['x'], .ss, [(positiveStr, true)]⟩))
        (some ((dget (boundDict (fun _ => []) [.tv ⟨['x'], .ss, [(positiveStr, true)]⟩] [("x_ss".toList, (none, some 1))])
          (symName (.tv ⟨['x'], .ss, [(positiveStr, true)]⟩))).getD (none, none)))
        = some (.interval none (some 1)) := by decide +kernel
    simp only [minimizePoint, List.map_cons, List.map_nil, ht]
    simp [toConstrained, backwardExpr, SExpr.eval, SExpr.sub, sub_eq_add_neg]
  · have := Real.add_one_lt_exp (show (1 : ℝ) ≠ 0 by norm_num)
    linarith

/-- **C79** (violation) the default start `0.8` is outside a user bound `(2, 3)`: the optimizer starts at NaN. -/
theorem C79_start_violated :
    toUnconstrained [inferTransform [] (some (some 2, some 3))] ((initialX0 none [[]]).map fun q => (q : ℝ)) = [none] := by
  simp [toUnconstrained, initialX0, inferTransform, forwardNum, Asm.has, dget]
  norm_num

/-- non-vacuity: a bounded, a positive and a free variable; all hypotheses of `C79_user_bound` and `C79_assumed_bound` are met -/
example : let vars : List Sym := [.tv ⟨['x'], .ss, []⟩, .tv ⟨['k'], .ss, [(positiveStr, true)]⟩, .par ['a']]
    (vars.map symName).Nodup ∧ ∃ m ts, boundPlan (fun _ => []) vars [("x_ss".toList, (some 0, some 1))] true (some "L-BFGS-B".toList) = .transformed m ts ∧
      ts = [some (.interval (some 0) (some 1)), some (.interval (some (1 / 100000000)) none), none] ∧
      Bound.Proper (some 0, some 1) := by
  refine ⟨by decide +kernel, _, _, rfl, by decide +kernel, ?_⟩
  intro a c ha hc
  simp at ha hc
  subst ha hc
  norm_num

/-! ## C80: finding symbols by name -/

/-- specification: the objects of a model: variables, parameters (free, calibrated, deterministic) and shocks -/
def SSModel.Object (m : SSModel) (s : Sym) : Prop :=
  (∃ v ∈ m.vars, s = .tv v) ∨ (∃ n ∈ dkeys m.params.free, s = .par n) ∨ s ∈ dkeys m.calib ∨
    (∃ n ∈ dkeys m.params.det, s = .par n) ∨ ∃ v ∈ m.shocks, s = .tv v

/-- specification: no two objects share a name -/
def SSModel.DistinctNames (m : SSModel) : Prop :=
  ((m.vars.map Sym.tv ++ (dkeys m.params.free).map Sym.par ++ dkeys m.calib ++ (dkeys m.params.det).map Sym.par
    ++ m.shocks.map Sym.tv).map baseOf).Nodup

namespace Drv

theorem mem_objects (m : SSModel) (s : Sym) : s ∈ (m.vars.map Sym.tv ++ (dkeys m.params.free).map Sym.par ++ dkeys m.calib ++
    (dkeys m.params.det).map Sym.par ++ m.shocks.map Sym.tv) ↔ m.Object s := by
  simp only [List.mem_append, List.mem_map, SSModel.Object]
  constructor
  · rintro ((((⟨v, h, rfl⟩ | ⟨v, h, rfl⟩) | h) | ⟨v, h, rfl⟩) | ⟨v, h, rfl⟩)
    · exact .inl ⟨v, h, rfl⟩
    · exact .inr (.inl ⟨v, h, rfl⟩)
    · exact .inr (.inr (.inl h))
    · exact .inr (.inr (.inr (.inl ⟨v, h, rfl⟩)))
    · exact .inr (.inr (.inr (.inr ⟨v, h, rfl⟩)))
  · rintro (⟨v, h, rfl⟩ | ⟨v, h, rfl⟩ | h | ⟨v, h, rfl⟩ | ⟨v, h, rfl⟩)
    · exact .inl (.inl (.inl (.inl ⟨v, h, rfl⟩)))
    · exact .inl (.inl (.inl (.inr ⟨v, h, rfl⟩)))
    · exact .inl (.inl (.inr h))
    · exact .inl (.inr ⟨v, h, rfl⟩)
    · exact .inr ⟨v, h, rfl⟩

theorem dget_names_mem (m : SSModel) (n : Str) (s : Sym) (h : dget m.names n = some s) : m.Object s ∧ baseOf s = n := by
  unfold SSModel.names at h
  have := mem_of_dget _ _ _ h
  rcases Lag.mem_dupdate _ _ _ this with h | h
  · simp at h
  · obtain ⟨s', hs', he⟩ := List.mem_map.mp h
    simp only [Prod.mk.injEq] at he
    obtain ⟨h1, rfl⟩ := he
    exact ⟨(mem_objects m s').mp hs', h1⟩

theorem dget_names (m : SSModel) (hd : m.DistinctNames) (s : Sym) (hs : m.Object s) : dget m.names (baseOf s) = some s := by
  unfold SSModel.names
  have := dget_map_name (nm := baseOf) (fun s => s) hd ((mem_objects m s).mpr hs)
  exact this

theorem mem_names (m : SSModel) (n : Str) : n ∈ dkeys m.names ↔ ∃ s, m.Object s ∧ baseOf s = n := by
  rw [SSModel.names, mem_dkeys_dupdate]
  have hk : ∀ l : List Sym, dkeys (l.map fun s => (baseOf s, s)) = l.map baseOf := by intro l; simp [dkeys, Function.comp_def]
  rw [hk]
  constructor
  · rintro (h | h)
    · simp [dkeys] at h
    · obtain ⟨s, hs, rfl⟩ := List.mem_map.mp h
      exact ⟨s, (mem_objects m s).mp hs, rfl⟩
  · rintro ⟨s, hs, rfl⟩
    right
    exact List.mem_map.mpr ⟨s, (mem_objects m s).mpr hs, rfl⟩

theorem suffix_ss (n : Str) : ssSuffix.isSuffixOf (n ++ ['_', 's', 's']) = true := by
  rw [List.isSuffixOf_iff_suffix]
  exact List.suffix_append n ['_', 's', 's']

end Drv

open Drv in
/-- **C80** `model.get(name)` finds every object of the model by its name, and `model.get(name + "_ss")` the steady state of every variable and
shock (names not ending in `_ss` themselves). -/
theorem C80_found (m : SSModel) (close : Str → List Str → List Str) (hd : m.DistinctNames) (s : Sym) (hs : m.Object s) :
    (¬ ['_', 's', 's'] <:+ baseOf s → m.get close (baseOf s) = .ok s) ∧
    (∀ v, s = .tv v → m.get close (v.base ++ ['_', 's', 's']) = .ok (.tv { v with idx := .ss })) ∧
    (∀ n, s = .par n → m.get close (n ++ ['_', 's', 's']) = .error .noSteadyState) := by
  have hg := dget_names m hd s hs
  refine ⟨?_, ?_, ?_⟩
  · intro hns
    have h1 : ssSuffix.isSuffixOf (baseOf s) = false := by
      rw [Bool.eq_false_iff]
      intro h
      exact hns (List.isSuffixOf_iff_suffix.mp h)
    simp only [SSModel.get, (C58_names (baseOf s)).2 hns, hg, h1]
    rfl
  · rintro v rfl
    simp only [SSModel.get, suffix_ss, (C58_names v.base).1, show dget m.names v.base = some (.tv v) from hg]
    rfl
  · rintro n rfl
    simp only [SSModel.get, suffix_ss, (C58_names n).1, show dget m.names n = some (.par n) from hg]
    rfl

open Drv in
/-- **C80** whatever `model.get` returns is an object of the model with the requested name, at the steady state exactly when asked for. -/
theorem C80_sound (m : SSModel) (close : Str → List Str → List Str) (name : Str) (s : Sym) (h : m.get close name = .ok s) :
    (¬ ['_', 's', 's'] <:+ name → m.Object s ∧ baseOf s = name) ∧
    (['_', 's', 's'] <:+ name → ∃ v : TSym, m.Object (.tv v) ∧ s = .tv { v with idx := .ss } ∧ v.base ++ ['_', 's', 's'] = name) := by
  unfold SSModel.get at h
  dsimp only at h
  cases hg : dget m.names (removeSuffixSS name) with
  | none =>
    rw [hg] at h
    dsimp only at h
    split at h <;> cases h
  | some s' =>
    rw [hg] at h
    dsimp only at h
    obtain ⟨ho, hb⟩ := dget_names_mem m _ _ hg
    constructor
    · intro hns
      have h1 : ssSuffix.isSuffixOf name = false := by
        rw [Bool.eq_false_iff]
        intro h
        exact hns (List.isSuffixOf_iff_suffix.mp h)
      rw [h1] at h
      simp only [Bool.false_eq_true, if_false, Except.ok.injEq] at h
      subst h
      rw [(C58_names name).2 hns] at hb
      exact ⟨ho, hb⟩
    · intro hs
      have h1 : ssSuffix.isSuffixOf name = true := List.isSuffixOf_iff_suffix.mpr hs
      rw [h1] at h
      simp only [if_true] at h
      obtain ⟨n, rfl⟩ := hs
      rw [(C58_names n).1] at hb
      rcases s' with v | p
      · simp only [Except.ok.injEq] at h
        exact ⟨v, ho, h.symm, by simpa [baseOf] using hb⟩
      · cases h

open Drv in
/-- **C80** a name without an object is refused with IndexError; the suggestion in the message is a name of the model if the matcher returns
one of its candidates. When no name is close the code indexes an empty list: the user sees "list index out of range". -/
theorem C80_unknown (m : SSModel) (close : Str → List Str → List Str) (hc : ∀ n l c, c ∈ close n l → c ∈ l) (name : Str)
    (hn : ∀ s, m.Object s → baseOf s ≠ removeSuffixSS name) :
    (close (removeSuffixSS name) (dkeys m.names) = [] → m.get close name = .error .indexOutOfRange) ∧
    (close (removeSuffixSS name) (dkeys m.names) ≠ [] →
      ∃ c s, m.get close name = .error (.notFound c) ∧ m.Object s ∧ baseOf s = c) := by
  have hg : dget m.names (removeSuffixSS name) = none := by
    rw [dget_eq_none, mem_names]
    rintro ⟨s, hs, hb⟩
    exact hn s hs hb
  constructor
  · intro h
    simp only [SSModel.get, hg, h]
  · intro h
    obtain ⟨c, l, hl⟩ := List.exists_cons_of_ne_nil h
    obtain ⟨s, hs, hb⟩ := (mem_names m c).mp (hc (removeSuffixSS name) _ c (by rw [hl]; simp))
    exact ⟨c, s, by simp only [SSModel.get, hg, hl], hs, hb⟩

/-! ## C81: names of fixed values -/

open Drv in
/-- **C81** the fixed values are accepted exactly when no variable is given twice (as `x` and as `x_ss`) and every name is a variable of
the model. -/
theorem C81_accepted_iff (m : SSModel) (given : List Str) :
    m.validateFixed given = .ok () ↔
      (given.map removeSuffixSS).Nodup ∧ ∀ n ∈ given, ∃ v ∈ m.vars, n = v.base ++ ['_', 's', 's'] ∨ (¬ ['_', 's', 's'] <:+ n ∧ n = v.base) := by
  have hdup : ((given.map removeSuffixSS).filter fun x => 1 < (given.map removeSuffixSS).count x).isEmpty = true ↔ (given.map removeSuffixSS).Nodup := by
    rw [List.isEmpty_iff, List.filter_eq_nil_iff, List.nodup_iff_count_le_one]
    constructor
    · intro h a
      by_cases ha : a ∈ given.map removeSuffixSS
      · have := h a ha
        simpa using this
      · rw [List.count_eq_zero_of_not_mem ha]; omega
    · intro h a _
      have := h a
      simpa using this
  have hrem : ∀ n, ∀ v : TSym, removeSuffixSS n = v.base ↔ (n = v.base ++ ['_', 's', 's'] ∨ (¬ ['_', 's', 's'] <:+ n ∧ n = v.base)) := by
    intro n v
    by_cases hs : ['_', 's', 's'] <:+ n
    · obtain ⟨k, rfl⟩ := hs
      rw [(C58_names k).1]
      constructor
      · rintro rfl; exact .inl rfl
      · rintro (h | ⟨h, _⟩)
        · exact List.append_cancel_right h
        · exact absurd (List.suffix_append _ _) h
    · rw [(C58_names n).2 hs]
      constructor
      · intro h; exact .inr ⟨hs, h⟩
      · rintro (h | h)
        · exact absurd (h ▸ List.suffix_append _ _) hs
        · exact h.2
  have hunk : ((given.map removeSuffixSS).filter fun x => x ∉ m.vars.map TSym.base).isEmpty = true ↔
      ∀ n ∈ given, ∃ v ∈ m.vars, n = v.base ++ ['_', 's', 's'] ∨ (¬ ['_', 's', 's'] <:+ n ∧ n = v.base) := by
    rw [List.isEmpty_iff, List.filter_eq_nil_iff]
    simp only [List.mem_map, decide_eq_true_eq, not_not, forall_exists_index, and_imp, forall_apply_eq_imp_iff₂]
    constructor
    · intro h n hn
      obtain ⟨v, hv, he⟩ := h n hn
      exact ⟨v, hv, (hrem n v).mp he.symm⟩
    · intro h n hn
      obtain ⟨v, hv, he⟩ := h n hn
      exact ⟨v, hv, ((hrem n v).mpr he).symm⟩
  rw [← hdup, ← hunk]
  unfold SSModel.validateFixed
  dsimp only
  split
  · next h1 =>
    split
    · next h2 => exact ⟨fun _ => ⟨h1, h2⟩, fun _ => rfl⟩
    · next h2 => exact ⟨fun h => (by cases h), fun h => absurd h.2 h2⟩
  · next h1 => exact ⟨fun h => (by cases h), fun h => absurd h.1 h1⟩

/-- **C81** the error names exactly the offenders: the variables given twice, else the unknown names. -/
theorem C81_errors (m : SSModel) (given : List Str) :
    (∀ l, m.validateFixed given = .error (.providedTwice l) →
      ∀ x, x ∈ l ↔ 2 ≤ (given.map removeSuffixSS).count x) ∧
    (∀ l, m.validateFixed given = .error (.unknownFixed l) →
      ∀ x, x ∈ l ↔ (∃ n ∈ given, removeSuffixSS n = x) ∧ ∀ v ∈ m.vars, v.base ≠ x) ∧
    (∀ e, m.validateFixed given = .error e → (∃ l, e = .providedTwice l) ∨ ∃ l, e = .unknownFixed l) := by
  unfold SSModel.validateFixed
  dsimp only
  refine ⟨?_, ?_, ?_⟩
  · intro l h x
    split at h
    · split at h <;> simp at h
    · simp only [Except.error.injEq, SSErr.providedTwice.injEq] at h
      subst h
      simp only [List.mem_filter, decide_eq_true_eq]
      constructor
      · intro h; omega
      · intro h
        exact ⟨List.count_pos_iff.mp (by omega), by omega⟩
  · intro l h x
    split at h
    · split at h
      · simp at h
      · simp only [Except.error.injEq, SSErr.unknownFixed.injEq] at h
        subst h
        simp only [List.mem_filter, List.mem_map, decide_eq_true_eq, not_exists, not_and]
    · simp at h
  · intro e h
    split at h
    · split at h
      · simp at h
      · simp only [Except.error.injEq] at h
        exact .inr ⟨_, h.symm⟩
    · simp only [Except.error.injEq] at h
      exact .inl ⟨_, h.symm⟩

/-! ## C82-C84: the driver -/

namespace Drv

variable {m : SSModel} {nv : NumEval} {close : Str → List Str → List Str} {root minimize : SSSolver} {tol : ℝ} {how : How}

theorem steady_ok {fixed : Option (List (Str × Rat))} {updates : List (Str × Num)} {r : SSRes}
    (h : m.steadyState nv close root minimize tol how fixed updates = .ok r) :
    ∃ pd known, m.parameters updates = .ok pd ∧ m.known nv pd = .ok known ∧
      ((m.linear = true ∧ r = m.linearResult) ∨
       (m.linear = false ∧ fixed = none ∧ m.tryAnalytic nv pd known = .ok (some r)) ∨
       (m.linear = false ∧ fixed = none ∧ m.tryAnalytic nv pd known = .ok none ∧
          m.solveNumerically nv root minimize tol how pd known [] = .ok r) ∨
       (m.linear = false ∧ ∃ f fs, fixed = some f ∧ m.validateFixed (dkeys f) = .ok () ∧ m.fixedSyms close f = .ok fs ∧
          m.validateEquations nv fs pd = .ok () ∧ m.solveNumerically nv root minimize tol how pd known fs = .ok r)) := by
  unfold SSModel.steadyState at h
  cases hp : m.parameters updates with
  | error e => rw [hp] at h; cases h
  | ok pd =>
    rw [hp] at h
    simp only [bind, Except.bind] at h
    cases hk : m.known nv pd with
    | error e => rw [hk] at h; cases h
    | ok known =>
      rw [hk] at h
      dsimp only at h
      refine ⟨pd, known, rfl, hk, ?_⟩
      cases hl : m.linear with
      | true =>
        rw [hl] at h
        simp only [if_true, Except.ok.injEq] at h
        exact .inl ⟨rfl, h.symm⟩
      | false =>
        rw [hl] at h
        simp only [Bool.false_eq_true, if_false] at h
        cases fixed with
        | none =>
          dsimp only at h
          cases ha : m.tryAnalytic nv pd known with
          | error e => rw [ha] at h; cases h
          | ok o =>
            rw [ha] at h
            dsimp only at h
            cases o with
            | some r' =>
              simp only [Except.ok.injEq] at h
              subst h
              exact .inr (.inl ⟨rfl, rfl, rfl⟩)
            | none => exact .inr (.inr (.inl ⟨rfl, rfl, rfl, h⟩))
        | some f =>
          dsimp only at h
          cases hv : m.validateFixed (dkeys f) with
          | error e => rw [hv] at h; cases h
          | ok u =>
            rw [hv] at h
            dsimp only at h
            cases hf : m.fixedSyms close f with
            | error e => rw [hf] at h; cases h
            | ok fs =>
              rw [hf] at h
              dsimp only at h
              cases he : m.validateEquations nv fs pd with
              | error e => rw [he] at h; cases h
              | ok u' =>
                rw [he] at h
                dsimp only at h
                exact .inr (.inr (.inr ⟨rfl, f, fs, rfl, hv, hf, he, h⟩))

theorem numerically_ok {pd : List (Str × Num)} {known : Option (List (Sym × Num))} {fs : List (Sym × Rat)} {r : SSRes}
    (h : m.solveNumerically nv root minimize tol how pd known fs = .ok r) :
    ((m.system fs).2 = [] ∧ m.allResolved nv pd known fs = .ok r) ∨
    ((m.system fs).2 ≠ [] ∧ ∃ s, (s = root ∧ how = .root ∧ (m.system fs).1.length = (m.system fs).2.length ∨
        s = minimize ∧ (how = .analytic ∨ how = .minimize)) ∧
      m.postprocess nv s tol (m.system fs).1 (m.system fs).2 pd known fs = .ok r) := by
  unfold SSModel.solveNumerically at h
  dsimp only at h
  split at h
  · next hz => exact .inl ⟨List.isEmpty_iff.mp hz, h⟩
  · next hz =>
    refine .inr ⟨fun h0 => hz (by rw [h0]; rfl), ?_⟩
    cases how with
    | root =>
      dsimp only at h
      split at h
      · cases h
      · next hl => exact ⟨root, .inl ⟨rfl, rfl, by simpa using hl⟩, h⟩
    | analytic => exact ⟨minimize, .inr ⟨rfl, .inl rfl⟩, h⟩
    | minimize => exact ⟨minimize, .inr ⟨rfl, .inr rfl⟩, h⟩
    | other => cases h

theorem collect_ok {d : List (Sym × Num)} : ∀ {l : List Sym} {out : List (Sym × Num)}, collect d l = .ok out →
    out = l.map (fun s => (s, (dget d s).getD none)) ∧ ∀ s ∈ l, (dget d s).isSome
  | [], out, h => by
    simp only [collect, Except.ok.injEq] at h
    subst h
    exact ⟨rfl, by simp⟩
  | s :: l, out, h => by
    unfold collect at h
    cases hd : dget d s with
    | none => rw [hd] at h; cases h
    | some v =>
      rw [hd] at h
      simp only [bind, Except.bind] at h
      cases hc : collect d l with
      | error e => rw [hc] at h; cases h
      | ok r =>
        rw [hc] at h
        simp only [pure, Except.pure, Except.ok.injEq] at h
        subst h
        obtain ⟨h1, h2⟩ := collect_ok hc
        refine ⟨by simp [h1, hd], ?_⟩
        intro s' hs'
        rcases List.mem_cons.mp hs' with rfl | hs'
        · rw [hd]; rfl
        · exact h2 s' hs'

theorem toNames_fresh {d : List (Sym × Num)} (h : (d.map fun p => symName p.1).Nodup) : toNames d = d.map fun p => (symName p.1, p.2) := by
  unfold toNames
  rw [dupdate_fresh [] _ (by simpa [dkeys, Function.comp_def] using h)]
  rfl

theorem dget_toNames {d : List (Sym × Num)} (h : (d.map fun p => symName p.1).Nodup) {s : Sym} {v : Num} (hm : (s, v) ∈ d) :
    dget (toNames d) (symName s) = some v := by
  rw [toNames_fresh h]
  refine dget_of_mem _ (by simpa [dkeys, Function.comp_def] using h) _ _ ?_
  exact List.mem_map.mpr ⟨(s, v), hm, rfl⟩

theorem resolved_ok {pd : List (Str × Num)} {known : Option (List (Sym × Num))} {fs : List (Sym × Rat)} {r : SSRes}
    (h : m.allResolved nv pd known fs = .ok r) :
    ∃ env res out, kwMerge (toNames (providedValues known fs)) pd = .ok env ∧ evalResid nv m.equations env = .ok res ∧
      collect (providedValues known fs) m.ssVars = .ok out ∧ r = { values := toNames out, success := allClose res } := by
  unfold SSModel.allResolved at h
  simp only [bind, Except.bind] at h
  cases h1 : kwMerge (toNames (providedValues known fs)) pd with
  | error e => rw [h1] at h; cases h
  | ok env =>
    rw [h1] at h
    dsimp only at h
    cases h2 : evalResid nv m.equations env with
    | error e => rw [h2] at h; cases h
    | ok res =>
      rw [h2] at h
      dsimp only at h
      cases h3 : collect (providedValues known fs) m.ssVars with
      | error e => rw [h3] at h; cases h
      | ok out =>
        rw [h3] at h
        simp only [pure, Except.pure, Except.ok.injEq] at h
        exact ⟨env, res, out, rfl, h2, rfl, h.symm⟩

/-- the optimizer's point, as a dictionary -/
def optimumOf (s : SSSolver) (eqs : List SExpr) (toSolve : List Sym) (pd : List (Str × Num)) : List (Sym × Num) :=
  (toSolve.zipIdx).map fun p => (p.1, (s.solve eqs toSolve pd).1 p.2)

theorem postprocess_ok {s : SSSolver} {eqs : List SExpr} {toSolve : List Sym} {pd : List (Str × Num)} {known : Option (List (Sym × Num))}
    {fs : List (Sym × Rat)} {r : SSRes} (h : m.postprocess nv s tol eqs toSolve pd known fs = .ok r) :
    ∃ out env res, collect (dupdate (dupdate [] (optimumOf s eqs toSolve pd)) (providedValues known fs)) m.ssVars = .ok out ∧
      kwMerge (toNames out) pd = .ok env ∧ evalResid nv eqs env = .ok res ∧
      r = { values := toNames out, success := (s.solve eqs toSolve pd).2 || numericSuccess tol res (s.grad eqs toSolve env) } := by
  unfold SSModel.postprocess at h
  simp only [bind, Except.bind] at h
  rw [← show optimumOf s eqs toSolve pd = (toSolve.zipIdx).map (fun p => (p.1, (s.solve eqs toSolve pd).1 p.2)) from rfl] at h
  cases h1 : collect (dupdate (dupdate [] (optimumOf s eqs toSolve pd)) (providedValues known fs)) m.ssVars with
  | error e => rw [h1] at h; cases h
  | ok out =>
    rw [h1] at h
    dsimp only at h
    cases h2 : kwMerge (toNames out) pd with
    | error e => rw [h2] at h; cases h
    | ok env =>
      rw [h2] at h
      dsimp only at h
      cases h3 : evalResid nv eqs env with
      | error e => rw [h3] at h; cases h
      | ok res =>
        rw [h3] at h
        simp only [pure, Except.pure, Except.ok.injEq] at h
        exact ⟨out, env, res, rfl, h2, h3, h.symm⟩

theorem analytic_ok {pd : List (Str × Num)} {known : Option (List (Sym × Num))} {r : SSRes} (h : m.tryAnalytic nv pd known = .ok (some r)) :
    ∃ ss env res, known = some ss ∧ ss.length = m.vars.length ∧ kwMerge (toNames ss) pd = .ok env ∧ evalResid nv m.equations env = .ok res ∧
      r = { values := toNames ss, success := allClose res } := by
  unfold SSModel.tryAnalytic at h
  cases known with
  | none => simp at h
  | some ss =>
    dsimp only at h
    split at h
    · simp at h
    · next hl =>
      simp only [bind, Except.bind] at h
      cases h1 : kwMerge (toNames ss) pd with
      | error e => rw [h1] at h; cases h
      | ok env =>
        rw [h1] at h
        dsimp only at h
        cases h2 : evalResid nv m.equations env with
        | error e => rw [h2] at h; cases h
        | ok res =>
          rw [h2] at h
          simp only [pure, Except.pure, Except.ok.injEq, Option.some.injEq] at h
          exact ⟨ss, env, res, rfl, by simpa using hl, h1, h2, h.symm⟩

theorem known_ok {pd : List (Str × Num)} {ss : List (Sym × Num)} (h : m.known nv pd = .ok (some ss)) :
    ∃ out, knownSS m.ssSol (m.vars.map Sym.tv) = some out ∧ ss = out.map fun p => (p.1, nv p.2 fun s => (dget pd (symName s)).getD none) := by
  unfold SSModel.known at h
  cases hk : knownSS m.ssSol (m.vars.map Sym.tv) with
  | none => rw [hk] at h; simp at h
  | some out =>
    rw [hk] at h
    dsimp only at h
    split at h
    · simp only [Except.ok.injEq, Option.some.injEq] at h
      exact ⟨out, rfl, h.symm⟩
    · cases h

end Drv

end GE
