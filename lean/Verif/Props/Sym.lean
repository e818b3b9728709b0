import Verif.Model.Sym
/-! # C12, C13: stepping equations and their steady state -/

namespace GE

namespace Ldr

theorem insertBy_perm {α} (le : α → α → Bool) (a : α) (l : List α) : (insertBy le a l).Perm (a :: l) := by
  induction l with
  | nil => exact List.Perm.refl _
  | cons b l ih =>
    simp only [insertBy]
    split
    · exact List.Perm.refl _
    · exact (List.Perm.cons b ih).trans (List.Perm.swap a b l)

theorem sortBy_perm {α} (le : α → α → Bool) (l : List α) : (sortBy le l).Perm l := by
  induction l with
  | nil => exact List.Perm.refl _
  | cons a l ih => exact (insertBy_perm le a _).trans (List.Perm.cons a ih)

theorem insertBy_sorted {α} (le : α → α → Bool) (htr : ∀ a b c, le a b = true → le b c = true → le a c = true)
    (htot : ∀ a b, (le a b || le b a) = true) (a : α) (l : List α) (h : l.Pairwise fun x y => le x y = true) :
    (insertBy le a l).Pairwise fun x y => le x y = true := by
  induction l with
  | nil => simp [insertBy]
  | cons b l ih =>
    rw [List.pairwise_cons] at h
    simp only [insertBy]
    split
    · rename_i hab
      rw [List.pairwise_cons]
      refine ⟨?_, by rw [List.pairwise_cons]; exact h⟩
      intro y hy
      rcases List.mem_cons.mp hy with rfl | hy
      · exact hab
      · exact htr _ _ _ hab (h.1 y hy)
    · rename_i hab
      rw [List.pairwise_cons]
      refine ⟨?_, ih h.2⟩
      intro y hy
      rcases List.mem_cons.mp ((insertBy_perm le a l).mem_iff.mp hy) with rfl | hy
      · have := htot y b; simp [hab] at this; exact this
      · exact h.1 y hy

theorem sortBy_sorted {α} (le : α → α → Bool) (htr : ∀ a b c, le a b = true → le b c = true → le a c = true)
    (htot : ∀ a b, (le a b || le b a) = true) (l : List α) : (sortBy le l).Pairwise fun x y => le x y = true := by
  induction l with
  | nil => simp [sortBy]
  | cons a l ih => exact insertBy_sorted le htr htot a _ ih

end Ldr

/-! ## specification: the value of an equation at a date along a path -/

/-- values of everything an equation can mention: for each variable (name and assumptions) a path and a steady-state value, for
each parameter a number, and the operations -/
structure Valuation (K : Type) where
  num : Rat → K
  add : K → K → K
  mul : K → K → K
  pow : K → K → K
  exp : K → K
  log : K → K
  par : Str → K
  path : Str → Asm → Int → K
  ss : Str → Asm → K

/-- value of a symbol at date `t` -/
def Valuation.symAt {K} (V : Valuation K) (t : Int) : Sym → K
  | .par n => V.par n
  | .tv s => match s.idx with
    | .t k => V.path s.base s.asm (t + k)
    | .ss => V.ss s.base s.asm

/-- value of an expression at date `t` -/
def SExpr.at {K} (V : Valuation K) (t : Int) : SExpr → K
  | .num q => V.num q
  | .sym s => V.symAt t s
  | .add a b => V.add (a.at V t) (b.at V t)
  | .mul a b => V.mul (a.at V t) (b.at V t)
  | .pow a b => V.pow (a.at V t) (b.at V t)
  | .exp a => V.exp (a.at V t)
  | .log a => V.log (a.at V t)

/-- `order` is a possible value of `sorted(set of the time-aware atoms)`, ordered by the given comparison -/
structure SortedAtoms (before : TSym → TSym → Bool) (e : SExpr) (order : List TSym) : Prop where
  mem : ∀ s, s ∈ order ↔ s ∈ e.tsyms
  sorted : order.Pairwise fun a b => before a b

/-! ## helper lemmas -/

theorem replace_replace (e : SExpr) (f g) : (e.replace f).replace g = e.replace fun s => (f s).replace g := by
  induction e <;> simp_all [SExpr.replace]

theorem replace_congr (e : SExpr) (f g : Sym → SExpr) (h : ∀ s ∈ e.syms, f s = g s) : e.replace f = e.replace g := by
  induction e <;> simp_all [SExpr.replace, SExpr.syms]

theorem replace_id (e : SExpr) : e.replace .sym = e := by
  induction e <;> simp_all [SExpr.replace]

theorem replace_at {K} (V W : Valuation K) (t u : Int) (e : SExpr) (f : Sym → SExpr)
    (hn : V.num = W.num ∧ V.add = W.add ∧ V.mul = W.mul ∧ V.pow = W.pow ∧ V.exp = W.exp ∧ V.log = W.log)
    (h : ∀ s ∈ e.syms, (f s).at V t = W.symAt u s) : (e.replace f).at V t = e.at W u := by
  obtain ⟨h1, h2, h3, h4, h5, h6⟩ := hn
  induction e <;> simp_all [SExpr.replace, SExpr.syms, SExpr.at]

theorem mem_tsyms {e : SExpr} {s : TSym} : s ∈ e.tsyms ↔ Sym.tv s ∈ e.syms := by
  simp only [SExpr.tsyms, List.mem_filterMap]
  constructor
  · rintro ⟨a, ha, h⟩
    cases a with
    | tv q => simp only [Option.some.injEq] at h; rw [← h]; exact ha
    | par n => simp at h
  · intro h; exact ⟨_, h, rfl⟩

theorem syms_replace (e : SExpr) (f : Sym → SExpr) (s : Sym) :
    s ∈ (e.replace f).syms ↔ ∃ q ∈ e.syms, s ∈ (f q).syms := by
  induction e <;> simp_all [SExpr.replace, SExpr.syms] <;> grind

/-- move a symbol's date by `k` (steady state stays) -/
def shiftSym (k : Int) (s : TSym) : TSym :=
  match s.idx with
  | .t i => { s with idx := .t (i + k) }
  | .ss => s

/-- replace listed symbols -/
def listed (sh : TSym → TSym) (order : List TSym) : Sym → SExpr
  | .tv v => if v ∈ order then .sym (.tv (sh v)) else .sym (.tv v)
  | .par n => .sym (.par n)

theorem fold_listed (sh : TSym → TSym) (order : List TSym)
    (hp : order.Pairwise fun a b => sh a = b → sh b = b) (e : SExpr) :
    order.foldl (fun e v => e.subs1 (.tv v) (.sym (.tv (sh v)))) e = e.replace (listed sh order) := by
  induction order generalizing e with
  | nil =>
    exact (replace_id e).symm.trans (replace_congr _ _ _ fun s _ => by cases s <;> simp [listed])
  | cons v rest ih =>
    rw [List.pairwise_cons] at hp
    rw [List.foldl_cons, ih hp.2, SExpr.subs1, replace_replace]
    apply replace_congr
    intro s _
    cases s with
    | par n => simp [listed, SExpr.replace]
    | tv s =>
      by_cases hs : s = v
      · subst hs
        simp only [if_true, SExpr.replace, listed, List.mem_cons, true_or]
        by_cases hm : sh s ∈ rest
        · rw [if_pos hm, hp.1 _ hm rfl]
        · rw [if_neg hm]
      · have : Sym.tv s ≠ Sym.tv v := by simpa using hs
        simp only [this, if_false, SExpr.replace, listed, List.mem_cons, hs, false_or]

/-- stepping the whole equation by `k` periods -/
def shiftE (k : Int) (e : SExpr) : SExpr :=
  e.replace fun | .tv s => .sym (.tv (shiftSym k s)) | .par n => .sym (.par n)

theorem shiftE_at {K} (V : Valuation K) (k t : Int) (e : SExpr) (h : ∀ s ∈ e.tsyms, s.idx ≠ .ss) :
    (shiftE k e).at V t = e.at V (t + k) := by
  refine replace_at V V t (t + k) e _ ⟨rfl, rfl, rfl, rfl, rfl, rfl⟩ ?_
  intro s hs
  cases s with
  | par n => rfl
  | tv s =>
    have := h s (mem_tsyms.mpr hs)
    obtain ⟨b, i, a⟩ := s
    cases i with
    | ss => simp at this
    | t i => simp only [SExpr.at, shiftSym, Valuation.symAt]; congr 1; omega

theorem shiftE_shiftE (j k : Int) (e : SExpr) : shiftE j (shiftE k e) = shiftE (k + j) e := by
  simp only [shiftE, replace_replace]
  apply replace_congr
  intro s _
  cases s with
  | par n => simp [SExpr.replace]
  | tv s =>
    obtain ⟨b, i, a⟩ := s
    cases i <;> simp [SExpr.replace, shiftSym]; omega

theorem shiftE_zero (e : SExpr) : shiftE 0 e = e := by
  refine Eq.trans (replace_congr _ _ .sym ?_) (replace_id e)
  intro s _
  cases s with
  | par n => rfl
  | tv s =>
    obtain ⟨b, i, a⟩ := s
    cases i <;> simp [shiftSym]

theorem shiftSym_inj {k : Int} {s q : TSym} (h : shiftSym k s = shiftSym k q) : s = q := by
  obtain ⟨b, i, a⟩ := s
  obtain ⟨b', i', a'⟩ := q
  cases i <;> cases i' <;> simp_all [shiftSym]

theorem mem_tsyms_shiftE {k : Int} {e : SExpr} {s : TSym} :
    s ∈ (shiftE k e).tsyms ↔ ∃ q ∈ e.tsyms, s = shiftSym k q := by
  rw [mem_tsyms, shiftE, syms_replace]
  constructor
  · rintro ⟨q, hq, h⟩
    cases q with
    | par n => simp [SExpr.syms] at h
    | tv q => simp [SExpr.syms] at h; exact ⟨q, mem_tsyms.mpr hq, h⟩
  · rintro ⟨q, hq, rfl⟩
    exact ⟨.tv q, mem_tsyms.mp hq, by simp [SExpr.syms]⟩

theorem stepFwdIn_eq (order : List TSym) (h : ∀ s ∈ order, s.idx ≠ .ss) (e : SExpr) :
    stepFwdIn order e = .ok (order.foldl (fun e v => e.subs1 (.tv v) (.sym (.tv (shiftSym 1 v)))) e) := by
  induction order generalizing e with
  | nil => rfl
  | cons v rest ih =>
    have hv := h v (List.mem_cons_self ..)
    have h1 : stepForward v = .ok (shiftSym 1 v) := by
      obtain ⟨b, i, a⟩ := v
      cases i <;> simp_all [stepForward, shiftSym]
    simp only [stepFwdIn, List.foldlM_cons, h1, List.foldl_cons]
    exact ih (fun s hs => h s (List.mem_cons_of_mem _ hs)) _

theorem stepBwdIn_eq (order : List TSym) (h : ∀ s ∈ order, s.idx ≠ .ss) (e : SExpr) :
    stepBwdIn order e = .ok (order.foldl (fun e v => e.subs1 (.tv v) (.sym (.tv (shiftSym (-1) v)))) e) := by
  induction order generalizing e with
  | nil => rfl
  | cons v rest ih =>
    have hv := h v (List.mem_cons_self ..)
    have h1 : stepBackward v = .ok (shiftSym (-1) v) := by
      obtain ⟨b, i, a⟩ := v
      cases i <;> simp_all [stepBackward, shiftSym]; omega
    simp only [stepBwdIn, List.foldlM_cons, h1, List.foldl_cons]
    exact ih (fun s hs => h s (List.mem_cons_of_mem _ hs)) _

theorem step_fold (k : Int) (before : TSym → TSym → Bool) (e : SExpr) (order : List TSym)
    (ho : SortedAtoms before e order) (hss : ∀ s ∈ e.tsyms, s.idx ≠ .ss)
    (hk : ∀ a b : TSym, before a b → a.idx ≠ .ss → shiftSym k a ≠ b) :
    order.foldl (fun e v => e.subs1 (.tv v) (.sym (.tv (shiftSym k v)))) e = shiftE k e := by
  rw [fold_listed]
  · apply replace_congr
    intro s hs
    cases s with
    | par n => rfl
    | tv s => simp [listed, (ho.mem s).mpr (mem_tsyms.mpr hs)]
  · refine List.Pairwise.imp_of_mem ?_ ho.sorted
    intro a b ha hb hab heq
    exact absurd heq (hk a b hab (hss a ((ho.mem a).mp ha)))

theorem stepFwdIn_shift (e : SExpr) (order : List TSym) (ho : SortedAtoms descT e order)
    (hss : ∀ s ∈ e.tsyms, s.idx ≠ .ss) : stepFwdIn order e = .ok (shiftE 1 e) := by
  rw [stepFwdIn_eq order (fun s hs => hss s ((ho.mem s).mp hs)), step_fold 1 descT e order ho hss]
  intro a b hab ha heq
  obtain ⟨ba, ia, aa⟩ := a
  obtain ⟨bb, ib, ab⟩ := b
  cases ia <;> cases ib <;> simp_all [descT, shiftSym]; omega

theorem stepBwdIn_shift (e : SExpr) (order : List TSym) (ho : SortedAtoms ascT e order)
    (hss : ∀ s ∈ e.tsyms, s.idx ≠ .ss) : stepBwdIn order e = .ok (shiftE (-1) e) := by
  rw [stepBwdIn_eq order (fun s hs => hss s ((ho.mem s).mp hs)), step_fold (-1) ascT e order ho hss]
  intro a b hab ha heq
  obtain ⟨ba, ia, aa⟩ := a
  obtain ⟨bb, ib, ab⟩ := b
  cases ia <;> cases ib <;> simp_all [ascT, shiftSym]; omega

theorem sorted_desc (e : SExpr) : SortedAtoms descT e (sortBy descT e.tsyms.eraseDups) := by
  refine ⟨by simp [(Ldr.sortBy_perm _ _).mem_iff], Ldr.sortBy_sorted _ ?_ ?_ _⟩
  · intro a b c; unfold descT; cases a.idx <;> cases b.idx <;> cases c.idx <;> simp; omega
  · intro a b; unfold descT; cases a.idx <;> cases b.idx <;> simp; omega

theorem sorted_asc (e : SExpr) : SortedAtoms ascT e (sortBy ascT e.tsyms.eraseDups) := by
  refine ⟨by simp [(Ldr.sortBy_perm _ _).mem_iff], Ldr.sortBy_sorted _ ?_ ?_ _⟩
  · intro a b c; unfold ascT; cases a.idx <;> cases b.idx <;> cases c.idx <;> simp; omega
  · intro a b; unfold ascT; cases a.idx <;> cases b.idx <;> simp; omega

theorem stepFwd_shift (e : SExpr) (hss : ∀ s ∈ e.tsyms, s.idx ≠ .ss) : stepFwd e = .ok (shiftE 1 e) :=
  stepFwdIn_shift e _ (sorted_desc e) hss

theorem stepBwd_shift (e : SExpr) (hss : ∀ s ∈ e.tsyms, s.idx ≠ .ss) : stepBwd e = .ok (shiftE (-1) e) :=
  stepBwdIn_shift e _ (sorted_asc e) hss

/-! ## C12 -/

/-- **C12** stepping forward: whatever order the symbols of equal date come in, the result exists, and its value at date `t`
is the value of the original equation at date `t + 1`, along every path and for every meaning of the operations. -/
theorem C12_step_forward (e : SExpr) (order : List TSym) (ho : SortedAtoms descT e order)
    (hss : ∀ s ∈ e.tsyms, s.idx ≠ .ss) :
    ∃ e', stepFwdIn order e = .ok e' ∧ ∀ (K : Type) (V : Valuation K) (t : Int), e'.at V t = e.at V (t + 1) :=
  ⟨_, stepFwdIn_shift e order ho hss, fun _ V t => shiftE_at V 1 t e hss⟩

/-- **C12** stepping backward shifts the other way. -/
theorem C12_step_backward (e : SExpr) (order : List TSym) (ho : SortedAtoms ascT e order)
    (hss : ∀ s ∈ e.tsyms, s.idx ≠ .ss) :
    ∃ e', stepBwdIn order e = .ok e' ∧ ∀ (K : Type) (V : Valuation K) (t : Int), e'.at V t = e.at V (t - 1) :=
  ⟨_, stepBwdIn_shift e order ho hss, fun _ V t => shiftE_at V (-1) t e hss⟩

/-- **C12** backward undoes forward (and conversely), literally. -/
theorem C12_inverse (e : SExpr) (hss : ∀ s ∈ e.tsyms, s.idx ≠ .ss) :
    (stepFwd e).bind stepBwd = .ok e ∧ (stepBwd e).bind stepFwd = .ok e := by
  have key : ∀ k, ∀ s ∈ (shiftE k e).tsyms, s.idx ≠ .ss := by
    intro k s hs
    obtain ⟨q, hq, rfl⟩ := mem_tsyms_shiftE.mp hs
    have := hss q hq
    obtain ⟨b, i, a⟩ := q
    cases i <;> simp_all [shiftSym]
  constructor
  · rw [stepFwd_shift e hss]
    simp only [Except.bind]
    rw [stepBwd_shift _ (key 1), shiftE_shiftE, show (1 : Int) + -1 = 0 from rfl, shiftE_zero]
  · rw [stepBwd_shift e hss]
    simp only [Except.bind]
    rw [stepFwd_shift _ (key (-1)), shiftE_shiftE, show (-1 : Int) + 1 = 0 from rfl, shiftE_zero]

/-- **C12** an equation with a steady-state symbol is rejected (TypeError), in either direction, whatever the order. -/
theorem C12_steady_state_rejected (e : SExpr) (order : List TSym) (hmem : ∀ s, s ∈ order ↔ s ∈ e.tsyms)
    (hss : ∃ s ∈ e.tsyms, s.idx = .ss) :
    stepFwdIn order e = .error .typeError ∧ stepBwdIn order e = .error .typeError := by
  have hss' : ∃ s ∈ order, s.idx = .ss := by
    obtain ⟨s, h1, h2⟩ := hss; exact ⟨s, (hmem s).mpr h1, h2⟩
  clear hss hmem
  constructor
  · induction order generalizing e with
    | nil => simp at hss'
    | cons v rest ih =>
      simp only [stepFwdIn, List.foldlM_cons]
      cases hv : v.idx with
      | ss => simp [stepForward, hv]; rfl
      | t k =>
        simp only [stepForward, hv]
        refine ih _ ?_
        obtain ⟨s, h1, h2⟩ := hss'
        rcases List.mem_cons.mp h1 with rfl | h1
        · simp [h2] at hv
        · exact ⟨s, h1, h2⟩
  · induction order generalizing e with
    | nil => simp at hss'
    | cons v rest ih =>
      simp only [stepBwdIn, List.foldlM_cons]
      cases hv : v.idx with
      | ss => simp [stepBackward, hv]; rfl
      | t k =>
        simp only [stepBackward, hv]
        refine ih _ ?_
        obtain ⟨s, h1, h2⟩ := hss'
        rcases List.mem_cons.mp h1 with rfl | h1
        · simp [h2] at hv
        · exact ⟨s, h1, h2⟩

/-- non-vacuity: `x[-1] * x[] + y[1]`, where a wrong (ascending) order would merge `x[-1]` and `x[]` -/
example :
    let x := fun k => TSym.mk ['x'] (.t k) []
    let y := fun k => TSym.mk ['y'] (.t k) []
    let e : SExpr := .add (.mul (.sym (.tv (x (-1)))) (.sym (.tv (x 0)))) (.sym (.tv (y 1)))
    SortedAtoms descT e [y 1, x 0, x (-1)] ∧ (∀ s ∈ e.tsyms, s.idx ≠ .ss) ∧
    stepFwdIn [x (-1), x 0, y 1] e ≠ .ok (shiftE 1 e) := by
  refine ⟨⟨?_, by simp [descT]⟩, ?_, by decide⟩
  · intro s; simp [SExpr.tsyms, SExpr.syms]; grind
  · intro s; simp [SExpr.tsyms, SExpr.syms]; grind

/-! ## C13 -/

/-- the stationary valuation: every path is constantly the steady-state value, shocks are zero -/
def Valuation.stationary {K} (V : Valuation K) (shocks : List TSym) : Valuation K :=
  { V with
    path := fun b a _ => if (⟨b, .ss, a⟩ : TSym) ∈ shocks.map toSS then V.num 0 else V.ss b a
    ss := fun b a => if (⟨b, .ss, a⟩ : TSym) ∈ shocks.map toSS then V.num 0 else V.ss b a }

theorem fold_zero (zs : List TSym) (e : SExpr) :
    e.subsSeq (zs.map fun x => (.tv x, .num 0)) =
      e.replace fun | .tv v => if v ∈ zs then .num 0 else .sym (.tv v) | .par n => .sym (.par n) := by
  unfold SExpr.subsSeq
  induction zs generalizing e with
  | nil => exact (replace_id e).symm.trans (replace_congr _ _ _ fun s _ => by cases s <;> simp)
  | cons z zs ih =>
    rw [List.map_cons, List.foldl_cons, ih, SExpr.subs1, replace_replace]
    apply replace_congr
    intro s _
    cases s with
    | par n => simp [SExpr.replace]
    | tv s =>
      by_cases hs : s = z
      · simp [hs, SExpr.replace]
      · have : Sym.tv s ≠ Sym.tv z := by simpa using hs
        simp [this, hs, SExpr.replace]

theorem eqToSSIn_eq (order shocks : List TSym) (e : SExpr) (ho : ∀ s ∈ e.tsyms, s ∈ order) :
    eqToSSIn order shocks e = e.replace fun
      | .tv v => if toSS v ∈ shocks.map toSS then .num 0 else .sym (.tv (toSS v))
      | .par n => .sym (.par n) := by
  unfold eqToSSIn
  have h1 : e.subsSeq (order.map fun v => (.tv v, .sym (.tv (toSS v)))) = e.replace (listed toSS order) := by
    rw [← fold_listed toSS order, SExpr.subsSeq, List.foldl_map]
    refine List.pairwise_of_forall ?_
    intro a b h; rw [← h]; rfl
  have h2 := fold_zero (shocks.map toSS) (e.replace (listed toSS order))
  rw [List.map_map] at h2
  rw [h1]
  refine h2.trans ?_
  rw [replace_replace]
  apply replace_congr
  intro s hs
  cases s with
  | par n => simp [listed, SExpr.replace]
  | tv s => simp [listed, ho s (mem_tsyms.mpr hs), SExpr.replace]

/-- **C13** the steady-state version of an equation contains no dated variable and no shock, and its value (at any date) is
the value of the original equation, at every date, along the stationary path with shocks switched off. -/
theorem C13_steady_state (e : SExpr) (shocks order : List TSym) (ho : ∀ s, s ∈ order ↔ s ∈ e.tsyms) :
    (∀ s ∈ (eqToSSIn order shocks e).tsyms, s.idx = .ss ∧ s ∉ shocks.map toSS) ∧
    ∀ (K : Type) (V : Valuation K) (t u : Int),
      (eqToSSIn order shocks e).at V t = e.at (V.stationary shocks) u := by
  rw [eqToSSIn_eq order shocks e fun s hs => (ho s).mpr hs]
  constructor
  · intro s hs
    rw [mem_tsyms, syms_replace] at hs
    obtain ⟨q, _, hq⟩ := hs
    cases q with
    | par n => simp [SExpr.syms] at hq
    | tv q =>
      dsimp only at hq
      split at hq
      · simp [SExpr.syms] at hq
      · simp [SExpr.syms] at hq; subst hq; exact ⟨rfl, by assumption⟩
  · intro K V t u
    refine replace_at V (V.stationary shocks) t u e _ ⟨rfl, rfl, rfl, rfl, rfl, rfl⟩ ?_
    intro s _
    cases s with
    | par n => rfl
    | tv s =>
      obtain ⟨b, i, a⟩ := s
      dsimp only
      have hb : (⟨b, .ss, a⟩ : TSym) = toSS ⟨b, i, a⟩ := rfl
      by_cases h : toSS ⟨b, i, a⟩ ∈ shocks.map toSS
      · rw [if_pos h]
        cases i <;> (simp only [SExpr.at, Valuation.symAt, Valuation.stationary]; rw [hb, if_pos h])
      · rw [if_neg h]
        cases i <;> (simp only [SExpr.at, Valuation.symAt, Valuation.stationary]; rw [hb, if_neg h]; rfl)

/-- non-vacuity: `K[] - (1-d)*K[-1] - e[]` with shock `e` -/
example : ∃ (e : SExpr) (order shocks : List TSym), (∀ s, s ∈ order ↔ s ∈ e.tsyms) ∧ order.length = 3 ∧ shocks.length = 1 := by
  refine ⟨.add (.sym (.tv ⟨['K'], .t 0, []⟩)) (.add (.mul (.sym (.par ['d'])) (.sym (.tv ⟨['K'], .t (-1), []⟩)))
    (.sym (.tv ⟨['e'], .t 0, []⟩))), [⟨['K'], .t 0, []⟩, ⟨['K'], .t (-1), []⟩, ⟨['e'], .t 0, []⟩], [⟨['e'], .t 0, []⟩], ?_, rfl, rfl⟩
  intro s; simp [SExpr.tsyms, SExpr.syms]

end GE
