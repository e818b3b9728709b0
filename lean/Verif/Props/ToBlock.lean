import Verif.Model.Block
import Verif.Props.DiffTime
import Mathlib.Analysis.SpecialFunctions.Log.Base
/-!
# C20 (numbering of a block's equations) and C51 (meaning of converted expressions)
-/

namespace GE

/-! ## C51: the sympy expression means what the GCN expression means -/

/-- real meaning of GCN operators and functions -/
noncomputable def realInterp (asm : List (Str × Asm)) (P : RealPath) : Interp ℝ where
  num q := (q : ℝ)
  par := P.par
  bin op a b := match op with
    | .add => a + b
    | .sub => a - b
    | .mul => a * b
    | .div => a / b
    | .pow => a ^ b
  neg a := -a
  fn f as := match String.ofList f, as with
    | "log", [a] => Real.log a
    | "log", [a, b] => Real.logb b a
    | "exp", [a] => Real.exp a
    | "sqrt", [a] => √a
    | _, _ => 0
  ss n := P.ss n (mergeAssumptions (dget asm n))

namespace Conv

theorem call_val (asm) (P : RealPath) (t : Int) (f : Str) (as : List SExpr) (s : SExpr) (h : convCall f as = .ok s) :
    s.val P t = (realInterp asm P).fn f (as.map fun a => a.val P t) := by
  unfold convCall at h
  simp only [realInterp]
  split at h
  · rename_i hf
    rw [show String.ofList f = "log" by rw [hf]; simp]
    split at h
    · cases h; rfl
    · cases h
      simp [DTT.val_div, Real.logb]
    · cases h
  · split at h
    · rename_i hf
      rw [show String.ofList f = "exp" by rw [hf]; simp]
      split at h
      · cases h; rfl
      · cases h
    · split at h
      · rename_i hf
        rw [show String.ofList f = "sqrt" by rw [hf]; simp]
        split at h
        · cases h
          simp [Real.sqrt_eq_rpow]
        · cases h
      · split at h <;> cases h

mutual
theorem conv_val (asm) (P : RealPath) (t : Int) (e : Expr) (s : SExpr) (h : toSympy asm e = .ok s) :
    s.val P t = e.eval (realInterp asm P) (fun n k => P.path n (mergeAssumptions (dget asm n)) k) t := by
  cases e with
  | num v => simp only [toSympy] at h; cases h; rfl
  | par n => simp only [toSympy] at h; cases h; rfl
  | var n i => simp only [toSympy] at h; cases h; cases i <;> rfl
  | expect e => simp only [toSympy] at h; simpa only [Expr.eval] using conv_val asm P t e s h
  | neg e =>
    simp only [toSympy] at h
    split at h
    · cases h
    · rename_i a ha
      cases h
      rw [DTT.val_neg, conv_val asm P t e a ha]; rfl
  | bin op l r =>
    simp only [toSympy] at h
    split at h
    · cases h
    · rename_i a ha
      split at h
      · cases h
      · rename_i b hb
        cases h
        have h1 := conv_val asm P t l a ha
        have h2 := conv_val asm P t r b hb
        cases op <;> simp only [convBin, DTT.val_add, DTT.val_sub, DTT.val_mul, DTT.val_div, DTT.val_pow, h1, h2] <;> rfl
  | call f as =>
    simp only [toSympy] at h
    split at h
    · cases h
    · rename_i as' has
      rw [call_val asm P t f as' s h, convArgs_val asm P t as as' has]; rfl
theorem convArgs_val (asm) (P : RealPath) (t : Int) (as : List Expr) (ss : List SExpr) (h : toSympyArgs asm as = .ok ss) :
    (ss.map fun a => a.val P t) =
      Expr.evalArgs (realInterp asm P) (fun n k => P.path n (mergeAssumptions (dget asm n)) k) t as := by
  cases as with
  | nil => simp only [toSympyArgs] at h; cases h; rfl
  | cons a as =>
    simp only [toSympyArgs] at h
    split at h
    · cases h
    · rename_i a' ha
      split at h
      · cases h
      · rename_i as' has
        cases h
        simp only [List.map_cons, Expr.evalArgs, conv_val asm P t a a' ha, convArgs_val asm P t as as' has]
end

end Conv

/-- **C51** whenever an expression converts, the sympy expression has, at every date and along every path, the real value of the
GCN expression (same dates, same parameters, usual arithmetic; expectations are transparent). -/
theorem C51_same_value (asm : List (Str × Asm)) (e : Expr) (s : SExpr) (h : toSympy asm e = .ok s) (P : RealPath) (t : Int) :
    s.val P t = e.eval (realInterp asm P) (fun n k => P.path n (mergeAssumptions (dget asm n)) k) t :=
  Conv.conv_val asm P t e s h

/-- **C51** an ordinary equation converts to an equation with the same solutions, in which each variable keeps its date; a
calibrating equation `lhs = rhs -> p` becomes `p = rhs - lhs`. -/
theorem C51_equation (asm : List (Str × Asm)) (e : Eqn) (s : SEq) (h : eqnToSympy asm e = .ok s) :
    (e.calibrating = none → ∀ P t, (s.lhs.val P t = s.rhs.val P t ↔
        e.holds (realInterp asm P) (fun n k => P.path n (mergeAssumptions (dget asm n)) k) t)) ∧
    (∀ c p, e.calibrating = some (c :: p) → s.lhs = .sym (.par (c :: p)) ∧ ∀ P t, (s.rhs.val P t = 0 ↔
        e.holds (realInterp asm P) (fun n k => P.path n (mergeAssumptions (dget asm n)) k) t)) := by
  unfold eqnToSympy at h
  split at h
  · cases h
  · rename_i l hl
    split at h
    · cases h
    · rename_i r hr
      split at h
      · rename_i c p hc
        cases h
        refine ⟨by simp [hc], ?_⟩
        intro c' p' hc'
        rw [hc] at hc'
        cases hc'
        refine ⟨rfl, fun P t => ?_⟩
        rw [DTT.val_sub, C51_same_value asm e.lhs l hl P t, C51_same_value asm e.rhs r hr P t, sub_eq_zero]
        exact eq_comm
      · rename_i hne
        cases h
        refine ⟨fun _ P t => ?_, fun c p hc => absurd hc (hne c p)⟩
        simp only [C51_same_value asm e.lhs l hl P t, C51_same_value asm e.rhs r hr P t, Eqn.holds]

mutual
/-- the functions an expression calls, with the number of arguments -/
def Expr.calls : Expr → List (Str × Nat)
  | .num _ => []
  | .par _ => []
  | .var _ _ => []
  | .bin _ l r => l.calls ++ r.calls
  | .neg e => e.calls
  | .call f as => (f, as.length) :: Expr.callsArgs as
  | .expect e => e.calls
def Expr.callsArgs : List Expr → List (Str × Nat)
  | [] => []
  | a :: as => a.calls ++ Expr.callsArgs as
end

namespace Conv
mutual
theorem conv_ok (asm) (e : Expr) (h : ∀ c ∈ e.calls, c ∈ [("log".toList, 1), ("log".toList, 2), ("exp".toList, 1), ("sqrt".toList, 1)]) :
    ∃ s, toSympy asm e = .ok s := by
  cases e with
  | num v => exact ⟨_, by simp only [toSympy]; rfl⟩
  | par n => exact ⟨_, by simp only [toSympy]; rfl⟩
  | var n t => exact ⟨_, by simp only [toSympy]; rfl⟩
  | expect e => simpa only [toSympy] using conv_ok asm e (by simpa only [Expr.calls] using h)
  | neg e =>
    obtain ⟨s, hs⟩ := conv_ok asm e (by simpa only [Expr.calls] using h)
    exact ⟨_, by simp only [toSympy, hs]; rfl⟩
  | bin op l r =>
    simp only [Expr.calls] at h
    obtain ⟨a, ha⟩ := conv_ok asm l fun c hc => h c (List.mem_append_left _ hc)
    obtain ⟨b, hb⟩ := conv_ok asm r fun c hc => h c (List.mem_append_right _ hc)
    exact ⟨_, by simp only [toSympy, ha, hb]; rfl⟩
  | call f as =>
    simp only [Expr.calls] at h
    obtain ⟨ss, hs, hlen⟩ := convArgs_ok asm as fun c hc => h c (List.mem_cons_of_mem _ hc)
    have hf := h (f, as.length) (List.mem_cons_self ..)
    simp only [toSympy, hs]
    rw [← hlen] at hf
    simp only [List.mem_cons, Prod.mk.injEq, List.not_mem_nil, or_false] at hf
    rcases hf with ⟨rfl, hn⟩ | ⟨rfl, hn⟩ | ⟨rfl, hn⟩ | ⟨rfl, hn⟩
    · obtain ⟨a, rfl⟩ := List.length_eq_one_iff.mp hn; exact ⟨_, rfl⟩
    · obtain ⟨a, b, rfl⟩ := List.length_eq_two.mp hn; exact ⟨_, rfl⟩
    · obtain ⟨a, rfl⟩ := List.length_eq_one_iff.mp hn; exact ⟨_, rfl⟩
    · obtain ⟨a, rfl⟩ := List.length_eq_one_iff.mp hn; exact ⟨_, rfl⟩
theorem convArgs_ok (asm) (as : List Expr) (h : ∀ c ∈ Expr.callsArgs as, c ∈ [("log".toList, 1), ("log".toList, 2), ("exp".toList, 1), ("sqrt".toList, 1)]) :
    ∃ ss, toSympyArgs asm as = .ok ss ∧ ss.length = as.length := by
  cases as with
  | nil => exact ⟨[], by simp only [toSympyArgs], rfl⟩
  | cons a as =>
    simp only [Expr.callsArgs] at h
    obtain ⟨s, hs⟩ := conv_ok asm a fun c hc => h c (List.mem_append_left _ hc)
    obtain ⟨ss, hss, hl⟩ := convArgs_ok asm as fun c hc => h c (List.mem_append_right _ hc)
    exact ⟨s :: ss, by simp only [toSympyArgs, hs, hss], by simp [hl]⟩
end
end Conv

/-- **C51** the conversion succeeds for every expression whose calls are to log (one or two arguments), exp and sqrt. -/
theorem C51_total (asm : List (Str × Asm)) (e : Expr)
    (h : ∀ c ∈ e.calls, c ∈ [("log".toList, 1), ("log".toList, 2), ("exp".toList, 1), ("sqrt".toList, 1)]) :
    ∃ s, toSympy asm e = .ok s := Conv.conv_ok asm e h

/-- **C51** the two converters of calibrating equations (`_equation_to_sympy` used for blocks, `equation_to_sympy` used by the
AST tools) have opposite signs. -/
theorem C51_two_converters_opposite_sign (asm : List (Str × Asm)) (e : Eqn) (c : Char) (p : Str) (he : e.calibrating = some (c :: p))
    (s s' : SEq) (h : eqnToSympy asm e = .ok s) (h' : equationToSympyMeta asm e = .ok s') (P : RealPath) (t : Int) :
    s.lhs = s'.lhs ∧ s.rhs.val P t = - s'.rhs.val P t := by
  unfold eqnToSympy at h
  unfold equationToSympyMeta at h'
  split at h
  · cases h
  · rename_i l hl
    rw [hl] at h'
    split at h
    · cases h
    · rename_i r hr
      rw [hr] at h'
      simp only [he] at h h'
      cases h; cases h'
      exact ⟨rfl, by simp⟩

/-- non-vacuity: `Y[] = A * K[-1]^alpha -> alpha` with a positivity assumption on `Y` -/
example : ∃ s, eqnToSympy [(['Y'], [("positive".toList, true)])]
    { lhs := .var ['Y'] (.t 0), rhs := .bin .mul (.par ['A']) (.bin .pow (.var ['K'] (.t (-1))) (.par ['a'])), calibrating := some ['a'] } = .ok s :=
  ⟨_, rfl⟩

/-! ## C20: numbering -/

/-- pair the entries of `l` with consecutive numbers starting at `n` -/
def numbered {α : Type} (n : Nat) (l : List α) : List (Nat × α) := (List.range' n l.length).zip l

/-- a component dictionary: absent when nothing was written -/
def component {α : Type} (n : Nat) (l : List α) : Option (List (Nat × α)) := if l = [] then none else some (numbered n l)

/-- the calibration statements that become equations: equations, and priors with a starting value -/
def keptCalib (cs : List Calib) : List Calib := cs.filter fun | .eq _ => true | .dist d => d.initial.isSome

/-- what a kept calibration statement becomes -/
def calibBecomes (asm : List (Str × Asm)) : Calib → SEq → Prop
  | .eq e, s => eqnToSympy asm e = .ok s
  | .dist d, s => ∃ v, d.initial = some v ∧ s = ⟨.sym (.par d.param), .num v⟩

/-- flags of a calibration statement -/
def calibFlags : Calib → Flags
  | .eq e => extractFlags e
  | .dist _ => {}

/-- multiplier of a calibration statement -/
def calibMultiplier (asm : List (Str × Asm)) : Calib → Option TSym
  | .eq e => extractMultiplier asm e
  | .dist _ => none

namespace Num

theorem numbered_append {α} (n : Nat) (l m : List α) : numbered n (l ++ m) = numbered n l ++ numbered (n + l.length) m := by
  unfold numbered
  rw [List.length_append, ← List.range'_append_1, List.zip_append (by simp)]

theorem numbered_cons {α} (n : Nat) (a : α) (l : List α) : numbered n (a :: l) = (n, a) :: numbered (n + 1) l := by
  simp [numbered, List.range'_succ]

theorem dkeys_numbered {α} (n : Nat) (l : List α) : dkeys (numbered n l) = List.range' n l.length := by
  unfold numbered dkeys
  rw [List.map_fst_zip (by simp)]

structure StOk (st : ConvSt) (fl : List Flags) (ml : List (Option TSym)) : Prop where
  f : st.flags = numbered 0 fl
  m : st.multipliers = numbered 0 ml
  lf : fl.length = st.eqNum
  lm : ml.length = st.eqNum

theorem dset_numbered {α} (l : List α) (a : α) (n : Nat) (h : l.length = n) :
    dset (numbered 0 l) n a = numbered 0 (l ++ [a]) := by
  rw [dset_new, numbered_append]
  · simp [numbered, h]
  · rw [dkeys_numbered, h]; simp

theorem dset_acc {α} (m n : Nat) (l : List α) (a : α) (h : m + l.length = n) :
    dset (numbered m l) n a = numbered m (l ++ [a]) := by
  rw [dset_new, numbered_append]
  · simp [numbered, h]
  · rw [dkeys_numbered]; simp; omega

theorem convertList_spec (asm) (es : List Eqn) (st st' : ConvSt) (m : Nat) (acc : List SEq) (d)
    (fl : List Flags) (ml : List (Option TSym)) (hst : StOk st fl ml) (hm : m + acc.length = st.eqNum)
    (h : convertList asm es st (numbered m acc) = .ok (d, st')) :
    ∃ ss, List.Forall₂ (fun e s => eqnToSympy asm e = .ok s) es ss ∧ d = numbered m (acc ++ ss) ∧
      st'.eqNum = st.eqNum + es.length ∧ StOk st' (fl ++ es.map extractFlags) (ml ++ es.map (extractMultiplier asm)) := by
  induction es generalizing st acc fl ml with
  | nil =>
    simp only [convertList, Except.ok.injEq, Prod.mk.injEq] at h
    refine ⟨[], .nil, by simp [h.1], by simp [h.2], by simpa [h.2] using hst⟩
  | cons e es ih =>
    simp only [convertList] at h
    split at h
    · cases h
    · rename_i s hs
      rw [dset_acc m st.eqNum acc s hm] at h
      have := ih { eqNum := st.eqNum + 1, flags := dset st.flags st.eqNum (extractFlags e),
                   multipliers := dset st.multipliers st.eqNum (extractMultiplier asm e) } (acc ++ [s])
        (fl ++ [extractFlags e]) (ml ++ [extractMultiplier asm e])
        ⟨by rw [hst.f]; exact dset_numbered _ _ _ hst.lf, by rw [hst.m]; exact dset_numbered _ _ _ hst.lm,
          by simp [hst.lf], by simp [hst.lm]⟩ (by simp; omega) h
      obtain ⟨ss, h1, h2, h3, h4⟩ := this
      refine ⟨s :: ss, .cons hs h1, by simpa using h2, by rw [h3]; simp; omega, by simpa using h4⟩

theorem convertComponent_spec (asm) (es : List Eqn) (st st' : ConvSt) (d)
    (fl : List Flags) (ml : List (Option TSym)) (hst : StOk st fl ml) (h : convertComponent asm es st = .ok (d, st')) :
    ∃ ss, List.Forall₂ (fun e s => eqnToSympy asm e = .ok s) es ss ∧ d = component st.eqNum ss ∧
      st'.eqNum = st.eqNum + es.length ∧ StOk st' (fl ++ es.map extractFlags) (ml ++ es.map (extractMultiplier asm)) := by
  cases es with
  | nil =>
    simp only [convertComponent, Except.ok.injEq, Prod.mk.injEq] at h
    refine ⟨[], .nil, by simp [h.1, component], by simp [h.2], by simpa [h.2] using hst⟩
  | cons e es =>
    simp only [convertComponent] at h
    split at h
    · cases h
    · rename_i d' st'' hd
      simp only [Except.ok.injEq, Prod.mk.injEq] at h
      obtain ⟨ss, h1, h2, h3, h4⟩ := convertList_spec asm (e :: es) st st'' st.eqNum [] d' fl ml hst (by simp) hd
      rw [← h.1, ← h.2]
      refine ⟨ss, h1, ?_, h3, h4⟩
      rw [h2]
      cases h1
      simp [component]

theorem calibItems_spec (asm) (cs : List Calib) (is) (h : calibItems asm cs = .ok is) :
    is.map (fun i => (match i.1 with | some e => extractFlags e | none => ({} : Flags))) = (keptCalib cs).map calibFlags ∧
    is.map (fun i => (match i.1 with | some e => extractMultiplier asm e | none => none)) = (keptCalib cs).map (calibMultiplier asm) ∧
    List.Forall₂ (calibBecomes asm) (keptCalib cs) (is.map Prod.snd) := by
  induction cs generalizing is with
  | nil => simp only [calibItems] at h; cases h; exact ⟨rfl, rfl, .nil⟩
  | cons c cs ih =>
    cases c with
    | eq e =>
      simp only [calibItems] at h
      split at h
      · cases h
      · rename_i s hs
        split at h
        · cases h
        · rename_i r hr
          cases h
          obtain ⟨h1, h2, h3⟩ := ih r hr
          simp only [keptCalib, List.filter_cons, if_true, List.map_cons] at h1 h2 h3 ⊢
          exact ⟨by rw [h1]; rfl, by rw [h2]; rfl, .cons hs h3⟩
    | dist d =>
      simp only [calibItems] at h
      split at h
      · cases h
      · rename_i r hr
        obtain ⟨h1, h2, h3⟩ := ih r hr
        split at h
        · rename_i v hv
          cases h
          simp only [keptCalib, List.filter_cons, hv, Option.isSome_some, if_true, List.map_cons] at h1 h2 h3 ⊢
          exact ⟨by rw [h1]; rfl, by rw [h2]; rfl, .cons ⟨v, hv, rfl⟩ h3⟩
        · rename_i hv
          cases h
          simp only [keptCalib, List.filter_cons, hv, Option.isSome_none] at h1 h2 h3 ⊢
          exact ⟨h1, h2, h3⟩

theorem numberCalib_spec (asm) (is : List (Option Eqn × SEq)) (st : ConvSt) (m : Nat) (acc : List SEq)
    (fl : List Flags) (ml : List (Option TSym)) (hst : StOk st fl ml) (hm : m + acc.length = st.eqNum) :
    (numberCalib asm is st (numbered m acc)).1 = numbered m (acc ++ is.map Prod.snd) ∧
    (numberCalib asm is st (numbered m acc)).2.eqNum = st.eqNum + is.length ∧
    StOk (numberCalib asm is st (numbered m acc)).2
      (fl ++ is.map (fun i => (match i.1 with | some e => extractFlags e | none => ({} : Flags))))
      (ml ++ is.map (fun i => (match i.1 with | some e => extractMultiplier asm e | none => none))) := by
  induction is generalizing st acc fl ml with
  | nil => simpa [numberCalib] using hst
  | cons i is ih =>
    obtain ⟨a, s⟩ := i
    have key : ∀ (F : Flags) (M : Option TSym), StOk
        { eqNum := st.eqNum + 1, flags := dset st.flags st.eqNum F, multipliers := dset st.multipliers st.eqNum M }
        (fl ++ [F]) (ml ++ [M]) := fun F M =>
      ⟨by rw [hst.f]; exact dset_numbered _ _ _ hst.lf, by rw [hst.m]; exact dset_numbered _ _ _ hst.lm,
        by simp [hst.lf], by simp [hst.lm]⟩
    cases a with
    | none =>
      simp only [numberCalib]
      rw [dset_acc m st.eqNum acc s hm]
      obtain ⟨h1, h2, h3⟩ := ih _ (acc ++ [s]) _ _ (key {} none) (by simp; omega)
      refine ⟨by rw [h1]; simp, by rw [h2]; simp; omega, by simpa using h3⟩
    | some e =>
      simp only [numberCalib]
      rw [dset_acc m st.eqNum acc s hm]
      obtain ⟨h1, h2, h3⟩ := ih _ (acc ++ [s]) _ _ (key (extractFlags e) (extractMultiplier asm e)) (by simp; omega)
      refine ⟨by rw [h1]; simp, by rw [h2]; simp; omega, by simpa using h3⟩

end Num

open Num in
/-- **C20** if a block converts, then its definitions, objective, constraints, identities and calibration statements (priors
without starting value excepted) are numbered consecutively from 0 in that order: each statement, converted, is found in its
own component under its own number, and the flags and multipliers recorded under a number are those of the statement that has
the number; there are no other entries. -/
theorem C20_numbering (asm : List (Str × Asm)) (b : Blk) (B : Block) (h : astBlockToBlock asm b = .ok B) :
    let nd := b.definitions.length
    let no := nd + b.objective.length
    let nc := no + b.constraints.length
    let ni := nc + b.identities.length
    (∃ ds os cs is ks : List SEq,
      List.Forall₂ (fun e s => eqnToSympy asm e = .ok s) b.definitions ds ∧ B.definitions = component 0 ds ∧
      List.Forall₂ (fun e s => eqnToSympy asm e = .ok s) b.objective os ∧ B.objective = component nd os ∧
      List.Forall₂ (fun e s => eqnToSympy asm e = .ok s) b.constraints cs ∧ B.constraints = component no cs ∧
      List.Forall₂ (fun e s => eqnToSympy asm e = .ok s) b.identities is ∧ B.identities = component nc is ∧
      List.Forall₂ (calibBecomes asm) (keptCalib b.calibration) ks ∧ B.calibration = component ni ks) ∧
    B.flags = numbered 0 (b.equations.map extractFlags ++ (keptCalib b.calibration).map calibFlags) ∧
    B.multipliers = numbered 0 (b.equations.map (extractMultiplier asm) ++ (keptCalib b.calibration).map (calibMultiplier asm)) := by
  intro nd no nc ni
  unfold astBlockToBlock at h
  split at h
  · cases h
  rename_i d1 s1 hd
  split at h
  · cases h
  rename_i d2 s2 ho
  split at h
  · cases h
  rename_i d3 s3 hc
  split at h
  · cases h
  rename_i d4 s4 hi
  split at h
  · cases h
  rename_i d5 s5 hk
  cases h
  have h0 : StOk {} [] [] := ⟨rfl, rfl, rfl, rfl⟩
  obtain ⟨ds, a1, a2, a3, a4⟩ := convertComponent_spec asm _ _ _ _ _ _ h0 hd
  obtain ⟨os, b1, b2, b3, b4⟩ := convertComponent_spec asm _ _ _ _ _ _ a4 ho
  obtain ⟨cs, c1, c2, c3, c4⟩ := convertComponent_spec asm _ _ _ _ _ _ b4 hc
  obtain ⟨is, i1, i2, i3, i4⟩ := convertComponent_spec asm _ _ _ _ _ _ c4 hi
  have e1 : s1.eqNum = nd := by rw [a3]; simp [nd]
  have e2 : s2.eqNum = no := by rw [b3, e1]
  have e3 : s3.eqNum = nc := by rw [c3, e2]
  have e4 : s4.eqNum = ni := by rw [i3, e3]
  unfold convertCalibration at hk
  split at hk
  · cases hk
  · rename_i hn
    simp only [Except.ok.injEq, Prod.mk.injEq] at hk
    obtain ⟨k1, k2, k3⟩ := calibItems_spec asm _ _ hn
    have hz : keptCalib b.calibration = [] := by simpa using k1.symm
    refine ⟨⟨ds, os, cs, is, [], a1, by simpa using a2, b1, by rw [b2, e1], c1, by rw [c2, e2], i1, by rw [i2, e3], by simpa using k3, ?_⟩, ?_, ?_⟩
    · simp [← hk.1, component]
    · rw [← hk.2, i4.f, hz]; simp [Blk.equations]
    · rw [← hk.2, i4.m, hz]; simp [Blk.equations]
  · rename_i i' is' hn
    simp only [Except.ok.injEq, Prod.mk.injEq] at hk
    obtain ⟨k1, k2, k3⟩ := calibItems_spec asm _ _ hn
    obtain ⟨n1, n2, n3⟩ := numberCalib_spec asm (i' :: is') s4 s4.eqNum [] _ _ i4 (by simp)
    have hnil : numbered s4.eqNum ([] : List SEq) = [] := rfl
    rw [hnil] at n1 n2 n3
    refine ⟨⟨ds, os, cs, is, (i' :: is').map Prod.snd, a1, by simpa using a2, b1, by rw [b2, e1], c1, by rw [c2, e2], i1, by rw [i2, e3], k3, ?_⟩, ?_, ?_⟩
    · rw [← hk.1, n1]
      simp [component, e4]
    · rw [← hk.2, n3.f, k1]; simp [Blk.equations]
    · rw [← hk.2, n3.m, k2]; simp [Blk.equations]

/-- **C20** the recorded flags are exactly the tags written by the user, and the recorded multiplier is the named one at date t. -/
theorem C20_flags (asm : List (Str × Asm)) (e : Eqn) :
    ((extractFlags e).exclude = true ↔ Tag.exclude ∈ e.tags) ∧
    ((extractFlags e).minimize = true ↔ Tag.minimize ∈ e.tags) ∧
    ((extractFlags e).maximize = true ↔ Tag.maximize ∈ e.tags) ∧
    ((extractFlags e).isCalibrating = true ↔ ∃ p, e.calibrating = some p ∧ p ≠ []) ∧
    (∀ m, extractMultiplier asm e = some m ↔
      ∃ n, e.lagrange = some n ∧ n ≠ [] ∧ m = ⟨n, .t 0, mergeAssumptions (dget asm n)⟩) := by
  refine ⟨by simp [extractFlags], by simp [extractFlags], by simp [extractFlags], ?_, ?_⟩
  · simp only [extractFlags]
    rcases e.calibrating with _ | _ | ⟨c, p⟩ <;> simp
  · intro m
    simp only [extractMultiplier]
    rcases e.lagrange with _ | _ | ⟨c, p⟩ <;> simp [convVar, eq_comm]

/-- non-vacuity: a block with one statement in every component, a multiplier, a tag and a prior -/
example :
    let b : Blk :=
      { name := ['H']
        definitions := [{ lhs := .var ['u'] (.t 0), rhs := .call "log".toList [.var ['C'] (.t 0)] }]
        controls := [⟨['C'], .t 0⟩]
        objective := [{ lhs := .var ['U'] (.t 0), rhs := .bin .add (.var ['u'] (.t 0)) (.bin .mul (.par ['b']) (.expect (.var ['U'] (.t 1)))) }]
        constraints := [{ lhs := .var ['C'] (.t 0), rhs := .var ['Y'] (.t 0), lagrange := some ['l'], tags := [.exclude] }]
        identities := [{ lhs := .var ['Y'] (.t 0), rhs := .var ['Y'] (.t (-1)) }]
        calibration := [.dist { param := ['b'], dist := ['B'], initial := some (1/2) }, .dist { param := ['a'], dist := ['B'] }] }
    ∃ B, astBlockToBlock [] b = .ok B ∧ dkeys B.flags = [0, 1, 2, 3, 4] := ⟨_, rfl, rfl⟩

end GE
