import Verif.Props.Pipeline
/-! # C112: solutions of the loaded model are stationary points of the problems written in the file -/

namespace GE
namespace Sta
open Gcn Pip Ldr

mutual
theorem conv_syms (asm) (e : Expr) (s : SExpr) (h : toSympy asm e = .ok s) (x : TSym) (hx : Sym.tv x ∈ s.syms) :
    ∃ n t, (n, t) ∈ e.vars ∧ x = convVar asm n t := by
  cases e with
  | num v => simp only [toSympy] at h; cases h; simp [SExpr.syms] at hx
  | par n => simp only [toSympy] at h; cases h; simp [SExpr.syms] at hx
  | var n i =>
    simp only [toSympy] at h; cases h
    simp only [SExpr.syms, List.mem_singleton, Sym.tv.injEq] at hx
    exact ⟨n, i, by simp [Expr.vars], hx⟩
  | expect e => simp only [toSympy] at h; simpa only [Expr.vars] using conv_syms asm e s h x hx
  | neg e =>
    simp only [toSympy] at h
    split at h
    · cases h
    · rename_i a ha
      cases h
      simp only [SExpr.neg, SExpr.syms, List.nil_append] at hx
      simpa only [Expr.vars] using conv_syms asm e a ha x hx
  | bin op l r =>
    simp only [toSympy] at h
    split at h
    · cases h
    · rename_i a ha
      split at h
      · cases h
      · rename_i b hb
        cases h
        have hx' : Sym.tv x ∈ a.syms ∨ Sym.tv x ∈ b.syms := by
          cases op <;> simpa [convBin, SExpr.sub, SExpr.div, SExpr.syms] using hx
        simp only [Expr.vars, List.mem_append]
        rcases hx' with hx | hx
        · obtain ⟨n, t, h1, h2⟩ := conv_syms asm l a ha x hx; exact ⟨n, t, .inl h1, h2⟩
        · obtain ⟨n, t, h1, h2⟩ := conv_syms asm r b hb x hx; exact ⟨n, t, .inr h1, h2⟩
  | call f as =>
    simp only [toSympy] at h
    split at h
    · cases h
    · rename_i as' has
      have hx' : ∃ a ∈ as', Sym.tv x ∈ a.syms := by
        unfold convCall at h
        split at h
        · split at h <;> cases h
          · exact ⟨_, List.mem_singleton.2 rfl, by simpa [SExpr.syms] using hx⟩
          · simp only [SExpr.div, SExpr.syms, List.mem_append, List.append_nil] at hx
            rcases hx with hx | hx
            · exact ⟨_, by simp, hx⟩
            · exact ⟨_, List.mem_cons_of_mem _ (List.mem_singleton.2 rfl), hx⟩
        · split at h
          · split at h <;> cases h
            exact ⟨_, List.mem_singleton.2 rfl, by simpa [SExpr.syms] using hx⟩
          · split at h
            · split at h <;> cases h
              exact ⟨_, List.mem_singleton.2 rfl, by simpa [SExpr.syms] using hx⟩
            · split at h <;> cases h
      obtain ⟨a, ha, hx⟩ := hx'
      simpa only [Expr.vars] using convArgs_syms asm as as' has x a ha hx
theorem convArgs_syms (asm) (as : List Expr) (ss : List SExpr) (h : toSympyArgs asm as = .ok ss) (x : TSym) (s : SExpr) (hs : s ∈ ss)
    (hx : Sym.tv x ∈ s.syms) : ∃ n t, (n, t) ∈ Expr.varsArgs as ∧ x = convVar asm n t := by
  cases as with
  | nil => simp only [toSympyArgs] at h; cases h; cases hs
  | cons a as =>
    simp only [toSympyArgs] at h
    split at h
    · cases h
    · rename_i a' ha
      split at h
      · cases h
      · rename_i as' has
        cases h
        simp only [Expr.varsArgs, List.mem_append]
        rcases List.mem_cons.1 hs with rfl | hs
        · obtain ⟨n, t, h1, h2⟩ := conv_syms asm a _ ha x hx; exact ⟨n, t, .inl h1, h2⟩
        · obtain ⟨n, t, h1, h2⟩ := convArgs_syms asm as as' has x s hs hx; exact ⟨n, t, .inr h1, h2⟩
end

theorem smooth_sub {P t a b} (ha : SExpr.Smooth P t a) (hb : SExpr.Smooth P t b) : SExpr.Smooth P t (a.sub b) := by
  simp only [SExpr.sub, SExpr.Smooth]; exact ⟨ha, trivial, hb⟩

mutual
theorem conv_smooth (asm) (P : RealPath) (t : Int) (e : Expr) (s : SExpr) (h : toSympy asm e = .ok s)
    (hs : SmoothOn (realInterp asm P) (pathOf asm P) t e) : s.Smooth P t := by
  cases e with
  | num v => simp only [toSympy] at h; cases h; trivial
  | par n => simp only [toSympy] at h; cases h; trivial
  | var n i => simp only [toSympy] at h; cases h; trivial
  | expect e => simp only [toSympy] at h; exact conv_smooth asm P t e s h (by simpa only [SmoothOn] using hs)
  | neg e =>
    simp only [toSympy] at h
    split at h
    · cases h
    · rename_i a ha
      cases h
      exact ⟨trivial, conv_smooth asm P t e a ha (by simpa only [SmoothOn] using hs)⟩
  | bin op l r =>
    simp only [toSympy] at h
    split at h
    · cases h
    · rename_i a ha
      split at h
      · cases h
      · rename_i b hb
        cases h
        have h1 := C51_same_value asm l a ha P t
        have h2 := C51_same_value asm r b hb P t
        have ka := fun k => conv_smooth asm P t l a ha k
        have kb := fun k => conv_smooth asm P t r b hb k
        cases op with
        | add => simp only [SmoothOn] at hs; exact ⟨ka hs.1, kb hs.2⟩
        | sub => simp only [SmoothOn] at hs; exact smooth_sub (ka hs.1) (kb hs.2)
        | mul => simp only [SmoothOn] at hs; exact ⟨ka hs.1, kb hs.2⟩
        | div =>
          simp only [SmoothOn] at hs
          refine ⟨ka hs.1, kb hs.2.1, trivial, .inr ⟨?_, _, rfl⟩⟩
          rw [h2]; exact hs.2.2
        | pow =>
          simp only [SmoothOn] at hs
          refine ⟨ka hs.1, kb hs.2.1, ?_⟩
          rw [h1]
          rcases hs.2.2 with h | ⟨h, q, rfl⟩
          · exact .inl h
          · refine .inr ⟨h, q, ?_⟩
            simp only [toSympy] at hb; cases hb; rfl
  | call f as =>
    simp only [toSympy] at h
    split at h
    · cases h
    · rename_i as' has
      simp only [SmoothOn] at hs
      have hk := convArgs_smooth asm P t as as' has hs.1
      have hv := Conv.convArgs_val asm P t as as' has
      have hv' : (as'.map fun a => a.val P t) = Expr.evalArgs (realInterp asm P) (pathOf asm P) t as := hv
      unfold convCall at h
      split at h
      · rename_i hf
        have h0 := hs.2.1 (by rw [hf]; decide)
        rw [← hv'] at h0
        split at h <;> cases h
        · rename_i a
          exact ⟨hk a (by simp), h0 _ (by simp)⟩
        · rename_i a b
          refine ⟨⟨hk a (by simp), h0 _ (by simp)⟩, ⟨hk b (by simp), h0 _ (by simp)⟩, trivial, .inr ⟨?_, _, rfl⟩⟩
          exact hs.2.2 _ _ (by rw [← hv']; rfl)
      · split at h
        · split at h <;> cases h
          rename_i a
          exact hk a (by simp)
        · split at h
          · rename_i hf
            have h0 := hs.2.1 (by rw [hf]; decide)
            rw [← hv'] at h0
            split at h <;> cases h
            rename_i a
            exact ⟨hk a (by simp), trivial, .inr ⟨h0 _ (by simp), _, rfl⟩⟩
          · split at h <;> cases h
theorem convArgs_smooth (asm) (P : RealPath) (t : Int) (as : List Expr) (ss : List SExpr) (h : toSympyArgs asm as = .ok ss)
    (hs : SmoothArgs (realInterp asm P) (pathOf asm P) t as) : ∀ s ∈ ss, s.Smooth P t := by
  cases as with
  | nil => simp only [toSympyArgs] at h; cases h; simp
  | cons a as =>
    simp only [toSympyArgs] at h
    split at h
    · cases h
    · rename_i a' ha
      split at h
      · cases h
      · rename_i as' has
        cases h
        simp only [SmoothArgs] at hs
        intro s hm
        rcases List.mem_cons.1 hm with rfl | hm
        · exact conv_smooth asm P t a _ ha hs.1
        · exact convArgs_smooth asm P t as as' has hs.2 s hm
end

theorem lagTerms_smooth {P t} : ∀ (l : List (SEq × TSym)) (L : SExpr), L.Smooth P t → (∀ p ∈ l, p.1.lhs.Smooth P t ∧ p.1.rhs.Smooth P t) →
    (Lag.lagTerms [] L l).Smooth P t
  | [], L, h, _ => h
  | p :: l, L, h, hl => by
    refine lagTerms_smooth l _ ?_ (fun q hq => hl q (List.mem_cons_of_mem _ hq))
    obtain ⟨h1, h2⟩ := hl p (List.mem_cons_self ..)
    exact smooth_sub h ⟨trivial, smooth_sub h1 h2⟩

theorem lagTerms_syms {x : Sym} : ∀ (l : List (SEq × TSym)) (L : SExpr), x ∈ (Lag.lagTerms [] L l).syms →
    x ∈ L.syms ∨ ∃ p ∈ l, x = .tv p.2 ∨ x ∈ p.1.lhs.syms ∨ x ∈ p.1.rhs.syms
  | [], L, h => .inl h
  | p :: l, L, h => by
    rcases lagTerms_syms l _ h with h | ⟨q, hq, h⟩
    · simp only [SExpr.sub, SExpr.syms, List.mem_append, List.mem_singleton, List.nil_append] at h
      have e1 : p.1.lhs.subsSeq [] = p.1.lhs := rfl
      have e2 : p.1.rhs.subsSeq [] = p.1.rhs := rfl
      rw [e1, e2] at h
      rcases h with h | h | h | h
      · exact .inl h
      · exact .inr ⟨p, List.mem_cons_self .., .inl h⟩
      · exact .inr ⟨p, List.mem_cons_self .., .inr (.inl h)⟩
      · exact .inr ⟨p, List.mem_cons_self .., .inr (.inr h)⟩
    · exact .inr ⟨q, List.mem_cons_of_mem _ hq, h⟩

theorem eqn_conv {asm e s} (h : eqnToSympy asm e = .ok s) (hc : (extractFlags e).isCalibrating = false) :
    toSympy asm e.lhs = .ok s.lhs ∧ toSympy asm e.rhs = .ok s.rhs := by
  unfold eqnToSympy at h
  split at h
  · cases h
  · rename_i l hl
    split at h
    · cases h
    · rename_i r hr
      rcases no_arrow (asm := asm) hc with hc | hc <;>
      · simp only [hc] at h
        cases h
        exact ⟨hl, hr⟩

/-- the multipliers of a block by name and assumptions -/
def named (ms : List TSym) : List (Str × Asm) := ms.map fun x => (x.base, x.asm)

theorem assigned_now {asm} : ∀ (es : List Eqn) (short : Str) (i : Nat), ∀ x ∈ assigned short (es.map (extractMultiplier asm)) i, x.idx = .t 0
  | [], _, _, _, h => by cases h
  | e :: es, short, i, x, h => by
    rw [List.map_cons] at h
    cases he : extractMultiplier asm e with
    | none =>
      rw [he] at h
      rcases List.mem_cons.1 h with rfl | h
      · rfl
      · exact assigned_now es short (i + 1) x h
    | some m =>
      rw [he] at h
      rcases List.mem_cons.1 h with rfl | h
      · obtain ⟨n, _, _, h⟩ := ((C20_flags asm e).2.2.2.2 x).1 he
        rw [h]
      · exact assigned_now es short i x h

theorem forall2_getElem {α β} {R : α → β → Prop} {l : List α} {m : List β} (h : List.Forall₂ R l m) (j : Nat) (b : β) (hb : m[j]? = some b) :
    ∃ a, l[j]? = some a ∧ R a b := by
  induction h generalizing j with
  | nil => simp at hb
  | cons h1 _ ih =>
    cases j with
    | zero => simp only [List.getElem?_cons_zero, Option.some.injEq] at hb; subst hb; exact ⟨_, rfl, h1⟩
    | succ j => simpa using ih j (by simpa using hb)

theorem zip_sum {asm} {es : List Eqn} {cs : List SEq} (h : List.Forall₂ (fun e s => toSympy asm e.lhs = .ok s.lhs ∧ toSympy asm e.rhs = .ok s.rhs) es cs)
    (R : RealPath) (t : Int) : ∀ (ms : List TSym), (∀ x ∈ ms, x.idx = .t 0) →
    ((cs.zip ms).map fun p => R.val.symAt t (.tv p.2) * (p.1.lhs.val R t - p.1.rhs.val R t)).sum =
      ((es.zip (named ms)).map fun p => R.path p.2.1 p.2.2 t *
        (p.1.lhs.eval (realInterp asm R) (pathOf asm R) t - p.1.rhs.eval (realInterp asm R) (pathOf asm R) t)).sum := by
  induction h with
  | nil => intro ms _; simp
  | @cons e s es cs h1 _ ih =>
    intro ms hm
    cases ms with
    | nil => simp [named]
    | cons x ms =>
      have ih' := ih ms fun y hy => hm y (List.mem_cons_of_mem _ hy)
      have e1 := C51_same_value asm _ _ h1.1 R t
      have e2 := C51_same_value asm _ _ h1.2 R t
      have e3 : R.val.symAt t (.tv x) = R.path x.base x.asm t := by
        have := hm x (List.mem_cons_self ..)
        simp [Valuation.symAt, this, RealPath.val]
      simp only [named, List.map_cons, List.zip_cons_cons, List.sum_cons] at ih' ⊢
      rw [ih', e1, e2, e3]
      rfl

theorem bellman_block {asm : List (Str × Asm)} {ss} {b : GBlock} {p : Built} (hc : constructBlock asm ss b.toBlk = .ok p) {o V u β} (hp : b.Bellman o V u β) :
    ∃ ms : List (Str × Asm), ms.length = b.constraints.length ∧
      (∀ (j : Nat) (e : Eqn) (n : Str), b.constraints[j]? = some e → e.lagrange = some n → n ≠ [] → ms[j]? = some (n, mergeAssumptions (dget asm n))) ∧
      ∃ plain focs, p.equations = plain ++ focs ∧
        (∀ R : RealPath, ∀ t, (∀ q ∈ plain, q.val R t = 0) ↔ ∀ e ∈ b.stated, e.holds (realInterp asm R) (pathOf asm R) t) ∧
        List.Forall₂ (fun (v : VarRef) (r : SExpr) => ∀ (R : RealPath) (t : Int), (∀ k : Nat, b.SmoothProblem asm R (t + k)) →
          let a := mergeAssumptions (dget asm v.name)
          let d := β.eval (realInterp asm R) (pathOf asm R) t
          (∀ N : Nat, 2 ≤ N → HasDerivAt (fun y => ∑ k ∈ Finset.range N, d ^ k * lagrangianAt asm b o ms (R.bump v.name a t y) (t + k))
            (SExpr.val r R t) (R.path v.name a t)) ∧
          (Summable (fun k : ℕ => d ^ k * lagrangianAt asm b o ms R (t + k)) →
            HasDerivAt (fun y => ∑' k : ℕ, d ^ k * lagrangianAt asm b o ms (R.bump v.name a t y) (t + k)) (SExpr.val r R t) (R.path v.name a t)))
          b.controls focs := by
  obtain ⟨B0, B, vs0, dicts, sol, e1, e2, e3, _, _, e6, _, _, e9, _⟩ := build_ok hc
  have hdef : b.toBlk.definitions = [] := hp.definitions
  obtain ⟨hBd, rfl⟩ := Cls.defs_none e1 e3 hdef
  -- nothing to expand
  have hnear : ∀ e ∈ b.toBlk.equations, ∀ o ∈ e.vars, o.2.near := by
    rintro e he ⟨n, i⟩ ho
    simp only [Blk.equations, hdef, List.nil_append, List.mem_append] at he
    cases i with
    | ss => trivial
    | t k =>
      rcases he with he | he
      · obtain ⟨k', h, h1, h2⟩ := hp.near e (by rw [List.mem_append]; exact he) n _ ho
        cases h; exact ⟨h1, h2⟩
      · exact hp.identities e he n k ho
  have hexp : expandBlock b.toBlk = b.toBlk :=
    C09_shallow_unchanged b.toBlk hnear (fun v hv => by rw [hp.controls v hv]; exact ⟨by decide, by decide⟩)
  rw [hexp] at e1
  have wf := (C67_accepted_iff B).1 e2
  obtain ⟨⟨ds, os, cs, is, ks, hds, ed, hos, eo, hcs, ec, his, ei, _⟩, hfl, hmu⟩ := C20_numbering asm b.toBlk B e1
  have hobj : b.toBlk.objective = [o] := hp.objective
  rw [hdef] at eo
  rw [hdef, hobj] at ec
  change _ = component 0 os at eo
  change _ = component 1 cs at ec
  rw [hobj] at hos
  obtain ⟨obj, rfl, hoc⟩ : ∃ obj, os = [obj] ∧ eqnToSympy asm o = .ok obj := by
    cases hos with
    | cons h1 h2 => cases h2; exact ⟨_, rfl, h1⟩
  have hB_obj : B.objective = some [(0, obj)] := by rw [eo]; simp [component, numbered]
  have heqs : b.toBlk.equations = o :: (b.toBlk.constraints ++ b.toBlk.identities) := by
    simp [Blk.equations, hdef, hobj]
  have po : (extractFlags o).isCalibrating = false :=
    comp_plain e1 eo (List.Forall₂.cons hoc .nil) (fun j e he => by
      cases j with
      | zero => simpa [heqs] using he
      | succ j => simp at he) (fun l hl p hp => (wf.objective l hl p hp).1) o (by simp)
  have hconi : ∀ j e, b.toBlk.constraints[j]? = some e → b.toBlk.equations[1 + j]? = some e := fun j e he => by
    rw [heqs, Nat.add_comm 1 j, List.getElem?_cons_succ, List.getElem?_append_left (List.getElem?_eq_some_iff.1 he).1, he]
  have pc := comp_plain e1 ec hcs (fun j e he => by simpa using hconi j e he) wf.constraints
  obtain ⟨ol, or⟩ := eqn_conv hoc po
  rw [hp.lhs] at ol
  rw [hp.rhs] at or
  simp only [toSympy] at ol
  have ol : obj.lhs = .sym (.tv (convVar asm V (.t 0))) := (Except.ok.inj ol).symm
  simp only [toSympy] at or
  split at or
  · cases or
  rename_i u' hu'
  split at or
  · cases or
  rename_i r' hr'
  split at hr'
  · cases hr'
  rename_i β' hβ'
  have hr' := Except.ok.inj hr'
  have or := Except.ok.inj or
  have hobje : obj = ⟨.sym (.tv (convVar asm V (.t 0))), .add u' (.mul β' (.sym (.tv { convVar asm V (.t 0) with idx := .t 1 })))⟩ := by
    rw [← ol, show SExpr.add u' (.mul β' (.sym (.tv { convVar asm V (.t 0) with idx := .t 1 }))) = obj.rhs by rw [← or, ← hr']; rfl]
  -- the pieces of the solution
  have hctl : B.controls = convertVars asm b.toBlk.controls := by
    unfold astBlockToBlock at e1
    repeat' split at e1
    all_goals first | (cases e1; done) | (cases e1; rfl)
  obtain ⟨cl, hcl⟩ : ∃ cl, B.controls = some cl := by
    have := wf.both
    rw [hB_obj] at this
    exact Option.isSome_iff_exists.1 (this.1 rfl)
  obtain ⟨L, mrec, df, plain, focs, hL, hdf, hreq, _, hplain, hfoc⟩ := C23_equations B sol 0 obj [] cl hcl hB_obj e6
  have hvar : ∀ {e s x}, toSympy asm e = .ok s → Sym.tv x ∈ s.syms → ∃ n t, (n, t) ∈ e.vars ∧ x = convVar asm n t :=
    fun h hx => conv_syms asm _ _ h _ hx
  obtain ⟨df', hdf', hdv, hdt, hds⟩ := C23_discount_bellman (convVar asm V (.t 0)) u' β'
    (by
      intro h
      obtain ⟨n, t, h1, h2⟩ := hvar hu' h
      simp only [convVar, TSym.mk.injEq] at h2
      exact hp.utility (by rw [h2.1, h2.2.1]; exact h1))
    (by
      intro h
      obtain ⟨n, t, h1, h2⟩ := hvar hβ' h
      rw [hp.discount] at h1; cases h1)
  rw [hobje] at hdf
  rw [hdf'] at hdf
  cases hdf
  have hβt : β'.tsyms = [] := by
    rw [List.eq_nil_iff_forall_not_mem]
    intro x hx
    obtain ⟨n, t, h1, h2⟩ := hvar hβ' ((mem_tsyms).1 hx)
    rw [hp.discount] at h1; cases h1
  have hdft := hdt hβt
  -- the Lagrangian, term by term
  have hmul : ∀ j w, (b.toBlk.constraints.map (extractMultiplier asm))[j]? = some w → dget B.multipliers (1 + j) = some w := by
    intro j w hj
    rw [hmu]
    have := dget_numbered (b.toBlk.equations.map (extractMultiplier asm) ++ (keptCalib b.toBlk.calibration).map (calibMultiplier asm)) 0 (1 + j)
    rw [Nat.zero_add] at this
    rw [this]
    rw [List.getElem?_map, Option.map_eq_some_iff] at hj
    obtain ⟨e, he, rfl⟩ := hj
    have := hconi j e he
    rw [List.getElem?_append_left (by simpa using (List.getElem?_eq_some_iff.1 this).1), List.getElem?_map, this]; rfl
  have hflag := flag_at e1 0 o (by rw [heqs]; rfl)
  have hlen : (b.toBlk.constraints.map (extractMultiplier asm)).length = cs.length := by rw [List.length_map]; exact hcs.length_eq
  have hcons : B.constraints = some (numbered 1 cs) := by
    rw [ec]
    unfold component
    split
    · rename_i hcs0
      exfalso
      unfold Block.lagrangian at hL
      have : B.constraints = none := by rw [ec, hcs0]; rfl
      simp only [hB_obj, hflag, hBd, dvals, Option.getD_none, List.map_nil, lagrangianSubs, this] at hL
      cases hL
    · rfl
  obtain ⟨short, hshort, hLe⟩ : ∃ short, shortName B.name = some short ∧
      L = Lag.lagTerms [] (if (extractFlags o).minimize then obj.rhs.neg else obj.rhs)
        (cs.zip (assigned short (b.toBlk.constraints.map (extractMultiplier asm)) 1)) := by
    have hL' := hL
    unfold Block.lagrangian at hL'
    simp only [hB_obj, hflag, hBd, dvals, Option.getD_none, List.map_nil, lagrangianSubs, hcons] at hL'
    split at hL'
    · cases hL'
    · rename_i short hshort
      rw [Lag.loop_spec short [] cs _ hlen 1 1 (le_refl _) B.multipliers hmul] at hL'
      cases hL'
      exact ⟨short, hshort, rfl⟩
  set M := assigned short (b.toBlk.constraints.map (extractMultiplier asm)) 1 with hM
  have hMnow : ∀ x ∈ M, x.idx = .t 0 := assigned_now _ _ _
  have hcs2 : List.Forall₂ (fun e s => toSympy asm e.lhs = .ok s.lhs ∧ toSympy asm e.rhs = .ok s.rhs) b.constraints cs :=
    List.forall₂_iff_get.2 ⟨hcs.length_eq, fun i h1 h2 =>
      eqn_conv ((List.forall₂_iff_get.1 hcs).2 i h1 h2) (pc _ (List.get_mem _ _))⟩
  have hval : ∀ (R : RealPath) t, L.val R t = lagrangianAt asm b o (named M) R t := by
    intro R t
    rw [hLe, Lag.lagTerms_val _ _ _ _ _ (by simp), zip_sum hcs2 R t M hMnow]
    unfold lagrangianAt
    congr 1
    have e1 := C51_same_value asm o.rhs obj.rhs (eqn_conv hoc po).2 R t
    have htag := (C20_flags asm o).2.1
    by_cases hmin : Tag.minimize ∈ o.tags
    · rw [if_pos (htag.2 hmin), if_pos hmin, DTT.val_neg, e1]; rfl
    · rw [if_neg (fun h => hmin (htag.1 h)), if_neg hmin, e1]; rfl
  -- dates in the Lagrangian
  have hdates : ∀ s ∈ L.tsyms, ∃ k, s.idx = .t k ∧ -1 ≤ k ∧ k ≤ 1 := by
    intro s hs
    have hs := (mem_tsyms).1 hs
    rw [hLe] at hs
    have near : ∀ {e : Eqn} {ex : Expr} {sx : SExpr}, e ∈ b.objective ++ b.constraints → (∀ o ∈ ex.vars, o ∈ e.vars) → toSympy asm ex = .ok sx →
        Sym.tv s ∈ sx.syms → ∃ k, s.idx = .t k ∧ -1 ≤ k ∧ k ≤ 1 := by
      intro e ex sx he hsub hconv hx
      obtain ⟨n, t, h1, h2⟩ := hvar hconv hx
      obtain ⟨k, rfl, h3, h4⟩ := hp.near e he n t (hsub _ h1)
      exact ⟨k, by rw [h2]; rfl, h3, h4⟩
    rcases lagTerms_syms _ _ hs with h | ⟨q, hq, h⟩
    · have h' : Sym.tv s ∈ obj.rhs.syms := by
        split at h
        · simpa [SExpr.neg, SExpr.syms] using h
        · exact h
      exact near (e := o) (List.mem_append_left _ (by rw [hp.objective]; simp)) (fun o ho => by simp [Eqn.vars, ho]) (eqn_conv hoc po).2 h'
    · rcases h with h | h
      · exact ⟨0, by cases h; exact hMnow _ (List.of_mem_zip hq).2, by decide, by decide⟩
      · obtain ⟨j, hj⟩ := List.mem_iff_getElem?.1 (List.of_mem_zip hq).1
        obtain ⟨e, he, hl, hr⟩ := forall2_getElem hcs2 j _ hj
        have hmem : e ∈ b.objective ++ b.constraints := List.mem_append_right _ (List.mem_of_getElem? he)
        rcases h with h | h
        · exact near hmem (fun o ho => by simp [Eqn.vars, ho]) hl h
        · exact near hmem (fun o ho => by simp [Eqn.vars, ho]) hr h
  refine ⟨named M, by rw [named, List.length_map, hM, Lag.assigned_length, List.length_map]; rfl, ?_, ?_⟩
  · intro j e n he hlag hne
    have : (b.toBlk.constraints.map (extractMultiplier asm))[j]? = some (some (convVar asm n (.t 0))) := by
      rw [List.getElem?_map, show b.toBlk.constraints[j]? = some e from he]
      have := ((C20_flags asm e).2.2.2.2 (convVar asm n (.t 0))).2 ⟨n, hlag, hne, rfl⟩
      simp [this]
    have := (C22_user_multiplier short _ 1).2 j _ this
    rw [named, List.getElem?_map, this]; rfl
  have hcl' : cl = b.controls.map fun v => convVar asm v.name (.t 0) := by
    rw [hctl] at hcl
    unfold convertVars at hcl
    split at hcl
    · cases hcl
    · cases hcl
      refine List.map_congr_left fun v hv => ?_
      rw [hp.controls v hv]
  refine ⟨plain, focs, by rw [e9, hreq], ?_, ?_⟩
  · intro R t
    have hv := hplain R (by rw [hBd]; intro e he; simp [dvals] at he) t
    rw [show b.stated = stated b.toBlk from rfl, ← (stated_conv e1 e2 R t).1, ← gaps_zero, hB_obj]
    have hg : gaps R t (dvals B.identities ++ B.keptConstraints ++ dvals (some [(0, obj)])) = plain.map (·.val R t) := by
      rw [hv]; simp [gaps, dvals]
    rw [hg]; simp
  rw [hcl', List.forall₂_map_left_iff] at hfoc
  refine hfoc.imp ?_
  intro v r hr R t hsm a d
  have hsmooth : ∀ k : Nat, L.Smooth R (t + k) := by
    intro k
    have := hsm k
    rw [hLe]
    apply lagTerms_smooth
    · have ho := conv_smooth asm R (t + k) o.rhs obj.rhs (eqn_conv hoc po).2
        (this o (List.mem_append_left _ (by rw [hp.objective]; simp))).2
      split
      · exact ⟨trivial, ho⟩
      · exact ho
    · intro q hq
      obtain ⟨j, hj⟩ := List.mem_iff_getElem?.1 (List.of_mem_zip hq).1
      obtain ⟨e, he, hl, hr⟩ := forall2_getElem hcs2 j _ hj
      have hq := this e (List.mem_append_right _ (List.mem_of_getElem? he))
      exact ⟨conv_smooth asm R _ _ _ hl hq.1, conv_smooth asm R _ _ _ hr hq.2⟩
  have hdval : df.val R t = d := by
    rw [hdv R t]; exact C51_same_value asm β β' hβ' R t
  have hdsm : df.Smooth R t := by
    refine hds R t (conv_smooth asm R t β β' hβ' ?_)
    have := (hsm 0 o (List.mem_append_left _ (by rw [hp.objective]; simp))).2
    rw [hp.rhs] at this
    simp only [SmoothOn] at this
    simpa using this.2.1
  obtain ⟨r1, hr1, hfin⟩ := C14_finite_horizon L df (convVar asm v.name (.t 0)) 0 rfl
    (fun s hs => by obtain ⟨k, h, _⟩ := hdates s hs; rw [h]; simp) hdft
  obtain ⟨r2, hr2, hinf⟩ := C14_infinite_horizon L df (convVar asm v.name (.t 0)) 0 rfl
    (fun s hs => by obtain ⟨k, h, _⟩ := hdates s hs; rw [h]; simp) hdft
  rw [hr] at hr1 hr2
  cases hr1
  cases hr2
  constructor
  · intro N hN
    have := hfin R t hdsm hsmooth N (fun s hs j _ hj => by
      obtain ⟨k, h, h3, _⟩ := hdates s hs
      rw [h] at hj; cases hj; omega)
    rw [hdval, Int.add_zero] at this
    simp only [discounted, hval] at this
    exact this
  · intro hsum
    have := hinf R t hdsm hsmooth (by rw [hdval]; simpa only [hval] using hsum)
    rw [hdval, Int.add_zero] at this
    simp only [discountedInf, hval] at this
    exact this

end Sta
open Sta Gcn Pip Ldr

/-- **C112**: at a solution of the loaded model, no control of a problem written in the file can improve its Lagrangian to first order: the
discounted sum of the Lagrangian over any horizon of at least two periods, and over the infinite horizon where it converges, has derivative
zero in each control at each date. Each constraint has one multiplier, the named one where the file names one -/
theorem C112_stationary (text : List Char) (ts : List Tok) (m : GFile) (P : Primitives) (hs : SpellsToks text ts) (hf : IsFile ts m)
    (hl : LoadGcn text P) (hn : m.DistinctNames) (b : GBlock) (hb : m.IsModelBlock b) (o : Eqn) (V : Str) (u β : Expr) (hp : b.Bellman o V u β) :
    ∃ ms : List (Str × Asm), ms.length = b.constraints.length ∧
      (∀ (j : Nat) (e : Eqn) (n : Str), b.constraints[j]? = some e → e.lagrange = some n → n ≠ [] → ms[j]? = some (n, mergeAssumptions (dget m.assumptions n))) ∧
      ∀ R : RealPath, (∀ q ∈ P.equations, ∀ t, q.val R t = 0) → ∀ v ∈ b.controls, ∀ t : Int,
        (∀ k : Nat, b.SmoothProblem m.assumptions R (t + k)) →
        let a := mergeAssumptions (dget m.assumptions v.name)
        let d := β.eval (realInterp m.assumptions R) (pathOf m.assumptions R) t
        (∀ N : Nat, 2 ≤ N → HasDerivAt (fun y => ∑ k ∈ Finset.range N, d ^ k * lagrangianAt m.assumptions b o ms (R.bump v.name a t y) (t + k))
          0 (R.path v.name a t)) ∧
        (Summable (fun k : ℕ => d ^ k * lagrangianAt m.assumptions b o ms R (t + k)) →
          HasDerivAt (fun y => ∑' k : ℕ, d ^ k * lagrangianAt m.assumptions b o ms (R.bump v.name a t y) (t + k)) 0 (R.path v.name a t)) := by
  obtain ⟨ss, h1, h2⟩ := loaded_blocks hs hf hl hn
  obtain ⟨p, hpm, hc⟩ := (forall2_mem h2).1 b ((modelBlock_iff m b).1 hb)
  obtain ⟨ms, h3, h4, plain, focs, h5, _, h6⟩ := bellman_block hc hp
  refine ⟨ms, h3, h4, fun R hR v hv t hsm => ?_⟩
  obtain ⟨r, hr, hd⟩ := (forall2_mem h6).1 v hv
  have hz : r.val R t = 0 := hR r (by rw [h1, List.mem_flatMap]; exact ⟨p, hpm, by rw [h5]; exact List.mem_append_right _ hr⟩) t
  have := hd R t hsm
  rw [hz] at this
  exact this

/-- **C112**: for a file whose blocks are plain or state a Bellman problem, the solutions of the loaded model are exactly the paths on which
the written equations hold and the problems are stationary -/
theorem C112_solutions (text : List Char) (ts : List Tok) (m : GFile) (P : Primitives) (hs : SpellsToks text ts) (hf : IsFile ts m)
    (hl : LoadGcn text P) (hn : m.DistinctNames) (hblk : ∀ b, m.IsModelBlock b → b.Plain ∨ ∃ o V u β, b.Bellman o V u β) :
    ∃ ms : GBlock → List (Str × Asm),
      (∀ b, m.IsModelBlock b → ∀ o V u β, b.Bellman o V u β → (ms b).length = b.constraints.length ∧
        ∀ (j : Nat) (e : Eqn) (n : Str), b.constraints[j]? = some e → e.lagrange = some n → n ≠ [] →
          (ms b)[j]? = some (n, mergeAssumptions (dget m.assumptions n))) ∧
      ∀ R : RealPath, m.DefinitionsHold R →
        (∀ b, m.IsModelBlock b → ∀ o V u β, b.Bellman o V u β → ∀ t, b.SmoothProblem m.assumptions R t) →
        ((∀ q ∈ P.equations, ∀ t, q.val R t = 0) ↔
          m.EquationsHold R ∧ ∀ b, m.IsModelBlock b → ∀ o V u β, b.Bellman o V u β → b.Stationary m.assumptions o β (ms b) R) := by
  classical
  obtain ⟨ss, h1, h2⟩ := loaded_blocks hs hf hl hn
  have uniq : ∀ {b : GBlock} {o V u β o' V' u' β'}, b.Bellman o V u β → b.Bellman o' V' u' β' → o = o' ∧ β = β' := by
    intro b o V u β o' V' u' β' h h'
    have := h.objective.symm.trans h'.objective
    cases this
    have := h.rhs.symm.trans h'.rhs
    cases this
    exact ⟨rfl, rfl⟩
  have key : ∀ b, m.IsModelBlock b → ∃ ms : List (Str × Asm), ∀ o V u β, b.Bellman o V u β → ms.length = b.constraints.length ∧
      (∀ (j : Nat) (e : Eqn) (n : Str), b.constraints[j]? = some e → e.lagrange = some n → n ≠ [] →
        ms[j]? = some (n, mergeAssumptions (dget m.assumptions n))) ∧
      ∀ p, constructBlock m.assumptions ss b.toBlk = .ok p → ∀ R : RealPath, (∀ t, b.SmoothProblem m.assumptions R t) →
        ((∀ q ∈ p.equations, ∀ t, q.val R t = 0) ↔
          (∀ e ∈ b.stated, e.holdsOn m.assumptions R) ∧ b.Stationary m.assumptions o β ms R) := by
    intro b hb
    by_cases hB : ∃ o V u β, b.Bellman o V u β
    · obtain ⟨o, V, u, β, hB⟩ := hB
      obtain ⟨p, hpm, hc⟩ := (forall2_mem h2).1 b ((modelBlock_iff m b).1 hb)
      obtain ⟨ms, h3, h4, plain, focs, h5, h6, h7⟩ := bellman_block hc hB
      refine ⟨ms, fun o' V' u' β' hB' => ?_⟩
      obtain ⟨rfl, rfl⟩ := uniq hB hB'
      refine ⟨h3, h4, fun p' hc' R hsm => ?_⟩
      rw [hc] at hc'
      cases hc'
      rw [h5]
      constructor
      · intro h
        refine ⟨fun e he t => (h6 R t).1 (fun q hq => h q (List.mem_append_left _ hq) t) e he, fun v hv t N hN => ?_⟩
        obtain ⟨r, hr, hd⟩ := (forall2_mem h7).1 v hv
        have := (hd R t fun k => hsm _).1 N hN
        rw [h r (List.mem_append_right _ hr) t] at this
        exact this
      · rintro ⟨hst, hsta⟩ q hq t
        rcases List.mem_append.1 hq with hq | hq
        · exact (h6 R t).2 (fun e he => hst e he t) q hq
        · obtain ⟨v, hv, hd⟩ := (forall2_mem h7).2 q hq
          exact ((hd R t fun k => hsm _).1 2 (le_refl _)).unique (hsta v hv t 2 (le_refl _))
    · exact ⟨[], fun o V u β h => absurd ⟨o, V, u, β, h⟩ hB⟩
  refine ⟨fun b => if h : m.IsModelBlock b then (key b h).choose else [], ?_, ?_⟩
  · intro b hb o V u β hB
    obtain ⟨h3, h4, _⟩ := (key b hb).choose_spec o V u β hB
    dsimp only
    rw [dif_pos hb]
    exact ⟨h3, h4⟩
  intro R hd hsm
  have plain : ∀ b, m.IsModelBlock b → b.Plain → ∀ p : Str × Built, constructBlock m.assumptions ss b.toBlk = .ok p.2 →
      ((∀ q ∈ p.2.equations, ∀ t, q.val R t = 0) ↔ ∀ e ∈ b.stated, e.holdsOn m.assumptions R) := by
    intro b hb hpl p hc
    obtain ⟨pl, focs, h3, h4, h5⟩ := built_equations hc
    rw [h3, h4 hpl.1, List.append_nil]
    have hexp : expandBlock b.toBlk = b.toBlk :=
      C09_shallow_unchanged b.toBlk (by
        rintro e he ⟨n, i⟩ ho
        cases i with
        | ss => trivial
        | t k => exact hpl.2 e he n k ho) (fun v hv => by rw [show b.toBlk.controls = [] from hpl.1] at hv; cases hv)
    rw [hexp] at h5
    have h5 := h5 R fun t e he => hd b hb e he t
    exact ⟨fun h e he t => (h5 t).1 (fun q hq => h q hq t) e he, fun h q hq t => (h5 t).2 (fun e he => h e he t) q hq⟩
  -- the built block of a written one
  have built : ∀ b, m.IsModelBlock b → ∀ p ∈ P.blocks, constructBlock m.assumptions ss b.toBlk = .ok p.2 →
      ((∀ q ∈ p.2.equations, ∀ t, q.val R t = 0) ↔
        (∀ e ∈ b.stated, e.holdsOn m.assumptions R) ∧
          ∀ o V u β, b.Bellman o V u β → b.Stationary m.assumptions o β (if h : m.IsModelBlock b then (key b h).choose else []) R) := by
    intro b hb p _ hc
    by_cases hB : ∃ o V u β, b.Bellman o V u β
    · obtain ⟨o, V, u, β, hB⟩ := hB
      obtain ⟨_, _, h3⟩ := (key b hb).choose_spec o V u β hB
      have h3 := h3 p.2 hc R (hsm b hb o V u β hB)
      rw [dif_pos hb]
      rw [h3]
      refine and_congr_right fun _ => ⟨fun h o' V' u' β' hB' => ?_, fun h => h o V u β hB⟩
      obtain ⟨rfl, rfl⟩ := uniq hB hB'
      exact h
    · rw [plain b hb ((hblk b hb).resolve_right hB) p hc]
      exact ⟨fun h => ⟨h, fun o V u β h => absurd ⟨o, V, u, β, h⟩ hB⟩, fun h => h.1⟩
  constructor
  · intro h
    have hall : ∀ b, m.IsModelBlock b → (∀ e ∈ b.stated, e.holdsOn m.assumptions R) ∧
        ∀ o V u β, b.Bellman o V u β → b.Stationary m.assumptions o β (if h : m.IsModelBlock b then (key b h).choose else []) R := by
      intro b hb
      obtain ⟨p, hpm, hc⟩ := (forall2_mem h2).1 b ((modelBlock_iff m b).1 hb)
      exact (built b hb p hpm hc).1 fun q hq => h q (by rw [h1, List.mem_flatMap]; exact ⟨p, hpm, hq⟩)
    exact ⟨fun b hb => (hall b hb).1, fun b hb => (hall b hb).2⟩
  · rintro ⟨he, hst⟩ q hq
    rw [h1, List.mem_flatMap] at hq
    obtain ⟨p, hpm, hq⟩ := hq
    obtain ⟨b, hb, hc⟩ := (forall2_mem h2).2 p hpm
    have hb := (modelBlock_iff m b).2 hb
    exact (built b hb p hpm hc).2 ⟨he b hb, hst b hb⟩ q hq

namespace Sta

/-- a household that chooses consumption and capital -/
def hhText : List Char :=
  "block H { controls { C[], K[]; }; objective { U[] = log(C[]) + beta * E[][U[1]]; }; constraints { C[] + K[] = 2 * K[-1] : q[]; }; };".toList
/-- its tokens -/
def hhToks : List Tok := [.id "block".toList, .id "H".toList, .lbrace, .id "controls".toList, .lbrace, .id "C".toList, .tix (.t 0), .comma,
  .id "K".toList, .tix (.t 0), .semi, .rbrace, .semi, .id "objective".toList, .lbrace, .id "U".toList, .tix (.t 0), .eq, .id "log".toList,
  .lpar, .id "C".toList, .tix (.t 0), .rpar, .op .add, .id "beta".toList, .op .mul, .expectOpen, .id "U".toList,
  .tix (.t 1), .rbr, .semi, .rbrace, .semi, .id "constraints".toList, .lbrace, .id "C".toList, .tix (.t 0), .op .add, .id "K".toList,
  .tix (.t 0), .eq, .num 2, .op .mul, .id "K".toList, .tix (.t (-1)), .colon, .id "q".toList, .tix (.t 0), .semi, .rbrace, .semi, .rbrace, .semi]
/-- its objective -/
def hhObj : Eqn where
  lhs := .var "U".toList (.t 0)
  rhs := .bin .add (.call "log".toList [.var "C".toList (.t 0)]) (.bin .mul (.par "beta".toList) (.expect (.var "U".toList (.t 1))))
  lagrange := none
  calibrating := none
  tags := []
/-- its constraint -/
def hhCon : Eqn where
  lhs := .bin .add (.var "C".toList (.t 0)) (.var "K".toList (.t 0))
  rhs := .bin .mul (.num 2) (.var "K".toList (.t (-1)))
  lagrange := some "q".toList
  calibrating := none
  tags := []
/-- its block -/
def hhBlock : GBlock where
  name := "H".toList
  controls := [⟨"C".toList, .t 0⟩, ⟨"K".toList, .t 0⟩]
  objective := [hhObj]
  constraints := [hhCon]
/-- the file it stands for -/
def hhFile : GFile := { blocks := [hhBlock] }

theorem hhToks_eq : lexText hhText = some hhToks := by decide +kernel
theorem hh_file : IsFile hhToks hhFile := (C107_grammar _ _).1 ⟨40, rfl⟩
theorem hh_spells : SpellsToks hhText hhToks := (C106_reading _ _).1 hhToks_eq

/-- consumption, capital and the multiplier are 1, utility 0; discounting by one half -/
noncomputable def hhPath : RealPath where
  par _ := 1 / 2
  path n _ _ := if n = "U".toList then 0 else 1
  ss _ _ := 0

/-- exact values on that path, where they are rational for an obvious reason -/
def ratAt : SExpr → Option Rat
  | .num q => some q
  | .sym (.par _) => some (1 / 2)
  | .sym (.tv x) => match x.idx with | .t _ => some (if x.base = "U".toList then 0 else 1) | .ss => none
  | .add a b => (ratAt a).bind fun x => (ratAt b).map fun y => x + y
  | .mul a b => (ratAt a).bind fun x => (ratAt b).map fun y => x * y
  | .pow a _ => if ratAt a = some 1 then some 1 else none
  | .exp _ => none
  | .log a => if ratAt a = some 1 then some 0 else none

theorem ratAt_val (t : Int) : ∀ (e : SExpr) (q : Rat), ratAt e = some q → e.val hhPath t = q
  | .num v, q, h => by simp only [ratAt, Option.some.injEq] at h; subst h; rfl
  | .sym (.par n), q, h => by
    simp only [ratAt, Option.some.injEq] at h; subst h
    show (1 / 2 : ℝ) = _
    norm_num
  | .sym (.tv x), q, h => by
    simp only [ratAt] at h
    cases hi : x.idx with
    | ss => rw [hi] at h; cases h
    | t k =>
      rw [hi] at h
      simp only [Option.some.injEq] at h; subst h
      show hhPath.val.symAt t (.tv x) = _
      simp only [Valuation.symAt, hi, RealPath.val, hhPath]
      split <;> simp
  | .add a b, q, h => by
    simp only [ratAt, Option.bind_eq_some_iff, Option.map_eq_some_iff] at h
    obtain ⟨x, hx, y, hy, rfl⟩ := h
    show a.val hhPath t + b.val hhPath t = _
    rw [ratAt_val t a x hx, ratAt_val t b y hy]; push_cast; rfl
  | .mul a b, q, h => by
    simp only [ratAt, Option.bind_eq_some_iff, Option.map_eq_some_iff] at h
    obtain ⟨x, hx, y, hy, rfl⟩ := h
    show a.val hhPath t * b.val hhPath t = _
    rw [ratAt_val t a x hx, ratAt_val t b y hy]; push_cast; rfl
  | .pow a b, q, h => by
    simp only [ratAt] at h
    split at h
    · rename_i h1
      cases h
      show (a.val hhPath t) ^ (b.val hhPath t) = _
      rw [ratAt_val t a 1 h1]; simp
    · cases h
  | .exp a, q, h => by simp only [ratAt] at h; cases h
  | .log a, q, h => by
    simp only [ratAt] at h
    split at h
    · rename_i h1
      cases h
      show Real.log (a.val hhPath t) = _
      rw [ratAt_val t a 1 h1]; simp
    · cases h

theorem hh_load : ∃ P, LoadGcn hhText P ∧ (P.equations.length = 4 ∧ (P.equations.all fun q => ratAt q = some 0) = true) := by
  obtain ⟨P, h1, h2⟩ := Ldr.loaded hhFile.toMdl (fun P => (P.equations.length, P.equations.all fun q => ratAt q = some 0)) (4, true) (by decide +kernel)
  exact ⟨P, ⟨hhFile, (C107_parse _ _).2 ⟨_, hh_spells, hh_file⟩, h1⟩, congrArg Prod.fst h2, congrArg Prod.snd h2⟩

theorem hh_model : hhFile.IsModelBlock hhBlock := by
  have h : ¬ (isSkippedName hhBlock.name = true) := by decide
  rw [C53_skipped_names, not_or] at h
  exact ⟨by simp [hhFile], h⟩

theorem ex_bellman : hhBlock.Bellman hhObj "U".toList (.call "log".toList [.var "C".toList (.t 0)]) (.par "beta".toList) where
  definitions := rfl
  objective := rfl
  lhs := rfl
  rhs := rfl
  utility := by decide
  discount := rfl
  near := by
    intro e he n i h
    simp only [hhBlock, List.cons_append, List.nil_append, List.mem_cons, List.not_mem_nil, or_false] at he
    rcases he with rfl | rfl
    · simp only [Eqn.vars, hhObj, Expr.vars, Expr.varsArgs, List.append_nil, List.nil_append, List.mem_append, List.mem_singleton, Prod.mk.injEq] at h
      rcases h with ⟨_, rfl⟩ | ⟨_, rfl⟩ | ⟨_, rfl⟩ <;> exact ⟨_, rfl, by decide, by decide⟩
    · simp only [Eqn.vars, hhCon, Expr.vars, List.append_nil, List.nil_append, List.mem_append, List.mem_singleton, Prod.mk.injEq] at h
      rcases h with (⟨_, rfl⟩ | ⟨_, rfl⟩) | ⟨_, rfl⟩ <;> exact ⟨_, rfl, by decide, by decide⟩
  identities := by intro e he; cases he
  controls := by
    intro v hv
    simp only [hhBlock, List.mem_cons, List.not_mem_nil, or_false] at hv
    rcases hv with rfl | rfl <;> rfl

theorem ex_smooth (t : Int) : hhBlock.SmoothProblem hhFile.assumptions hhPath t := by
  intro e he
  simp only [hhBlock, List.cons_append, List.nil_append, List.mem_cons, List.not_mem_nil, or_false] at he
  rcases he with rfl | rfl
  · simp [hhObj, SmoothOn, SmoothArgs, Expr.evalArgs, Expr.eval, pathOf, hhPath]
  · simp [hhCon, SmoothOn]

end Sta

/-- the hypotheses are met: the file loads as four equations (constraint, objective, two first-order conditions) that hold on a path, and
capital cannot improve the discounted Lagrangian -/
example : ∃ P, LoadGcn hhText P ∧ P.equations.length = 4 ∧ (∀ q ∈ P.equations, ∀ t, q.val hhPath t = 0) ∧
    ∃ ms : List (Str × Asm), ms.map Prod.fst = ["q".toList] ∧
      HasDerivAt (fun y => ∑ k ∈ Finset.range 2, (1 / 2 : ℝ) ^ k *
        lagrangianAt [] hhBlock hhObj ms (hhPath.bump "K".toList (mergeAssumptions none) 0 y) (0 + k)) 0 1 := by
  obtain ⟨P, h1, h2, h3⟩ := hh_load
  have hn : hhFile.DistinctNames := by simp [GFile.DistinctNames, hhFile]
  have hz : ∀ q ∈ P.equations, ∀ t, q.val hhPath t = 0 := by
    intro q hq t
    have := of_decide_eq_true (List.all_eq_true.1 h3 q hq)
    rw [ratAt_val t q 0 this]; simp
  obtain ⟨ms, hlen, hname, hfoc⟩ := C112_stationary hhText hhToks hhFile P hh_spells hh_file h1 hn hhBlock hh_model hhObj _ _ _ ex_bellman
  refine ⟨P, h1, h2, hz, ms, ?_, ?_⟩
  · have h0 := hname 0 hhCon "q".toList rfl rfl (by decide)
    cases ms with
    | nil => cases h0
    | cons a l =>
      cases l with
      | nil => simp only [List.getElem?_cons_zero, Option.some.injEq] at h0; subst h0; rfl
      | cons _ _ => simp [hhBlock] at hlen
  · have := (hfoc hhPath hz ⟨"K".toList, .t 0⟩ (by simp [hhBlock]) 0 (fun k => ex_smooth _)).1 2 (le_refl _)
    exact this

/-- the hypotheses of `C112_solutions` are met by the same file: the path is stationary for both controls -/
example : ∃ ms : List (Str × Asm), hhBlock.Stationary hhFile.assumptions hhObj (.par "beta".toList) ms hhPath := by
  obtain ⟨P, h1, _, h3⟩ := hh_load
  have hn : hhFile.DistinctNames := by simp [GFile.DistinctNames, hhFile]
  have hz : ∀ q ∈ P.equations, ∀ t, q.val hhPath t = 0 := by
    intro q hq t
    have := of_decide_eq_true (List.all_eq_true.1 h3 q hq)
    rw [ratAt_val t q 0 this]; simp
  have hb : ∀ b, hhFile.IsModelBlock b → b = hhBlock := fun b h => by simpa [hhFile] using h.1
  obtain ⟨ms, _, h⟩ := C112_solutions hhText hhToks hhFile P hh_spells hh_file h1 hn
    (fun b h => by cases hb b h; exact .inr ⟨_, _, _, _, ex_bellman⟩)
  exact ⟨_, ((h hhPath (fun b h e he => by cases hb b h; cases he) (fun b h _ _ _ _ _ t => by cases hb b h; exact ex_smooth t)).1 hz).2
    hhBlock hh_model _ _ _ _ ex_bellman⟩

end GE
