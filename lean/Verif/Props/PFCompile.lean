import Verif.Model.PFCompile
import Verif.Props.PerfectForesight
import Verif.Props.Timing
import Verif.Props.ObsEq
import Verif.Props.ClosedForm
import Verif.Props.Closure2
/-! # C121: the compiled single-period function is the model's equations, its Jacobian their derivatives -/

namespace GE

/-- the values `σ` of the model's symbols are those the period arguments state: names in column order -/
structure PeriodArgs.Says (a : PeriodArgs ℝ) (names shockNames paramNames : List Str) (σ : Sym → ℝ) : Prop where
  lag : ∀ (i : Nat) n asm, names[i]? = some n → σ (.tv ⟨n, .t (-1), asm⟩) = a.yPrev i
  now : ∀ (i : Nat) n asm, names[i]? = some n → σ (.tv ⟨n, .t 0, asm⟩) = a.yNow i
  lead : ∀ (i : Nat) n asm, names[i]? = some n → σ (.tv ⟨n, .t 1, asm⟩) = a.yNext i
  shock : ∀ (i : Nat) n asm, shockNames[i]? = some n → σ (.tv ⟨n, .t 0, asm⟩) = a.x i
  param : ∀ (i : Nat) n, paramNames[i]? = some n → σ (.par n) = a.params i

/-- the steady-state symbols have the values the steady-state dictionary states -/
def MeetsSS (d : List (Sym × SExpr)) (σ : Sym → ℝ) : Prop :=
  ∀ p ∈ d, ∀ x : TSym, x.idx = .ss → symName (safeToSS p.1) = createName x → σ (.tv x) = p.2.eval σ

/-- the dated symbols of the model, those in the stated steady-state values included -/
def PFModel.atoms (m : PFModel) : List TSym := (m.eqs ++ m.ssDict.map Prod.snd).flatMap SExpr.tsyms

/-- shocks are not dated otherwise than now -/
def PFModel.ShocksNow (m : PFModel) : Prop := ∀ x ∈ m.atoms, x.base ∈ m.shocks.map TSym.base → ∀ k, x.idx = .t k → k = 0

namespace PFC

theorem foldl_inv {α β : Type} (P : β → Prop) (f : β → α → β) (l : List α) (hf : ∀ b, ∀ x ∈ l, P b → P (f b x)) (b : β) (hb : P b) :
    P (l.foldl f b) := by
  induction l generalizing b with
  | nil => exact hb
  | cons x l ih =>
    exact ih (fun b y hy => hf b y (List.mem_cons_of_mem _ hy)) _ (hf b x (List.mem_cons_self ..) hb)

/-! ## steady-state values -/

theorem sub_ok (so : List (Sym × SExpr) → List (Sym × SExpr)) (hso : ∀ l, (so l).Perm l) (eqs eqs' : List SExpr) (d : List (Sym × SExpr))
    (h : substituteSS so eqs d = .ok eqs') :
    ∃ sub : List (Sym × SExpr), eqs' = eqs.map (fun e => e.subsSeq sub) ∧
      (∀ p ∈ sub, ∃ x : TSym, p.1 = .tv x ∧ x.idx = .ss ∧ ∃ q ∈ d, symName (safeToSS q.1) = createName x ∧ p.2 = q.2) ∧
      (∀ e ∈ eqs, ∀ x ∈ e.tsyms, x.idx = .ss → Sym.tv x ∈ dkeys sub) ∧ (dkeys sub).Nodup := by
  unfold substituteSS at h
  dsimp only at h
  split at h
  · rename_i hn
    cases h
    refine ⟨[], by simp [SExpr.subsSeq], by simp, ?_, by simp [dkeys]⟩
    intro e he x hx hi
    have : x ∈ ((eqs.flatMap SExpr.tsyms).filter fun a => decide (a.idx = .ss)).eraseDups := by
      rw [List.mem_eraseDups]
      exact List.mem_filter.2 ⟨List.mem_flatMap.2 ⟨e, he, hx⟩, by simpa using hi⟩
    rw [hn] at this
    cases this
  · split at h
    · cases h
    · rename_i hr
      cases h
      refine ⟨_, rfl, ?_, ?_, ?_⟩
      · intro p hp
        have hp := (hso _).mem_iff.1 hp
        obtain ⟨a, ha, hp⟩ := List.mem_filterMap.1 hp
        rw [List.mem_eraseDups, List.mem_filter] at ha
        rw [Option.map_eq_some_iff] at hp
        obtain ⟨q, hq, rfl⟩ := hp
        exact ⟨a, rfl, by simpa using ha.2, q, List.mem_of_find?_eq_some hq, by simpa using List.find?_some hq, rfl⟩
      · intro e he x hx hi
        have hx' : x ∈ ((eqs.flatMap SExpr.tsyms).filter fun a => decide (a.idx = .ss)).eraseDups := by
          rw [List.mem_eraseDups]
          exact List.mem_filter.2 ⟨List.mem_flatMap.2 ⟨e, he, hx⟩, by simpa using hi⟩
        have hr := of_not_not hr
        rw [List.filter_eq_nil_iff] at hr
        have hk := hr x hx'
        simp only [decide_not, Bool.not_eq_true', decide_eq_false_iff_not, not_not] at hk
        exact ((hso _).map Prod.fst).mem_iff.2 hk
      · refine (((hso _).map Prod.fst).nodup_iff).2 ?_
        have : ∀ l : List TSym, l.Nodup → ((l.filterMap fun a => (d.find? fun p => decide (symName (safeToSS p.1) = createName a)).map
            fun p => (Sym.tv a, p.2)).map Prod.fst).Nodup := by
          intro l
          induction l with
          | nil => simp
          | cons a l ih =>
            intro hl
            rw [List.nodup_cons] at hl
            cases hf : (d.find? fun p => decide (symName (safeToSS p.1) = createName a)) with
            | none => simpa [List.filterMap_cons, hf] using ih hl.2
            | some q =>
              simp only [List.filterMap_cons, hf, Option.map_some, List.map_cons, List.nodup_cons]
              refine ⟨?_, ih hl.2⟩
              intro hm
              obtain ⟨p, hp, he⟩ := List.mem_map.1 hm
              obtain ⟨b, hb, hp⟩ := List.mem_filterMap.1 hp
              rw [Option.map_eq_some_iff] at hp
              obtain ⟨q', _, rfl⟩ := hp
              have : b = a := by simpa using he
              exact hl.1 (this ▸ hb)
        exact this _ (OEq.nodup_eraseDups _)

theorem eval_subsSeq (σ : Sym → ℝ) : ∀ (sub : List (Sym × SExpr)) (e : SExpr), (∀ p ∈ sub, σ p.1 = p.2.eval σ) →
    (e.subsSeq sub).eval σ = e.eval σ
  | [], _, _ => rfl
  | p :: sub, e, h => by
    show ((e.subs1 p.1 p.2).subsSeq sub).eval σ = _
    rw [eval_subsSeq σ sub _ (fun q hq => h q (List.mem_cons_of_mem _ hq))]
    unfold SExpr.subs1
    refine Drv.eval_replace _ σ σ (fun s => ?_) e
    split
    · rename_i hs; rw [hs, h p (List.mem_cons_self ..)]
    · rfl

theorem smooth_subsSeq (σ : Sym → ℝ) : ∀ (sub : List (Sym × SExpr)) (e : SExpr), (∀ p ∈ sub, σ p.1 = p.2.eval σ) →
    (∀ p ∈ sub, p.2.SmoothAt σ) → e.SmoothAt σ → (e.subsSeq sub).SmoothAt σ
  | [], _, _, _, hs => hs
  | p :: sub, e, h, hp, hs => by
    show ((e.subs1 p.1 p.2).subsSeq sub).SmoothAt σ
    refine smooth_subsSeq σ sub _ (fun q hq => h q (List.mem_cons_of_mem _ hq)) (fun q hq => hp q (List.mem_cons_of_mem _ hq)) ?_
    unfold SExpr.subs1
    refine OEq.smooth_replace _ σ σ (fun s => ?_) (fun s => ?_) e hs
    · split
      · rename_i hs; rw [hs, h p (List.mem_cons_self ..)]
      · rfl
    · split
      · exact hp p (List.mem_cons_self ..)
      · trivial

theorem syms_subsSeq : ∀ (sub : List (Sym × SExpr)) (e : SExpr) (s : Sym), s ∈ (e.subsSeq sub).syms →
    s ∈ e.syms ∨ ∃ p ∈ sub, s ∈ p.2.syms
  | [], _, _, h => .inl h
  | p :: sub, e, s, h => by
    rcases syms_subsSeq sub (e.subs1 p.1 p.2) s h with h | ⟨q, hq, h⟩
    · unfold SExpr.subs1 at h
      rw [syms_replace] at h
      obtain ⟨q, hq, h⟩ := h
      split at h
      · exact .inr ⟨p, List.mem_cons_self .., h⟩
      · simp only [SExpr.syms, List.mem_singleton] at h
        subst h; exact .inl hq
    · exact .inr ⟨q, List.mem_cons_of_mem _ hq, h⟩

theorem syms_keep : ∀ (sub : List (Sym × SExpr)) (e : SExpr) (s : Sym), s ∈ e.syms → s ∉ dkeys sub → s ∈ (e.subsSeq sub).syms
  | [], _, _, h, _ => h
  | p :: sub, e, s, h, hk => by
    simp only [dkeys, List.map_cons, List.mem_cons, not_or] at hk
    refine syms_keep sub (e.subs1 p.1 p.2) s ?_ hk.2
    unfold SExpr.subs1
    rw [syms_replace]
    exact ⟨s, h, by rw [if_neg hk.1]; simp [SExpr.syms]⟩

/-! ## the table of inputs -/

theorem repl_sound (names : List Str) (lag now lead shocks : List Node) (n : Node) (sl : Slot)
    (h : dget (vectorReplacements names lag now lead shocks) n = some sl) :
    (∃ i < names.length, (lag[i]? = some n ∧ sl = .prev i) ∨ (now[i]? = some n ∧ sl = .now i) ∨ (lead[i]? = some n ∧ sl = .next i)) ∨
    ∃ i, shocks[i]? = some n ∧ sl = .shock i := by
  revert h
  unfold vectorReplacements
  dsimp only
  refine foldl_inv (P := fun d => dget d n = some sl → _) _ _ ?_ _ ?_
  · rintro d ⟨x, i⟩ hx ih h
    rw [dget_dset] at h
    split at h
    · rename_i he
      cases h
      refine .inr ⟨i, ?_, rfl⟩
      rw [← he]
      exact List.mem_zipIdx_iff_getElem?.1 hx
    · exact ih h
  · refine foldl_inv (P := fun d => dget d n = some sl → _) _ _ ?_ _ ?_
    · intro d i hi ih h
      rw [List.mem_range] at hi
      split at h
      · rename_i a b c ha hb hc
        simp only [dget_dset] at h
        split at h
        · rename_i he; cases h; exact .inl ⟨i, hi, .inr (.inr ⟨he ▸ hc, rfl⟩)⟩
        · split at h
          · rename_i he; cases h; exact .inl ⟨i, hi, .inr (.inl ⟨he ▸ hb, rfl⟩)⟩
          · split at h
            · rename_i he; cases h; exact .inl ⟨i, hi, .inl ⟨he ▸ ha, rfl⟩⟩
            · exact ih h
      · exact ih h
    · intro h; cases h

theorem foldl_has {α : Type} (f : List (Node × Slot) → α → List (Node × Slot)) (hf : ∀ d x n, n ∈ dkeys d → n ∈ dkeys (f d x)) (l : List α)
    (d : List (Node × Slot)) (n : Node) : (n ∈ dkeys d → n ∈ dkeys (l.foldl f d)) ∧
      ((∃ x ∈ l, ∀ d, n ∈ dkeys (f d x)) → n ∈ dkeys (l.foldl f d)) := by
  induction l generalizing d with
  | nil => exact ⟨id, fun ⟨_, h, _⟩ => by cases h⟩
  | cons x l ih =>
    refine ⟨fun h => (ih _).1 (hf _ _ _ h), ?_⟩
    rintro ⟨y, hy, h⟩
    rcases List.mem_cons.1 hy with rfl | hy
    · exact (ih _).1 (h _)
    · exact (ih _).2 ⟨y, hy, h⟩

theorem repl_has (names : List Str) (lag now lead shocks : List Node) (h1 : lag.length = names.length) (h2 : now.length = names.length)
    (h3 : lead.length = names.length) (n : Node) (h : n ∈ lag ∨ n ∈ now ∨ n ∈ lead ∨ n ∈ shocks) :
    (dget (vectorReplacements names lag now lead shocks) n).isSome := by
  rw [dget_isSome]
  unfold vectorReplacements
  dsimp only
  have hA := foldl_has (fun d (p : Node × Nat) => dset d p.1 (.shock p.2)) (fun d x m hm => (mem_dkeys_dset ..).2 (.inr hm)) shocks.zipIdx
  by_cases hs : n ∈ shocks
  · refine (hA _ n).2 ?_
    obtain ⟨i, hi⟩ := List.getElem?_of_mem hs
    exact ⟨(n, i), List.mem_zipIdx_iff_getElem?.2 hi, fun d => (mem_dkeys_dset ..).2 (.inl rfl)⟩
  · refine (hA _ n).1 ?_
    have hB := foldl_has (fun d (i : Nat) => match lag[i]?, now[i]?, lead[i]? with
      | some a, some b, some c => dset (dset (dset d a (.prev i)) b (.now i)) c (.next i)
      | _, _, _ => d) (fun d x m hm => by
        split
        · simp only [mem_dkeys_dset]; exact .inr (.inr (.inr hm))
        · exact hm) (List.range names.length) [] n
    refine hB.2 ?_
    have key : ∀ l : List Node, l.length = names.length → n ∈ l → ∃ i < names.length, l[i]? = some n := by
      intro l hl hn
      obtain ⟨i, hi⟩ := List.getElem?_of_mem hn
      refine ⟨i, ?_, hi⟩
      rw [← hl]
      exact (List.getElem?_eq_some_iff.1 hi).1
    have fin : ∀ i < names.length, (lag[i]? = some n ∨ now[i]? = some n ∨ lead[i]? = some n) → ∃ x ∈ List.range names.length, ∀ d : List (Node × Slot),
        n ∈ dkeys (match lag[x]?, now[x]?, lead[x]? with
        | some a, some b, some c => dset (dset (dset d a (.prev x)) b (.now x)) c (.next x)
        | _, _, _ => d) := by
      intro i hi hn
      refine ⟨i, List.mem_range.2 hi, fun d => ?_⟩
      rw [List.getElem?_eq_getElem (h1 ▸ hi), List.getElem?_eq_getElem (h2 ▸ hi), List.getElem?_eq_getElem (h3 ▸ hi)] at hn ⊢
      simp only [Option.some.injEq] at hn
      simp only [mem_dkeys_dset]
      rcases hn with hn | hn | hn <;> simp [hn]
    rcases h with h | h | h | h
    · obtain ⟨i, hi, h⟩ := key _ h1 h; exact fin i hi (.inl h)
    · obtain ⟨i, hi, h⟩ := key _ h2 h; exact fin i hi (.inr (.inl h))
    · obtain ⟨i, hi, h⟩ := key _ h3 h; exact fin i hi (.inr (.inr h))
    · exact absurd h hs

/-- everything known about the shared parts -/
theorem parts_ok (ord so) (m : PFModel) (p : PFParts) (h : pfParts ord so m = .ok p) :
    substituteSS so m.eqs m.ssDict = .ok p.eqs ∧
    classifyTiming (ord (p.eqs.flatMap SExpr.tsyms).eraseDups) (m.shocks.map TSym.base) = .ok p.timing ∧
    p.params = (m.params ++ m.determ).filter fun k => Node.par k ∈ p.eqs.flatMap fun e => e.syms.map Sym.node := by
  unfold pfParts at h
  split at h
  · cases h
  · rename_i eqs he
    split at h
    · cases h
    · rename_i t ht
      cases h
      exact ⟨he, ht, rfl⟩

theorem mem_par (eqs : List SExpr) (k : Str) : (Node.par k ∈ eqs.flatMap fun e => e.syms.map Sym.node) ↔ ∃ e ∈ eqs, Sym.par k ∈ e.syms := by
  simp only [List.mem_flatMap, List.mem_map]
  constructor
  · rintro ⟨e, he, s, hs, h⟩
    cases s with
    | par n => simp only [Sym.node, Node.par.injEq] at h; subst h; exact ⟨e, he, hs⟩
    | tv x => simp [Sym.node] at h
  · rintro ⟨e, he, hs⟩; exact ⟨e, he, _, hs, rfl⟩

theorem tv_node (x y : TSym) (h : (Sym.tv x).node = (Sym.tv y).node) : x.base = y.base ∧ x.idx = y.idx :=
  C01_name_injective _ _ (by simpa [Sym.node] using h)

/-- the meaning of an entry of the table -/
theorem slot_sound (ord so) (m : PFModel) (p : PFParts) (h : pfParts ord so m = .ok p) (s : Sym) (sl : Slot) (hs : p.slot s.node = some sl) :
    (∃ x i, s = .tv x ∧ ((sl = .prev i ∧ x.idx = .t (-1) ∧ (p.timing.now.map TSym.base)[i]? = some x.base) ∨
      (sl = .now i ∧ x.idx = .t 0 ∧ (p.timing.now.map TSym.base)[i]? = some x.base) ∨
      (sl = .next i ∧ x.idx = .t 1 ∧ (p.timing.now.map TSym.base)[i]? = some x.base) ∨
      (sl = .shock i ∧ ∃ y, p.timing.shocks[i]? = some y ∧ y.base = x.base ∧ y.idx = x.idx))) ∨
    ∃ k i, s = .par k ∧ sl = .param i ∧ p.params[i]? = some k := by
  obtain ⟨_, hc, _⟩ := parts_ok ord so m p h
  obtain ⟨_, ht⟩ := Tmg.classify_ok _ _ _ hc
  have hlag : ∀ x ∈ p.timing.lags, x.idx = .t (-1) := by rw [ht]; exact fun x hx => (Tmg.mem_vars _ _ _ _ hx).2.2
  have hnow : ∀ x ∈ p.timing.now, x.idx = .t 0 := by rw [ht]; exact fun x hx => (Tmg.mem_vars _ _ _ _ hx).2.2
  have hlead : ∀ x ∈ p.timing.leads, x.idx = .t 1 := by rw [ht]; exact fun x hx => (Tmg.mem_vars _ _ _ _ hx).2.2
  have hget : ∀ (l : List TSym) (n : Str) (v : Node), dget (dupdate [] (l.map fun x => (x.base, (Sym.tv x).node))) n = some v →
      ∃ x ∈ l, x.base = n ∧ (Sym.tv x).node = v := by
    intro l n v hv
    rcases Lag.mem_dupdate _ _ _ (mem_of_dget _ _ _ hv) with h | h
    · cases h
    · obtain ⟨x, hx, he⟩ := List.mem_map.1 h
      simp only [Prod.mk.injEq] at he
      exact ⟨x, hx, he⟩
  unfold PFParts.slot at hs
  cases hr : dget p.replacements s.node with
  | some sl' =>
    rw [hr] at hs
    cases hs
    left
    unfold PFParts.replacements at hr
    dsimp only at hr
    rcases repl_sound _ _ _ _ _ _ _ hr with ⟨i, hi, hh⟩ | ⟨i, hh, rfl⟩
    · simp only [jacobianVarLists, List.getElem?_map, Option.map_eq_some_iff] at hh
      have dated : ∀ (l : List TSym) (n : Str) (k : Int) (hk : ∀ x ∈ l, x.idx = .t k) (dm : Node) (hdm : ∀ s : Sym, dm ≠ s.node),
          (dget (dupdate [] (l.map fun x => (x.base, (Sym.tv x).node))) n).getD dm = s.node → ∃ x, s = .tv x ∧ x.idx = .t k ∧ x.base = n := by
        intro l n k hk dm hdm he
        cases hd : dget (dupdate [] (l.map fun x => (x.base, (Sym.tv x).node))) n with
        | none => rw [hd] at he; exact absurd he (hdm s)
        | some v =>
          rw [hd] at he
          obtain ⟨x, hx, hb, hv⟩ := hget _ _ _ hd
          cases s with
          | par k => rw [← hv] at he; simp [Sym.node] at he
          | tv y =>
            have := tv_node x y (hv.trans he)
            exact ⟨y, rfl, by rw [← this.2]; exact hk x hx, by rw [← this.1]; exact hb⟩
      rcases hh with ⟨⟨n, ⟨y, hy, rfl⟩, he⟩, rfl⟩ | ⟨⟨y, hy, he⟩, rfl⟩ | ⟨⟨n, ⟨y, hy, rfl⟩, he⟩, rfl⟩
      · obtain ⟨x, rfl, hx, hb⟩ := dated _ _ (-1) hlag _ (by intro s; cases s <;> simp [Sym.node]) he
        exact ⟨x, i, rfl, .inl ⟨rfl, hx, by simp [List.getElem?_map, hy, hb]⟩⟩
      · cases s with
        | par k => simp [Sym.node] at he
        | tv x =>
          have := tv_node y x he
          exact ⟨x, i, rfl, .inr (.inl ⟨rfl, by rw [← this.2]; exact hnow y (List.mem_of_getElem? hy), by simp [List.getElem?_map, hy, this.1]⟩)⟩
      · obtain ⟨x, rfl, hx, hb⟩ := dated _ _ 1 hlead _ (by intro s; cases s <;> simp [Sym.node]) he
        exact ⟨x, i, rfl, .inr (.inr (.inl ⟨rfl, hx, by simp [List.getElem?_map, hy, hb]⟩))⟩
    · simp only [List.getElem?_map, Option.map_eq_some_iff] at hh
      obtain ⟨y, hy, he⟩ := hh
      cases s with
      | par k => simp [Sym.node] at he
      | tv x =>
        have := tv_node y x he
        exact ⟨x, i, rfl, .inr (.inr (.inr ⟨rfl, y, hy, this⟩))⟩
  | none =>
    rw [hr] at hs
    cases s with
    | tv x => simp [Sym.node] at hs
    | par k =>
      simp only [Sym.node] at hs
      split at hs
      · rename_i hk
        cases hs
        exact .inr ⟨k, _, rfl, rfl, by rw [List.getElem?_eq_getElem (List.idxOf_lt_length_of_mem hk)]; simp⟩
      · cases hs

theorem check_ok (p : PFParts) (outs : List SExpr) : p.check outs = .ok () ↔ p.eqs ≠ [] ∧ p.params.Nodup ∧
    ∀ e ∈ outs, ∀ s ∈ e.syms, (p.slot s.node).isSome := by
  unfold PFParts.check
  split
  · rename_i h; simp [h]
  · rename_i h
    split
    · rename_i hn; simp [hn]
    · rename_i hn
      simp only [not_not] at hn
      split
      · rename_i n hf
        have h1 := List.mem_of_find?_eq_some hf
        have h2 := List.find?_some hf
        simp only [reduceCtorEq, false_iff, not_and]
        intro _ _ hall
        obtain ⟨e, he, hs⟩ := List.mem_flatMap.1 h1
        obtain ⟨s, hs', rfl⟩ := List.mem_map.1 hs
        have := hall e he s hs'
        rw [Option.isNone_iff_eq_none] at h2
        rw [h2] at this
        cases this
      · rename_i hf
        simp only [true_iff]
        refine ⟨h, hn, fun e he s hs => ?_⟩
        rw [List.find?_eq_none] at hf
        have := hf s.node (List.mem_flatMap.2 ⟨e, he, List.mem_map.2 ⟨s, hs, rfl⟩⟩)
        simpa [Option.isNone_iff_eq_none, Option.isSome_iff_ne_none] using this

/-- everything known about the two compiled functions -/
theorem compile_ok (ord so) (m : PFModel) (c : PFCompiled) (f : PFParts) (h : compileProblem ord so m = .ok (c, f)) :
    f = c.parts ∧ pfParts ord so m = .ok c.parts ∧ c.varNames = c.parts.timing.now.map TSym.base ∧
    c.shockNames = c.parts.timing.shocks.map TSym.base ∧ c.paramNames = c.parts.params ∧
    c.jac = c.parts.eqs.map (fun e => (c.parts.timing.now.map (fun v => v.atT (-1)) ++ c.parts.timing.now ++
      c.parts.timing.now.map fun v => v.atT 1).map fun v => e.diff (.tv v)) ∧
    c.parts.eqs ≠ [] ∧ c.parts.params.Nodup ∧ ∀ e ∈ c.parts.eqs, ∀ s ∈ e.syms, (c.parts.slot s.node).isSome := by
  unfold compileProblem at h
  split at h
  · cases h
  · rename_i c' hc
    split at h
    · cases h
    · rename_i f' hf
      cases h
      unfold compileSinglePeriod at hc
      unfold compileResidualOnly at hf
      split at hc
      · cases hc
      · rename_i p hp
        rw [hp] at hf
        dsimp only at hc hf
        split at hc
        · cases hc
        · rename_i hk
          cases hc
          split at hf
          · cases hf
          · rename_i hk'
            cases hf
            obtain ⟨h1, h2, h3⟩ := (check_ok _ _).1 hk'
            exact ⟨rfl, hp, rfl, rfl, rfl, rfl, h1, h2, h3⟩

/-- the atoms of the compiled equations come from the model -/
theorem atoms_ok (ord so) (hso : ∀ l, (so l).Perm l) (m : PFModel) (p : PFParts) (h : pfParts ord so m = .ok p) (e : SExpr) (he : e ∈ p.eqs)
    (x : TSym) (hx : Sym.tv x ∈ e.syms) : x ∈ m.atoms := by
  obtain ⟨h1, _, _⟩ := parts_ok ord so m p h
  obtain ⟨sub, h2, h3, _⟩ := sub_ok so hso _ _ _ h1
  rw [h2] at he
  obtain ⟨e0, he0, rfl⟩ := List.mem_map.1 he
  unfold PFModel.atoms
  rcases syms_subsSeq _ _ _ hx with hx | ⟨q, hq, hx⟩
  · exact List.mem_flatMap.2 ⟨e0, List.mem_append_left _ he0, mem_tsyms.2 hx⟩
  · obtain ⟨_, _, _, d, hd, _, e⟩ := h3 q hq
    exact List.mem_flatMap.2 ⟨q.2, List.mem_append_right _ (List.mem_map.2 ⟨d, hd, e.symm⟩), mem_tsyms.2 hx⟩

/-- the values of the graph variables are the stated ones -/
theorem env_eq (ord so) (hord : ∀ l, (ord l).Perm l) (hso : ∀ l, (so l).Perm l) (m : PFModel) (p : PFParts) (h : pfParts ord so m = .ok p)
    (hsh : m.ShocksNow) (a : PeriodArgs ℝ) (σ : Sym → ℝ)
    (hσ : a.Says (p.timing.now.map TSym.base) (p.timing.shocks.map TSym.base) p.params σ)
    (e : SExpr) (he : e ∈ p.eqs) (s : Sym) (hs : s ∈ e.syms) (hk : (p.slot s.node).isSome) : p.env a s = σ s := by
  obtain ⟨sl, hsl⟩ := Option.isSome_iff_exists.1 hk
  unfold PFParts.env
  rw [hsl]
  simp only [Option.map_some, Option.getD_some]
  rcases slot_sound ord so m p h s sl hsl with ⟨x, i, rfl, ⟨rfl, hi, hn⟩ | ⟨rfl, hi, hn⟩ | ⟨rfl, hi, hn⟩ | ⟨rfl, y, hy, hb, hid⟩⟩ | ⟨k, i, rfl, rfl, hk⟩
  · have := hσ.lag i x.base x.asm hn
    rw [show x = ⟨x.base, .t (-1), x.asm⟩ by rw [← hi], this]; rfl
  · have := hσ.now i x.base x.asm hn
    rw [show x = ⟨x.base, .t 0, x.asm⟩ by rw [← hi], this]; rfl
  · have := hσ.lead i x.base x.asm hn
    rw [show x = ⟨x.base, .t 1, x.asm⟩ by rw [← hi], this]; rfl
  · obtain ⟨_, hc, _⟩ := parts_ok ord so m p h
    have hx := atoms_ok ord so hso m p h e he x hs
    obtain ⟨hd, ht⟩ := Tmg.classify_ok _ _ _ hc
    have hxa : x ∈ ord (p.eqs.flatMap SExpr.tsyms).eraseDups := (hord _).mem_iff.2 (List.mem_eraseDups.2 (List.mem_flatMap.2 ⟨e, he, mem_tsyms.2 hs⟩))
    have hbs : y.base ∈ m.shocks.map TSym.base := by
      have := List.mem_of_getElem? hy
      rw [ht] at this
      have := (Tmg.sort_perm _).mem_iff.1 this
      simpa using (List.mem_filter.1 this).2
    have hx0 : x.idx = .t 0 := by
      rcases hd x hxa with hk | hk | hk
      · exact absurd (hsh x hx (hb ▸ hbs) _ hk) (by decide)
      · exact hk
      · exact absurd (hsh x hx (hb ▸ hbs) _ hk) (by decide)
    have := hσ.shock i x.base x.asm (by simp [List.getElem?_map, hy, hb])
    rw [show x = ⟨x.base, .t 0, x.asm⟩ by rw [← hx0], this]; rfl
  · rw [hσ.param i k hk]; rfl

end PFC

/-- **C121**: both compiled functions compute, at any arguments, the values of the model's equations in their order: the variable in column
`i` is read from `y_tm1[i]`, `y_t[i]`, `y_tp1[i]` at its three dates, the shock in column `i` from `x_t[i]`, the parameter `i` from the
`i`-th parameter argument, and steady-state symbols are what the steady-state block says -/
theorem C121_residual (ord so) (hord : ∀ l, (ord l).Perm l) (hso : ∀ l, (so l).Perm l) (m : PFModel) (c : PFCompiled) (f : PFParts)
    (h : compileProblem ord so m = .ok (c, f)) (hsh : m.ShocksNow) (a : PeriodArgs ℝ) (σ : Sym → ℝ)
    (hσ : a.Says c.varNames c.shockNames c.paramNames σ) (hss : MeetsSS m.ssDict σ) (r : Nat) (e : SExpr) (he : m.eqs[r]? = some e) :
    c.parts.residual a r = e.eval σ ∧ f.residual a r = e.eval σ := by
  obtain ⟨rfl, hp, hv, hs, hpn, _, _, _, hslot⟩ := PFC.compile_ok ord so m c f h
  rw [hv, hs, hpn] at hσ
  refine (and_self _).mpr ?_
  obtain ⟨h1, _, _⟩ := PFC.parts_ok ord so m _ hp
  obtain ⟨sub, h2, h3, _⟩ := PFC.sub_ok so hso _ _ _ h1
  have he' : c.parts.eqs[r]? = some (e.subsSeq sub) := by rw [h2, List.getElem?_map, he]; rfl
  unfold PFParts.residual
  rw [he']
  simp only [Option.map_some, Option.getD_some]
  rw [OEq.eval_congr _ _ σ fun s hs => PFC.env_eq ord so hord hso m _ hp hsh a σ hσ _ (List.mem_of_getElem? he') s hs
    (hslot _ (List.mem_of_getElem? he') s hs)]
  refine PFC.eval_subsSeq σ sub e fun q hq => ?_
  obtain ⟨x, hx, hi, d, hd, hn, e2⟩ := h3 q hq
  rw [hx, e2]
  exact hss d hd x hi hn

/-- the arguments with one entry of the lagged, current or lead vector replaced -/
def PeriodArgs.put (a : PeriodArgs ℝ) (δ : Int) (k : Nat) (s : ℝ) : PeriodArgs ℝ :=
  if δ = -1 then { a with yPrev := Function.update a.yPrev k s }
  else if δ = 0 then { a with yNow := Function.update a.yNow k s }
  else { a with yNext := Function.update a.yNext k s }

/-- the entry of the lagged, current or lead vector -/
def PeriodArgs.entry (a : PeriodArgs ℝ) (δ : Int) (k : Nat) : ℝ := if δ = -1 then a.yPrev k else if δ = 0 then a.yNow k else a.yNext k

namespace PFC

/-- the input of column `k` at date `δ` -/
def slotAt (δ : Int) (k : Nat) : Slot := if δ = -1 then .prev k else if δ = 0 then .now k else .next k

theorem read_put (a : PeriodArgs ℝ) (δ : Int) (k : Nat) (s : ℝ) (sl : Slot) :
    sl.read (a.put δ k s) = if sl = slotAt δ k then s else sl.read a := by
  unfold PeriodArgs.put slotAt
  split
  · cases sl <;> simp [Slot.read, Function.update_apply]
  · split
    · cases sl <;> simp [Slot.read, Function.update_apply]
    · cases sl <;> simp [Slot.read, Function.update_apply]

theorem read_entry (a : PeriodArgs ℝ) (δ : Int) (k : Nat) : (slotAt δ k).read a = a.entry δ k := by
  unfold slotAt PeriodArgs.entry
  split
  · rfl
  · split <;> rfl

end PFC

/-- **C121**: the Jacobian output holds the partial derivatives of the residuals at the arguments, wherever the equation is differentiable there:
the columns are the lagged, the current and the lead variables, each in the order of the variable names. A variable which is absent at a
date has a zero column there -/
theorem C121_jacobian (ord so) (hord : ∀ l, (ord l).Perm l) (hso : ∀ l, (so l).Perm l) (m : PFModel) (c : PFCompiled) (f : PFParts)
    (h : compileProblem ord so m = .ok (c, f)) (hsh : m.ShocksNow) (hasm : SameAssumptions m.atoms) (a : PeriodArgs ℝ) (σ : Sym → ℝ)
    (hσ : a.Says c.varNames c.shockNames c.paramNames σ) (hss : MeetsSS m.ssDict σ) (r : Nat) (e : SExpr) (he : m.eqs[r]? = some e)
    (hsm : e.SmoothAt σ) (hsv : ∀ p ∈ m.ssDict, p.2.SmoothAt σ) (k : Nat) (hk : k < c.varNames.length) (δ : Int) (hδ : δ = -1 ∨ δ = 0 ∨ δ = 1) :
    HasDerivAt (fun s => c.parts.residual (a.put δ k s) r) (c.jacobian a r ((δ + 1).toNat * c.varNames.length + k)) (a.entry δ k) := by
  obtain ⟨rfl, hp, hv, hs, hpn, hjac, _, _, hslot⟩ := PFC.compile_ok ord so m c f h
  rw [hv, hs, hpn] at hσ
  obtain ⟨h1, hc, _⟩ := PFC.parts_ok ord so m _ hp
  obtain ⟨sub, h2, h3, _⟩ := PFC.sub_ok so hso _ _ _ h1
  set p := c.parts with hpdef
  have he' : p.eqs[r]? = some (e.subsSeq sub) := by rw [h2, List.getElem?_map, he]; rfl
  have hem := List.mem_of_getElem? he'
  set e' := e.subsSeq sub
  have henv : ∀ s ∈ e'.syms, p.env a s = σ s := fun s hs => PFC.env_eq ord so hord hso m _ hp hsh a σ hσ _ hem s hs (hslot _ hem s hs)
  have hsm' : e'.SmoothAt (p.env a) := by
    refine OEq.smooth_congr _ σ _ (fun s hs => (henv s hs).symm) (PFC.smooth_subsSeq σ sub e ?_ ?_ hsm)
    · intro q hq
      obtain ⟨x, hx, hi, d, hd, hn, e2⟩ := h3 q hq
      rw [hx, e2]
      exact hss d hd x hi hn
    · intro q hq
      obtain ⟨x, hx, hi, d, hd, hn, e2⟩ := h3 q hq
      rw [e2]; exact hsv d hd
  rw [hv, List.length_map] at hk
  obtain ⟨hdate, ht⟩ := Tmg.classify_ok _ _ _ hc
  set v := p.timing.now[k] with hvdef
  have hvk : p.timing.now[k]? = some v := List.getElem?_eq_getElem hk
  have hvt := Tmg.mem_vars _ _ _ v (by have := List.mem_of_getElem? hvk; rw [ht] at this; exact this)
  have hva : v ∈ m.atoms := by
    have := List.mem_eraseDups.1 ((hord _).mem_iff.1 hvt.1)
    obtain ⟨e0, he0, hv0⟩ := List.mem_flatMap.1 this
    exact PFC.atoms_ok ord so hso m _ hp e0 he0 v (mem_tsyms.1 hv0)
  have hnd : (p.timing.now.map TSym.base).Nodup := by rw [ht]; exact Tmg.vars_nodup _ _ _
  -- the symbol of the column is the only one which reads the changed entry
  have hone : ∀ s ∈ e'.syms, (p.slot s.node = some (PFC.slotAt δ k) ↔ s = .tv (v.atT δ)) := by
    intro s hsy
    obtain ⟨sl, hsl⟩ := Option.isSome_iff_exists.1 (hslot _ hem s hsy)
    have hcol : ∀ (x : TSym) (i : Nat), (p.timing.now.map TSym.base)[i]? = some x.base → (i = k ↔ x.base = v.base) := by
      intro x i hi
      have hk' : (p.timing.now.map TSym.base)[k]? = some v.base := by simp [List.getElem?_map, hvk]
      constructor
      · rintro rfl; rw [hi] at hk'; exact Option.some.inj hk'
      · intro hb
        rw [hb] at hi
        exact (List.getElem?_inj (List.getElem?_eq_some_iff.1 hi).1 hnd).1 (hi.trans hk'.symm)
    have hxeq : ∀ x : TSym, Sym.tv x ∈ e'.syms → ∀ d : Int, x.idx = .t d → (x.base = v.base ∧ d = δ ↔ Sym.tv x = .tv (v.atT δ)) := by
      intro x hx d hd
      constructor
      · rintro ⟨hb, rfl⟩
        have := hasm x (PFC.atoms_ok ord so hso m _ hp _ hem x hx) v hva hb
        obtain ⟨xb, xi, xa⟩ := x
        simp only at hb hd this
        subst hb hd this
        rfl
      · intro hx
        simp only [Sym.tv.injEq] at hx
        subst hx
        simp only [TSym.atT, TIdx.t.injEq] at hd
        exact ⟨rfl, hd.symm⟩
    rw [hsl]
    have hδs : ∀ i d, (d = (-1 : Int) ∨ d = 0 ∨ d = 1) → (PFC.slotAt d i = PFC.slotAt δ k ↔ i = k ∧ d = δ) := by
      intro i d hd
      rcases hd with rfl | rfl | rfl <;> rcases hδ with rfl | rfl | rfl <;> simp [PFC.slotAt]
    have fin : ∀ (x : TSym) (i : Nat) (d : Int), (d = -1 ∨ d = 0 ∨ d = 1) → s = .tv x → sl = PFC.slotAt d i → x.idx = .t d →
        (p.timing.now.map TSym.base)[i]? = some x.base → (some sl = some (PFC.slotAt δ k) ↔ s = .tv (v.atT δ)) := by
      rintro x i d hd rfl rfl hxd hi
      rw [Option.some.injEq, hδs i d hd, hcol x i hi]
      exact hxeq x hsy d hxd
    rcases PFC.slot_sound ord so m p hp s sl hsl with ⟨x, i, rfl, ⟨rfl, hi, hn⟩ | ⟨rfl, hi, hn⟩ | ⟨rfl, hi, hn⟩ | ⟨rfl, y, hy, hb, hid⟩⟩ | ⟨q, i, rfl, rfl, hq⟩
    · exact fin x i (-1) (.inl rfl) rfl rfl hi hn
    · exact fin x i 0 (.inr (.inl rfl)) rfl rfl hi hn
    · exact fin x i 1 (.inr (.inr rfl)) rfl rfl hi hn
    · constructor
      · intro hh; rcases hδ with rfl | rfl | rfl <;> simp [PFC.slotAt] at hh
      · intro hh
        simp only [Sym.tv.injEq] at hh
        have hys : y ∈ p.timing.shocks := List.mem_of_getElem? hy
        rw [ht] at hys
        have := (List.mem_filter.1 ((Tmg.sort_perm _).mem_iff.1 hys)).2
        simp only [decide_eq_true_eq] at this
        rw [hb, hh] at this
        exact absurd this hvt.2.1
    · constructor
      · intro hh; rcases hδ with rfl | rfl | rfl <;> simp [PFC.slotAt] at hh
      · intro hh; cases hh
  set x0 : Sym := .tv (v.atT δ) with hx0
  set s0 := a.entry δ k with hs0
  -- the residual along the changed entry
  have hres : ∀ s, p.residual (a.put δ k s) r = e'.eval (fun x => if x = x0 then s else p.env a x) := by
    intro s
    unfold PFParts.residual
    rw [he']
    simp only [Option.map_some, Option.getD_some]
    refine OEq.eval_congr _ _ _ fun x hx => ?_
    obtain ⟨sl, hsl⟩ := Option.isSome_iff_exists.1 (hslot _ hem x hx)
    unfold PFParts.env
    rw [hsl]
    simp only [Option.map_some, Option.getD_some, PFC.read_put]
    have := hone x hx
    rw [hsl, Option.some.injEq] at this
    by_cases hh : x = x0
    · rw [if_pos (this.2 hh), if_pos hh]
    · rw [if_neg (fun h => hh (this.1 h)), if_neg hh]
  have hbase : ∀ x ∈ e'.syms, (if x = x0 then s0 else p.env a x) = p.env a x := by
    intro x hx
    split
    · rename_i hh
      have := (hone x hx).2 hh
      unfold PFParts.env
      rw [this]
      simp only [Option.map_some, Option.getD_some, PFC.read_entry]
      rfl
    · rfl
  have hd := OEq.chain [x0] (by simp) (fun s x => if x = x0 then s else p.env a x) (fun x => if x = x0 then 1 else 0) s0
    (fun x => by
      by_cases hh : x = x0
      · simp only [if_pos hh]; exact hasDerivAt_id _
      · simp only [if_neg hh]; exact hasDerivAt_const _ _)
    (fun x hx => by simp only [List.mem_singleton] at hx; rw [if_neg hx]) e'
    (OEq.smooth_congr _ _ _ (fun x hx => (hbase x hx).symm) hsm')
  simp only [List.map_cons, List.map_nil, List.sum_cons, List.sum_nil, if_true, mul_one, add_zero] at hd
  have hj : c.jacobian a r ((δ + 1).toNat * c.varNames.length + k) = (e'.diff x0).eval (fun x => if x = x0 then s0 else p.env a x) := by
    rw [OEq.eval_congr _ _ (p.env a) fun x hx => hbase x (Clf.syms_diff x0 e' x hx)]
    unfold PFCompiled.jacobian
    have : (c.jac[r]?).bind (fun row => row[(δ + 1).toNat * c.varNames.length + k]?) = some (e'.diff x0) := by
      rw [hjac, List.getElem?_map, he', hv, List.length_map]
      simp only [Option.map_some, Option.bind_some, List.getElem?_map, Option.map_eq_some_iff]
      refine ⟨v.atT δ, ?_, rfl⟩
      have hlen : (p.timing.now.map (fun v => v.atT (-1))).length = p.timing.now.length := List.length_map _
      rcases hδ with rfl | rfl | rfl
      · rw [List.getElem?_append_left (by simp; omega), List.getElem?_append_left (by simp; omega)]
        simp [List.getElem?_map, hvk]
      · rw [List.getElem?_append_left (by simp; omega), List.getElem?_append_right (by simp)]
        have : v.atT 0 = v := by
          have := hvt.2.2
          obtain ⟨vb, vi, va⟩ := v
          simp only at this
          subst this; rfl
        simp [hvk, this]
      · rw [List.getElem?_append_right (by simp; omega)]
        have : (((1 : Int) + 1).toNat * p.timing.now.length + k) - (p.timing.now.map (fun v => v.atT (-1)) ++ p.timing.now).length = k := by
          simp; omega
        rw [this, List.getElem?_map, hvk]; rfl
    rw [this]
    simp only [Option.map_some, Option.getD_some]
    rfl
  rw [hj]
  simpa only [hres] using hd

namespace PFC

/-- the compiled residual reads only the columns of the variables -/
theorem reads_only (ord so) (m : PFModel) (c : PFCompiled) (f : PFParts) (h : compileProblem ord so m = .ok (c, f)) :
    PF.ReadsOnly f.residual c.varNames.length := by
  obtain ⟨rfl, hp, hv, hs, hpn, hjac, _, _, hslot⟩ := compile_ok ord so m c f h
  intro a b hab hx hpar
  funext r
  unfold PFParts.residual
  cases he : c.parts.eqs[r]? with
  | none => rfl
  | some e =>
    simp only [Option.map_some, Option.getD_some]
    refine OEq.eval_congr _ _ _ fun s hsy => ?_
    unfold PFParts.env
    cases hsl : c.parts.slot s.node with
    | none => rfl
    | some sl =>
      simp only [Option.map_some, Option.getD_some]
      have hlt : ∀ (i : Nat) n, (c.parts.timing.now.map TSym.base)[i]? = some n → i < c.varNames.length := by
        intro i n hi; rw [hv]; exact (List.getElem?_eq_some_iff.1 hi).1
      rcases slot_sound ord so m _ hp s sl hsl with ⟨x, i, _, ⟨rfl, hi, hn⟩ | ⟨rfl, hi, hn⟩ | ⟨rfl, hi, hn⟩ | ⟨rfl, y, hy, hb, hid⟩⟩ | ⟨q, i, _, rfl, hq⟩
      · exact (hab i (hlt i _ hn)).1
      · exact (hab i (hlt i _ hn)).2.1
      · exact (hab i (hlt i _ hn)).2.2
      · exact congrFun hx i
      · exact congrFun hpar i

end PFC

/-- **C121** with C30: the stacked residuals of the compiled problem vanish exactly when every equation of the model holds at every date of the
path, with the boundary conditions before and after it, the shocks and the parameters of each date -/
theorem C121_path (ord so) (hord : ∀ l, (ord l).Perm l) (hso : ∀ l, (so l).Perm l) (m : PFModel) (c : PFCompiled) (f : PFParts)
    (h : compileProblem ord so m = .ok (c, f)) (hsh : m.ShocksNow) (y yInit yTerm : Nat → ℝ) (x params : Nat → Nat → ℝ) (T : Nat)
    (σ : Nat → Sym → ℝ) (hss : ∀ t, MeetsSS m.ssDict (σ t))
    (hσ : let z := fullPath y yInit yTerm c.varNames.length T
      ∀ t < T, ({ yPrev := z (t - 1), yNow := z t, yNext := z (t + 1), x := x t, params := params t } : PeriodArgs ℝ).Says c.varNames c.shockNames
        c.paramNames (σ t)) :
    (∀ i < T * m.eqs.length, stackedResiduals f.residual y yInit yTerm x params c.varNames.length m.eqs.length T i = 0) ↔
      ∀ t < T, ∀ e ∈ m.eqs, e.eval (σ t) = 0 := by
  refine Iff.trans (C30_zero_iff f.residual y yInit yTerm x params c.varNames.length m.eqs.length T) ?_
  constructor
  · intro hz t ht e he
    obtain ⟨r, hr⟩ := List.getElem?_of_mem he
    have := hz t ht r (List.getElem?_eq_some_iff.1 hr).1
    rwa [(C121_residual ord so hord hso m c f h hsh _ (σ t) (hσ t ht) (hss t) r e hr).2] at this
  · intro hz t ht r hr
    have hr' := List.getElem?_eq_getElem hr
    rw [(C121_residual ord so hord hso m c f h hsh _ (σ t) (hσ t ht) (hss t) r _ hr').2]
    exact hz t ht _ (List.mem_of_getElem? hr')

/-- **C121** with C29: the block-tridiagonal matrix of the compiled Jacobians is the derivative of the stacked residuals of the model's equations
at every path at which the equations of the period are differentiable -/
theorem C121_stacked_jacobian (ord so) (hord : ∀ l, (ord l).Perm l) (hso : ∀ l, (so l).Perm l) (m : PFModel) (c : PFCompiled) (f : PFParts)
    (h : compileProblem ord so m = .ok (c, f)) (hsh : m.ShocksNow) (hasm : SameAssumptions m.atoms) (y yInit yTerm : Nat → ℝ)
    (x params : Nat → Nat → ℝ) (T t s r k : Nat) (ht : t < T) (hs : s < T) (hr : r < m.eqs.length) (hk : k < c.varNames.length) (σ : Sym → ℝ)
    (hss : MeetsSS m.ssDict σ) (hσ : (periodArgs y yInit yTerm x params c.varNames.length T t).Says c.varNames c.shockNames c.paramNames σ)
    (hsm : ∀ e ∈ m.eqs, e.SmoothAt σ) (hsv : ∀ p ∈ m.ssDict, p.2.SmoothAt σ) :
    HasDerivAt (fun v => stackedResiduals f.residual (Function.update y (s * c.varNames.length + k) v) yInit yTerm x params c.varNames.length
        m.eqs.length T (t * m.eqs.length + r))
      (blockTri (fun t => c.jacobian (periodArgs y yInit yTerm x params c.varNames.length T t)) c.varNames.length t r s k)
      (y (s * c.varNames.length + k)) := by
  refine C29_is_derivative_at f.residual c.jacobian y yInit yTerm x params c.varNames.length m.eqs.length T
    (PFC.reads_only ord so m c f h) t s r k ?_ ht hs hr hk
  intro r' hr' k' hk'
  have hr'' := List.getElem?_eq_getElem hr'
  have key := fun δ hδ => C121_jacobian ord so hord hso m c f h hsh hasm _ σ hσ hss r' _ hr'' (hsm _ (List.mem_of_getElem? hr'')) hsv k' hk' δ hδ
  have hf : f = c.parts := (PFC.compile_ok ord so m c f h).1
  rw [hf]
  refine ⟨?_, ?_, ?_⟩
  · simpa [PeriodArgs.put, PeriodArgs.entry] using key (-1) (.inl rfl)
  · simpa [PeriodArgs.put, PeriodArgs.entry] using key 0 (.inr (.inl rfl))
  · simpa [PeriodArgs.put, PeriodArgs.entry] using key 1 (.inr (.inr rfl))

/-- the steady-state block states values in terms of parameters of the model -/
def PFModel.PlainValues (m : PFModel) : Prop := ∀ p ∈ m.ssDict, ∀ s ∈ p.2.syms, ∃ k ∈ m.params ++ m.determ, s = .par k

/-- the steady-state block states a value for the variable of `x` -/
def PFModel.States (m : PFModel) (x : TSym) : Prop := ∃ p ∈ m.ssDict, symName (safeToSS p.1) = createName x

namespace PFC

theorem atoms_plain (so) (hso : ∀ l, (so l).Perm l) (m : PFModel) (hpl : m.PlainValues) (eqs : List SExpr) (h : substituteSS so m.eqs m.ssDict = .ok eqs)
    (x : TSym) : x ∈ eqs.flatMap SExpr.tsyms ↔ (∃ e ∈ m.eqs, x ∈ e.tsyms) ∧ x.idx ≠ .ss := by
  obtain ⟨sub, h2, h3, h4, hn⟩ := sub_ok so hso _ _ _ h
  have hval : ∀ p ∈ sub, ∀ s ∈ p.2.syms, ∃ k ∈ m.params ++ m.determ, s = .par k := by
    intro p hp s hs
    obtain ⟨_, _, _, d, hd, _, e⟩ := h3 p hp
    exact hpl d hd s (e ▸ hs)
  rw [h2]
  simp only [List.mem_flatMap, List.mem_map]
  constructor
  · rintro ⟨e', ⟨e, he, rfl⟩, hx⟩
    rw [mem_tsyms] at hx
    rw [Cls.syms_subsSeq_iff sub e _ hn] at hx
    · rcases hx with ⟨hx, hk⟩ | ⟨p, hp, _, hx⟩
      · exact ⟨⟨e, he, mem_tsyms.2 hx⟩, fun hi => hk (h4 e he x (mem_tsyms.2 hx) hi)⟩
      · obtain ⟨k, _, hk⟩ := hval p hp _ hx; cases hk
    · intro p hp k hk hks
      obtain ⟨j, _, hj⟩ := hval p hp k hks
      obtain ⟨q, hq, rfl⟩ := List.mem_map.1 hk
      obtain ⟨y, hy, _⟩ := h3 q hq
      rw [hy] at hj; cases hj
  · rintro ⟨⟨e, he, hx⟩, hi⟩
    refine ⟨_, ⟨e, he, rfl⟩, mem_tsyms.2 (syms_keep sub e _ (mem_tsyms.1 hx) ?_)⟩
    intro hk
    obtain ⟨q, hq, hqe⟩ := List.mem_map.1 hk
    obtain ⟨y, hy, hyi, _⟩ := h3 q hq
    rw [hy] at hqe
    cases hqe
    exact hi hyi

theorem sub_iff (so) (eqs : List SExpr) (d : List (Sym × SExpr)) : (∃ eqs', substituteSS so eqs d = .ok eqs') ↔
    ∀ e ∈ eqs, ∀ x ∈ e.tsyms, x.idx = .ss → ∃ p ∈ d, symName (safeToSS p.1) = createName x := by
  have hmem : ∀ x, x ∈ ((eqs.flatMap SExpr.tsyms).filter fun a => decide (a.idx = .ss)).eraseDups ↔ ∃ e ∈ eqs, x ∈ e.tsyms ∧ x.idx = .ss := by
    intro x
    rw [List.mem_eraseDups, List.mem_filter, List.mem_flatMap]
    simp only [decide_eq_true_eq]
    constructor
    · rintro ⟨⟨e, he, hx⟩, hi⟩; exact ⟨e, he, hx, hi⟩
    · rintro ⟨e, he, hx, hi⟩; exact ⟨⟨e, he, hx⟩, hi⟩
  unfold substituteSS
  dsimp only
  split
  · rename_i hn
    simp only [Except.ok.injEq, exists_eq', true_iff]
    intro e he x hx hi
    have := (hmem x).2 ⟨e, he, hx, hi⟩
    rw [hn] at this; cases this
  · split
    · rename_i hr
      simp only [reduceCtorEq, exists_false, false_iff]
      intro hall
      obtain ⟨x, hx⟩ := List.exists_mem_of_ne_nil _ hr
      obtain ⟨hx, hk⟩ := List.mem_filter.1 hx
      obtain ⟨e, he, hxe, hi⟩ := (hmem x).1 hx
      obtain ⟨p, hp, hn⟩ := hall e he x hxe hi
      simp only [decide_not, Bool.not_eq_true', decide_eq_false_iff_not] at hk
      apply hk
      obtain ⟨q, hq⟩ := Option.isSome_iff_exists.1 (List.find?_isSome.2 ⟨p, hp, by simpa using hn⟩ : (d.find? fun p => decide (symName (safeToSS p.1) = createName x)).isSome)
      exact List.mem_map.2 ⟨(Sym.tv x, q.2), List.mem_filterMap.2 ⟨x, hx, by rw [hq]; rfl⟩, rfl⟩
    · rename_i hr
      simp only [Except.ok.injEq, exists_eq', true_iff]
      intro e he x hx hi
      have hx' := (hmem x).2 ⟨e, he, hx, hi⟩
      have hr := of_not_not hr
      rw [List.filter_eq_nil_iff] at hr
      have hk := hr x hx'
      simp only [decide_not, Bool.not_eq_true', decide_eq_false_iff_not, not_not] at hk
      obtain ⟨q, hq, he⟩ := List.mem_map.1 hk
      obtain ⟨a, ha, hq⟩ := List.mem_filterMap.1 hq
      rw [Option.map_eq_some_iff] at hq
      obtain ⟨q', hq', rfl⟩ := hq
      have : a = x := by simpa using he
      subst this
      exact ⟨q', List.mem_of_find?_eq_some hq', by simpa using List.find?_some hq'⟩

theorem atom_date (x : TSym) (h : ¬ ∀ i : Int, -1 ≤ i → i ≤ 1 → x.idx ≠ .t i) : x.idx = .t (-1) ∨ x.idx = .t 0 ∨ x.idx = .t 1 := by
  simp only [not_forall, not_not] at h
  obtain ⟨i, h1, h2, h⟩ := h
  have : i = -1 ∨ i = 0 ∨ i = 1 := by omega
  rcases this with rfl | rfl | rfl
  · exact .inl h
  · exact .inr (.inl h)
  · exact .inr (.inr h)

end PFC

/-- **C121**: the problem compiles exactly when there are equations, every steady-state symbol in them has a stated value, every other symbol is
dated one period back, now or one ahead, every variable occurs at the current date too, and every parameter is a free or a deterministic one -/
theorem C121_compiles (ord so) (hord : ∀ l, (ord l).Perm l) (hso : ∀ l, (so l).Perm l) (m : PFModel) (hpl : m.PlainValues)
    (hnd : (m.params ++ m.determ).Nodup) :
    (∃ cf, compileProblem ord so m = .ok cf) ↔
      m.eqs ≠ [] ∧ (∀ e ∈ m.eqs, ∀ x ∈ e.tsyms, (x.idx = .ss ∧ m.States x) ∨
        ((x.idx = .t (-1) ∨ x.idx = .t 0 ∨ x.idx = .t 1) ∧
          (x.base ∈ m.shocks.map TSym.base ∨ ∃ e' ∈ m.eqs, ∃ y ∈ e'.tsyms, y.base = x.base ∧ y.idx = .t 0))) ∧
      ∀ e ∈ m.eqs, ∀ k, Sym.par k ∈ e.syms → k ∈ m.params ++ m.determ := by
  constructor
  · rintro ⟨⟨c, f⟩, h⟩
    obtain ⟨rfl, hp, hv, hs, hpn, _, hne, _, hslot⟩ := PFC.compile_ok ord so m c f h
    obtain ⟨h1, hc, hpar⟩ := PFC.parts_ok ord so m _ hp
    have hat := PFC.atoms_plain so hso m hpl _ h1
    have hst := (PFC.sub_iff so m.eqs m.ssDict).1 ⟨_, h1⟩
    obtain ⟨sub, h2, h3, h4, hn⟩ := PFC.sub_ok so hso _ _ _ h1
    obtain ⟨hdate, ht⟩ := Tmg.classify_ok _ _ _ hc
    refine ⟨fun hh => hne (by rw [h2, hh]; rfl), ?_, ?_⟩
    · intro e he x hx
      by_cases hi : x.idx = .ss
      · exact .inl ⟨hi, hst e he x hx hi⟩
      · right
        have hxm := (hat x).2 ⟨⟨e, he, hx⟩, hi⟩
        refine ⟨hdate x ((hord _).mem_iff.2 (List.mem_eraseDups.2 hxm)), ?_⟩
        obtain ⟨e', he', hx'⟩ := List.mem_flatMap.1 hxm
        obtain ⟨sl, hsl⟩ := Option.isSome_iff_exists.1 (hslot e' he' _ (mem_tsyms.1 hx'))
        have hnow : ∀ i : Nat, (c.parts.timing.now.map TSym.base)[i]? = some x.base → ∃ e' ∈ m.eqs, ∃ y ∈ e'.tsyms, y.base = x.base ∧ y.idx = .t 0 := by
          intro i hi
          obtain ⟨y, hy, hb⟩ := List.mem_map.1 (List.mem_of_getElem? hi)
          rw [ht] at hy
          obtain ⟨g1, _, g3⟩ := Tmg.mem_vars _ _ _ _ hy
          obtain ⟨⟨e2, he2, hy2⟩, _⟩ := (hat y).1 (List.mem_eraseDups.1 ((hord _).mem_iff.1 g1))
          exact ⟨e2, he2, y, hy2, hb, g3⟩
        rcases PFC.slot_sound ord so m _ hp _ _ hsl with ⟨z, i, hz, ⟨_, _, hn⟩ | ⟨_, _, hn⟩ | ⟨_, _, hn⟩ | ⟨_, y, hy, hb, _⟩⟩ | ⟨k, i, hz, _⟩
        · cases hz; exact .inr (hnow i hn)
        · cases hz; exact .inr (hnow i hn)
        · cases hz; exact .inr (hnow i hn)
        · cases hz
          left
          have hys := List.mem_of_getElem? hy
          rw [ht] at hys
          have := (List.mem_filter.1 ((Tmg.sort_perm _).mem_iff.1 hys)).2
          simp only [decide_eq_true_eq] at this
          rwa [hb] at this
        · cases hz
    · intro e he k hk
      have hmem : e.subsSeq sub ∈ c.parts.eqs := by rw [h2]; exact List.mem_map.2 ⟨e, he, rfl⟩
      have hk' : Sym.par k ∈ (e.subsSeq sub).syms := by
        refine PFC.syms_keep sub e _ hk fun hkk => ?_
        obtain ⟨q, hq, hqe⟩ := List.mem_map.1 hkk
        obtain ⟨y, hy, _⟩ := h3 q hq
        rw [hy] at hqe; cases hqe
      obtain ⟨sl, hsl⟩ := Option.isSome_iff_exists.1 (hslot _ hmem _ hk')
      rcases PFC.slot_sound ord so m _ hp _ _ hsl with ⟨z, i, hz, _⟩ | ⟨k', i, hz, _, hki⟩
      · cases hz
      · cases hz
        have := List.mem_of_getElem? hki
        rw [hpar] at this
        exact (List.mem_filter.1 this).1
  · rintro ⟨hne, hx, hpar⟩
    obtain ⟨eqs, h1⟩ := (PFC.sub_iff so m.eqs m.ssDict).2 fun e he x hxe hi => by
      rcases hx e he x hxe with ⟨_, h⟩ | ⟨h, _⟩
      · exact h
      · rw [hi] at h; rcases h with h | h | h <;> cases h
    have hat := PFC.atoms_plain so hso m hpl _ h1
    obtain ⟨sub, h2, h3, h4, hn⟩ := PFC.sub_ok so hso _ _ _ h1
    have hdated : ∀ x, x ∈ eqs.flatMap SExpr.tsyms → (x.idx = .t (-1) ∨ x.idx = .t 0 ∨ x.idx = .t 1) ∧
          (x.base ∈ m.shocks.map TSym.base ∨ ∃ e' ∈ m.eqs, ∃ y ∈ e'.tsyms, y.base = x.base ∧ y.idx = .t 0) := by
      intro x hxm
      obtain ⟨⟨e, he, hxe⟩, hi⟩ := (hat x).1 hxm
      rcases hx e he x hxe with ⟨h, _⟩ | h
      · exact absurd h hi
      · exact h
    obtain ⟨t, hc⟩ : ∃ t, classifyTiming (ord (eqs.flatMap SExpr.tsyms).eraseDups) (m.shocks.map TSym.base) = .ok t := by
      cases hcl : classifyTiming (ord (eqs.flatMap SExpr.tsyms).eraseDups) (m.shocks.map TSym.base) with
      | ok t => exact ⟨t, rfl⟩
      | error bad =>
        obtain ⟨x, hxa, hbad⟩ := (C28_rejects _ _).1.1 ⟨bad, hcl⟩
        have := (hdated x (List.mem_eraseDups.1 ((hord _).mem_iff.1 hxa))).1
        rcases this with h | h | h
        · exact absurd h (hbad _ (by omega) (by omega))
        · exact absurd h (hbad _ (by omega) (by omega))
        · exact absurd h (hbad _ (by omega) (by omega))
    obtain ⟨p, hp⟩ : ∃ p, pfParts ord so m = .ok p := by
      unfold pfParts
      rw [h1]
      dsimp only
      rw [hc]
      exact ⟨_, rfl⟩
    obtain ⟨g1, g2, g3⟩ := PFC.parts_ok ord so m p hp
    have e1 : p.eqs = eqs := by rw [h1] at g1; exact (Except.ok.inj g1).symm
    have e2 : p.timing = t := by rw [e1, hc] at g2; exact (Except.ok.inj g2).symm
    obtain ⟨_, ht⟩ := Tmg.classify_ok _ _ _ g2
    have hslot : ∀ e ∈ p.eqs, ∀ s ∈ e.syms, (p.slot s.node).isSome := by
      intro e he s hs
      cases s with
      | par k =>
        have hkm : k ∈ p.params := by
          rw [g3, List.mem_filter]
          refine ⟨?_, decide_eq_true ((PFC.mem_par _ _).2 ⟨e, he, hs⟩)⟩
          rw [e1, h2] at he
          obtain ⟨e0, he0, rfl⟩ := List.mem_map.1 he
          rcases PFC.syms_subsSeq _ _ _ hs with hs | ⟨q, hq, hs⟩
          · exact hpar e0 he0 k hs
          · obtain ⟨_, _, _, d, hd, _, e⟩ := h3 q hq
            obtain ⟨j, hj, hjk⟩ := hpl d hd _ (e ▸ hs)
            cases hjk; exact hj
        unfold PFParts.slot
        cases dget p.replacements (Sym.par k).node with
        | some s => rfl
        | none => simp only [Sym.node]; rw [if_pos hkm]; rfl
      | tv x =>
        have hxm : x ∈ p.eqs.flatMap SExpr.tsyms := List.mem_flatMap.2 ⟨e, he, mem_tsyms.2 hs⟩
        have hxo : x ∈ ord (p.eqs.flatMap SExpr.tsyms).eraseDups := (hord _).mem_iff.2 (List.mem_eraseDups.2 hxm)
        obtain ⟨hd, hor⟩ := hdated x (e1 ▸ hxm)
        have : (dget p.replacements (Sym.tv x).node).isSome := by
          unfold PFParts.replacements
          dsimp only
          refine PFC.repl_has _ _ _ _ _ (by simp [jacobianVarLists]) (by simp [jacobianVarLists]) (by simp [jacobianVarLists]) _ ?_
          by_cases hsh : x.base ∈ m.shocks.map TSym.base
          · right; right; right
            refine List.mem_map.2 ⟨x, ?_, rfl⟩
            rw [ht]
            exact (Tmg.sort_perm _).mem_iff.2 (List.mem_filter.2 ⟨hxo, by simpa using hsh⟩)
          · obtain ⟨e', he', y, hy, hyb, hyi⟩ := hor.resolve_left hsh
            have hyo : y ∈ ord (p.eqs.flatMap SExpr.tsyms).eraseDups :=
              (hord _).mem_iff.2 (List.mem_eraseDups.2 (by rw [e1]; exact (hat y).2 ⟨⟨e', he', hy⟩, by rw [hyi]; simp⟩))
            obtain ⟨z, hz, hzb⟩ := Tmg.vars_mem _ (m.shocks.map TSym.base) 0 y hyo (hyb ▸ hsh) hyi
            have hzn : z ∈ p.timing.now := by rw [ht]; exact hz
            have hname : x.base ∈ p.timing.now.map TSym.base := List.mem_map.2 ⟨z, hzn, hzb.trans hyb⟩
            have dated : ∀ (l : List TSym) (k : Int), x.idx = .t k → (∀ w ∈ l, w.idx = .t k) → (∃ w ∈ l, w.base = x.base) → ∀ dm,
                (dget (dupdate [] (l.map fun x => (x.base, (Sym.tv x).node))) x.base).getD dm = (Sym.tv x).node := by
              intro l k hk hl ⟨w, hw, hwb⟩ dm
              have hsome : (dget (dupdate [] (l.map fun x => (x.base, (Sym.tv x).node))) x.base).isSome := by
                rw [dget_isSome, mem_dkeys_dupdate]
                exact .inr (List.mem_map.2 ⟨(w.base, (Sym.tv w).node), List.mem_map.2 ⟨w, hw, rfl⟩, hwb⟩)
              obtain ⟨v, hv⟩ := Option.isSome_iff_exists.1 hsome
              rw [hv]
              rcases Lag.mem_dupdate _ _ _ (mem_of_dget _ _ _ hv) with h | h
              · cases h
              · obtain ⟨u, hu, hue⟩ := List.mem_map.1 h
                simp only [Prod.mk.injEq] at hue
                show v = _
                rw [← hue.2]
                have := hl u hu
                simp only [Sym.node, Node.tv.injEq]
                unfold createName
                rw [this, hk, hue.1]
            rcases hd with hd | hd | hd
            · left
              obtain ⟨w, hw, hwb⟩ := Tmg.vars_mem _ (m.shocks.map TSym.base) (-1) x hxo hsh hd
              refine List.mem_map.2 ⟨x.base, hname, dated _ _ hd ?_ ⟨w, by rw [ht]; exact hw, hwb⟩ _⟩
              rw [ht]; exact fun w hw => (Tmg.mem_vars _ _ _ _ hw).2.2
            · right; left
              refine List.mem_map.2 ⟨z, hzn, ?_⟩
              rw [ht] at hzn
              simp only [Sym.node, Node.tv.injEq]
              unfold createName
              rw [(Tmg.mem_vars _ _ _ _ hzn).2.2, hd, hzb.trans hyb]
            · right; right; left
              obtain ⟨w, hw, hwb⟩ := Tmg.vars_mem _ (m.shocks.map TSym.base) 1 x hxo hsh hd
              refine List.mem_map.2 ⟨x.base, hname, dated _ _ hd ?_ ⟨w, by rw [ht]; exact hw, hwb⟩ _⟩
              rw [ht]; exact fun w hw => (Tmg.mem_vars _ _ _ _ hw).2.2
        unfold PFParts.slot
        obtain ⟨sl, hsl⟩ := Option.isSome_iff_exists.1 this
        rw [hsl]; rfl
    have hnil : p.eqs ≠ [] := by rw [e1, h2]; simpa using hne
    have hpn : p.params.Nodup := by rw [g3]; exact hnd.filter _
    have hk2 := (PFC.check_ok p p.eqs).2 ⟨hnil, hpn, hslot⟩
    unfold compileProblem compileSinglePeriod compileResidualOnly
    rw [hp]
    dsimp only
    have hk1 : p.check (p.eqs ++ (p.eqs.map fun e => (p.timing.now.map (fun v => v.atT (-1)) ++ p.timing.now ++ p.timing.now.map fun v => v.atT 1).map
        fun v => e.diff (.tv v)).flatten) = .ok () := by
      refine (PFC.check_ok p _).2 ⟨hnil, hpn, fun e he s hs => ?_⟩
      rcases List.mem_append.1 he with he | he
      · exact hslot e he s hs
      · obtain ⟨row, hrow, he⟩ := List.mem_flatten.1 he
        obtain ⟨e0, he0, rfl⟩ := List.mem_map.1 hrow
        obtain ⟨v, _, rfl⟩ := List.mem_map.1 he
        exact hslot e0 he0 s (Clf.syms_diff _ _ _ hs)
    rw [hk1, hk2]
    exact ⟨_, rfl⟩

/-- **C121**: the names returned beside the function. Every variable occurring at the current date is one column; every shock that occurs is a
column; the parameters are those of the free and deterministic ones that occur, in that order -/
theorem C121_names (ord so) (hord : ∀ l, (ord l).Perm l) (hso : ∀ l, (so l).Perm l) (m : PFModel) (hpl : m.PlainValues) (c : PFCompiled)
    (f : PFParts) (h : compileProblem ord so m = .ok (c, f)) :
    c.varNames.Nodup ∧ (∀ n, n ∈ c.varNames ↔ n ∉ m.shocks.map TSym.base ∧ ∃ e ∈ m.eqs, ∃ x ∈ e.tsyms, x.base = n ∧ x.idx = .t 0) ∧
    (∀ n, n ∈ c.shockNames ↔ n ∈ m.shocks.map TSym.base ∧ ∃ e ∈ m.eqs, ∃ x ∈ e.tsyms, x.base = n ∧ x.idx ≠ .ss) ∧
    c.paramNames.Sublist (m.params ++ m.determ) ∧ (∀ e ∈ m.eqs, ∀ k, Sym.par k ∈ e.syms → k ∈ c.paramNames) ∧
    ∀ k ∈ c.paramNames, (∃ e ∈ m.eqs, Sym.par k ∈ e.syms) ∨ ∃ p ∈ m.ssDict, Sym.par k ∈ p.2.syms := by
  obtain ⟨rfl, hp, hv, hs, hpn, _, hne, _, hslot⟩ := PFC.compile_ok ord so m c f h
  obtain ⟨h1, hc, hpar⟩ := PFC.parts_ok ord so m _ hp
  have hat := PFC.atoms_plain so hso m hpl _ h1
  obtain ⟨sub, h2, h3, h4, hn⟩ := PFC.sub_ok so hso _ _ _ h1
  obtain ⟨hdate, ht⟩ := Tmg.classify_ok _ _ _ hc
  have hmem : ∀ x, x ∈ ord (c.parts.eqs.flatMap SExpr.tsyms).eraseDups ↔ (∃ e ∈ m.eqs, x ∈ e.tsyms) ∧ x.idx ≠ .ss := by
    intro x; rw [(hord _).mem_iff, List.mem_eraseDups, hat]
  refine ⟨?_, ?_, ?_, ?_, ?_, ?_⟩
  · rw [hv, ht]; exact Tmg.vars_nodup _ _ _
  · intro n
    rw [hv, ht]
    constructor
    · intro hnm
      obtain ⟨x, hx, rfl⟩ := List.mem_map.1 hnm
      obtain ⟨g1, g2, g3⟩ := Tmg.mem_vars _ _ _ _ hx
      obtain ⟨⟨e, he, hxe⟩, _⟩ := (hmem x).1 g1
      exact ⟨g2, e, he, x, hxe, rfl, g3⟩
    · rintro ⟨hns, e, he, x, hx, rfl, hi⟩
      obtain ⟨y, hy, hyb⟩ := Tmg.vars_mem _ (m.shocks.map TSym.base) 0 x ((hmem x).2 ⟨⟨e, he, hx⟩, by rw [hi]; simp⟩) hns hi
      exact List.mem_map.2 ⟨y, hy, hyb⟩
  · intro n
    rw [hs, ht]
    simp only [List.mem_map, (Tmg.sort_perm _).mem_iff, List.mem_filter, decide_eq_true_eq]
    constructor
    · rintro ⟨x, ⟨hx, hb⟩, rfl⟩
      obtain ⟨⟨e, he, hxe⟩, hi⟩ := (hmem x).1 hx
      exact ⟨hb, e, he, x, hxe, rfl, hi⟩
    · rintro ⟨hb, e, he, x, hx, rfl, hi⟩
      exact ⟨x, ⟨(hmem x).2 ⟨⟨e, he, hx⟩, hi⟩, hb⟩, rfl⟩
  · rw [hpn, hpar]; exact List.filter_sublist
  · intro e he k hk
    have hm : e.subsSeq sub ∈ c.parts.eqs := by rw [h2]; exact List.mem_map.2 ⟨e, he, rfl⟩
    have hk' : Sym.par k ∈ (e.subsSeq sub).syms := by
      refine PFC.syms_keep sub e _ hk fun hkk => ?_
      obtain ⟨q, hq, hqe⟩ := List.mem_map.1 hkk
      obtain ⟨y, hy, _⟩ := h3 q hq
      rw [hy] at hqe; cases hqe
    obtain ⟨sl, hsl⟩ := Option.isSome_iff_exists.1 (hslot _ hm _ hk')
    rcases PFC.slot_sound ord so m _ hp _ _ hsl with ⟨z, i, hz, _⟩ | ⟨k', i, hz, _, hki⟩
    · cases hz
    · cases hz
      rw [hpn]; exact List.mem_of_getElem? hki
  · intro k hk
    rw [hpn, hpar, List.mem_filter] at hk
    have := hk.2
    rw [decide_eq_true_eq, PFC.mem_par] at this
    obtain ⟨e, he, hke⟩ := this
    rw [h2] at he
    obtain ⟨e0, he0, rfl⟩ := List.mem_map.1 he
    rcases PFC.syms_subsSeq _ _ _ hke with hs | ⟨q, hq, hs⟩
    · exact .inl ⟨e0, he0, hs⟩
    · obtain ⟨_, _, _, d, hd, _, e⟩ := h3 q hq
      exact .inr ⟨d, hd, e ▸ hs⟩

/-- **C121**: when a steady-state symbol has no stated value, the message names exactly those without one -/
theorem C121_unsolved (ord so) (m : PFModel) (bad : List TSym) (h : compileProblem ord so m = .error (.noAnalytic bad)) :
    bad ≠ [] ∧ ∀ x, x ∈ bad ↔ (∃ e ∈ m.eqs, x ∈ e.tsyms) ∧ x.idx = .ss ∧ ¬ m.States x := by
  have hsub : substituteSS so m.eqs m.ssDict = .error (.noAnalytic bad) := by
    have hck : ∀ (p : PFParts) o e, p.check o = .error e → ∀ b, e ≠ .noAnalytic b := by
      intro p o e hh b hb
      subst hb
      unfold PFParts.check at hh
      split at hh
      · cases hh
      · split at hh
        · cases hh
        · split at hh <;> cases hh
    have hparts : ∀ e, pfParts ord so m = .error e → e = .noAnalytic bad → substituteSS so m.eqs m.ssDict = .error (.noAnalytic bad) := by
      intro e hh he
      unfold pfParts at hh
      split at hh
      · rename_i e' h'; cases hh; rw [h', he]
      · split at hh
        · cases hh; cases he
        · cases hh
    unfold compileProblem compileSinglePeriod compileResidualOnly at h
    cases hp : pfParts ord so m with
    | error e =>
      rw [hp] at h
      exact hparts e hp (Except.error.inj h)
    | ok p =>
      rw [hp] at h
      dsimp only at h
      split at h
      · rename_i e he
        split at he
        · rename_i e' hk
          cases he
          exact absurd (Except.error.inj h) (hck _ _ _ hk _)
        · cases he
      · split at h
        · rename_i e he
          split at he
          · rename_i e' hk
            cases he
            exact absurd (Except.error.inj h) (hck _ _ _ hk _)
          · cases he
        · cases h
  unfold substituteSS at hsub
  dsimp only at hsub
  split at hsub
  · cases hsub
  · split at hsub
    · rename_i hr
      cases hsub
      refine ⟨hr, fun x => ?_⟩
      rw [List.mem_filter, List.mem_eraseDups, List.mem_filter, List.mem_flatMap, decide_not, Bool.not_eq_true', decide_eq_false_iff_not]
      simp only [decide_eq_true_eq]
      constructor
      · rintro ⟨⟨hx, hi⟩, hk⟩
        refine ⟨hx, hi, fun ⟨p, hp, hn⟩ => hk ?_⟩
        obtain ⟨q, hq⟩ := Option.isSome_iff_exists.1 (List.find?_isSome.2 ⟨p, hp, by simpa using hn⟩ : (m.ssDict.find? fun p => decide (symName (safeToSS p.1) = createName x)).isSome)
        refine List.mem_map.2 ⟨(Sym.tv x, q.2), List.mem_filterMap.2 ⟨x, ?_, by rw [hq]; rfl⟩, rfl⟩
        rw [List.mem_eraseDups, List.mem_filter, List.mem_flatMap]
        exact ⟨hx, by simpa using hi⟩
      · rintro ⟨hx, hi, hn⟩
        refine ⟨⟨hx, hi⟩, fun hk => hn ?_⟩
        obtain ⟨q, hq, he⟩ := List.mem_map.1 hk
        obtain ⟨a, ha, hq⟩ := List.mem_filterMap.1 hq
        rw [Option.map_eq_some_iff] at hq
        obtain ⟨q', hq', rfl⟩ := hq
        have : a = x := by simpa using he
        subst this
        exact ⟨q', List.mem_of_find?_eq_some hq', by simpa using List.find?_some hq'⟩
    · cases hsub

/-- **C121**, fails: a model with a calibrated parameter in an equation has no perfect-foresight problem: only free and deterministic
parameters are offered as inputs -/
theorem C121_calibrated_violated (ord so) (hord : ∀ l, (ord l).Perm l) (hso : ∀ l, (so l).Perm l) (m : PFModel) (hpl : m.PlainValues)
    (hnd : (m.params ++ m.determ).Nodup) (e : SExpr) (he : e ∈ m.eqs) (k : Str) (hk : Sym.par k ∈ e.syms) (hc : k ∉ m.params ++ m.determ) :
    ∀ cf, compileProblem ord so m ≠ .ok cf :=
  fun cf h => hc (((C121_compiles ord so hord hso m hpl hnd).1 ⟨cf, h⟩).2.2 e he k hk)

namespace PFC

/-- the current variable `n` -/
def sym (n : Str) (k : Int) : SExpr := .sym (.tv ⟨n, .t k, []⟩)

/-- `Y[] = e[-1]` -/
def lagged : PFModel := { eqs := [.add (sym ['Y'] 0) (.mul (.num (-1)) (sym ['e'] (-1)))], shocks := [⟨['e'], .t 0, []⟩], params := [], determ := [], ssDict := [] }

/-- `K[] = g * K[-1] + e[] + C[1] - C[] + Z[ss]` and `C[] = exp(K[])`, with `Z[ss] = h` stated -/
def big : PFModel where
  eqs := [.add (sym ['K'] 0) (.mul (.num (-1)) (.add (.mul (.sym (.par ['g'])) (sym ['K'] (-1))) (.add (sym ['e'] 0) (.add (sym ['C'] 1)
    (.add (.mul (.num (-1)) (sym ['C'] 0)) (.sym (.tv ⟨['Z'], .ss, []⟩))))))), .add (sym ['C'] 0) (.mul (.num (-1)) (.exp (sym ['K'] 0)))]
  shocks := [⟨['e'], .t 0, []⟩]
  params := [['g'], ['q']]
  determ := [['h']]
  ssDict := [(.tv ⟨['Z'], .ss, []⟩, .sym (.par ['h']))]

end PFC

/-- **C121**, fails: a shock of the period before reads the current value of its path. `Y[] = e[-1]` is solved as `Y[] = e[]` -/
theorem C121_lagged_shock_violated : ∃ c f, compileProblem id id PFC.lagged = .ok (c, f) ∧ c.varNames = [['Y']] ∧ c.shockNames = [['e']] ∧
    ∀ a : PeriodArgs ℝ, f.residual a 0 = a.yNow 0 - a.x 0 := by
  have h : ∃ cf, compileProblem id id PFC.lagged = .ok cf := by
    refine (C121_compiles id id (fun _ => .refl _) (fun _ => .refl _) PFC.lagged (by intro p hp; cases hp) (by decide)).2 ⟨by simp [PFC.lagged], ?_, ?_⟩
    · intro e he x hx
      simp only [PFC.lagged, List.mem_singleton] at he
      subst he
      simp only [PFC.sym, SExpr.tsyms, SExpr.syms, List.cons_append, List.nil_append, List.filterMap_cons, List.filterMap_nil, List.mem_cons,
        List.not_mem_nil, or_false] at hx
      rcases hx with rfl | rfl
      · exact .inr ⟨.inr (.inl rfl), .inr ⟨_, by simp [PFC.lagged]; rfl, ⟨['Y'], .t 0, []⟩, by simp [PFC.sym, SExpr.tsyms, SExpr.syms], rfl, rfl⟩⟩
      · exact .inr ⟨.inl rfl, .inl (by simp [PFC.lagged])⟩
    · intro e he k hk
      simp only [PFC.lagged, List.mem_singleton] at he
      subst he
      simp [PFC.sym, SExpr.syms] at hk
  obtain ⟨⟨c, f⟩, h⟩ := h
  obtain ⟨hf, hp, hv, hs, _⟩ := PFC.compile_ok _ _ _ c f h
  have hparts : pfParts id id PFC.lagged = .ok ⟨PFC.lagged.eqs, ⟨[], [⟨['Y'], .t 0, []⟩], [], [⟨['e'], .t (-1), []⟩]⟩, []⟩ := by rfl
  rw [hp] at hparts
  have hpe := Except.ok.inj hparts
  refine ⟨c, f, h, by rw [hv, hpe]; rfl, by rw [hs, hpe]; rfl, fun a => ?_⟩
  have e1 : f = ⟨PFC.lagged.eqs, ⟨[], [⟨['Y'], .t 0, []⟩], [], [⟨['e'], .t (-1), []⟩]⟩, []⟩ := hf.trans hpe
  have s1 : f.slot (Sym.tv ⟨['Y'], .t 0, []⟩).node = some (.now 0) := by rw [e1]; rfl
  have s2 : f.slot (Sym.tv ⟨['e'], .t (-1), []⟩).node = some (.shock 0) := by rw [e1]; rfl
  have : f.residual a 0 = (SExpr.add (PFC.sym ['Y'] 0) (.mul (.num (-1)) (PFC.sym ['e'] (-1)))).eval (f.env a) := by
    unfold PFParts.residual
    rw [e1]; rfl
  rw [this]
  simp only [PFC.sym, SExpr.eval, PFParts.env, s1, s2, Option.map_some, Option.getD_some, Slot.read]
  push_cast
  ring

/-- the hypotheses are met: a model with a lag, a lead, a shock, parameters and a stated steady-state value compiles; the names and the
residuals at any arguments -/
example : ∃ c f, compileProblem id id PFC.big = .ok (c, f) ∧ c.varNames = [['C'], ['K']] ∧ c.paramNames = [['g'], ['h']] ∧ PFC.big.ShocksNow ∧
    PFC.big.PlainValues ∧ SameAssumptions PFC.big.atoms ∧
    ∀ a : PeriodArgs ℝ, ∃ σ, a.Says c.varNames c.shockNames c.paramNames σ ∧ MeetsSS PFC.big.ssDict σ ∧
      f.residual a 1 = a.yNow 0 - Real.exp (a.yNow 1) := by
  have hpl : PFC.big.PlainValues := by
    intro p hp s hs
    simp only [PFC.big, List.mem_singleton] at hp
    subst hp
    simp only [SExpr.syms, List.mem_singleton] at hs
    exact ⟨['h'], by simp [PFC.big], hs⟩
  have hatoms : PFC.big.atoms = [⟨['K'], .t 0, []⟩, ⟨['K'], .t (-1), []⟩, ⟨['e'], .t 0, []⟩, ⟨['C'], .t 1, []⟩, ⟨['C'], .t 0, []⟩,
      ⟨['Z'], .ss, []⟩, ⟨['C'], .t 0, []⟩, ⟨['K'], .t 0, []⟩] := by rfl
  have hsh : PFC.big.ShocksNow := by
    intro x hx hb k hk
    rw [hatoms] at hx
    simp only [List.mem_cons, List.not_mem_nil, or_false] at hx
    simp only [PFC.big, List.map_cons, List.map_nil, List.mem_singleton] at hb
    rcases hx with rfl | rfl | rfl | rfl | rfl | rfl | rfl | rfl <;> simp_all
  have hasm : SameAssumptions PFC.big.atoms := by
    rw [hatoms]
    intro x hx y hy _
    simp only [List.mem_cons, List.not_mem_nil, or_false] at hx hy
    have h1 : x.asm = [] := by rcases hx with rfl | rfl | rfl | rfl | rfl | rfl | rfl | rfl <;> rfl
    have h2 : y.asm = [] := by rcases hy with rfl | rfl | rfl | rfl | rfl | rfl | rfl | rfl <;> rfl
    rw [h1, h2]
  have h : ∃ cf, compileProblem id id PFC.big = .ok cf := by
    refine (C121_compiles id id (fun _ => .refl _) (fun _ => .refl _) PFC.big hpl (by decide)).2 ⟨by simp [PFC.big], ?_, ?_⟩
    · intro e he x hx
      have hx' : x ∈ PFC.big.atoms := List.mem_flatMap.2 ⟨e, List.mem_append_left _ he, hx⟩
      have hK : ∃ e' ∈ PFC.big.eqs, ∃ y ∈ e'.tsyms, y.base = ['K'] ∧ y.idx = .t 0 := ⟨_, List.mem_cons_self .., ⟨['K'], .t 0, []⟩, by simp [PFC.sym, SExpr.tsyms, SExpr.syms], rfl, rfl⟩
      have hC : ∃ e' ∈ PFC.big.eqs, ∃ y ∈ e'.tsyms, y.base = ['C'] ∧ y.idx = .t 0 := ⟨_, List.mem_cons_self .., ⟨['C'], .t 0, []⟩, by simp [PFC.sym, SExpr.tsyms, SExpr.syms], rfl, rfl⟩
      rw [hatoms] at hx'
      simp only [List.mem_cons, List.not_mem_nil, or_false] at hx'
      rcases hx' with rfl | rfl | rfl | rfl | rfl | rfl | rfl | rfl
      · exact .inr ⟨.inr (.inl rfl), .inr hK⟩
      · exact .inr ⟨.inl rfl, .inr hK⟩
      · exact .inr ⟨.inr (.inl rfl), .inl (by simp [PFC.big])⟩
      · exact .inr ⟨.inr (.inr rfl), .inr hC⟩
      · exact .inr ⟨.inr (.inl rfl), .inr hC⟩
      · exact .inl ⟨rfl, _, List.mem_cons_self .., rfl⟩
      · exact .inr ⟨.inr (.inl rfl), .inr hC⟩
      · exact .inr ⟨.inr (.inl rfl), .inr hK⟩
    · intro e he k hk
      simp only [PFC.big, List.mem_cons, List.not_mem_nil, or_false] at he
      rcases he with rfl | rfl <;> simp [PFC.sym, SExpr.syms] at hk
      subst hk; decide
  obtain ⟨⟨c, f⟩, h⟩ := h
  obtain ⟨hf, hp, hv, hs, hpn, _⟩ := PFC.compile_ok _ _ _ c f h
  have hparts : (∃ p, pfParts id id PFC.big = .ok p ∧ p.timing.now = [⟨['C'], .t 0, []⟩, ⟨['K'], .t 0, []⟩] ∧ p.timing.shocks = [⟨['e'], .t 0, []⟩] ∧
      p.params = [['g'], ['h']]) := ⟨_, rfl, by rfl, by rfl, by rfl⟩
  obtain ⟨p, hp', h1, h2, h3⟩ := hparts
  rw [hp] at hp'
  have hpe := Except.ok.inj hp'
  have ev : c.varNames = [['C'], ['K']] := by rw [hv, hpe, h1]; rfl
  have es : c.shockNames = [['e']] := by rw [hs, hpe, h2]; rfl
  have ep : c.paramNames = [['g'], ['h']] := by rw [hpn, hpe, h3]
  refine ⟨c, f, h, ev, ep, hsh, hpl, hasm, fun a => ?_⟩
  let σ : Sym → ℝ := fun s => match s with
    | .par n => if n = ['g'] then a.params 0 else a.params 1
    | .tv x => if x.idx = .ss then a.params 1 else if x.base = ['e'] then a.x 0 else
        let i := if x.base = ['C'] then 0 else 1
        if x.idx = .t (-1) then a.yPrev i else if x.idx = .t 0 then a.yNow i else a.yNext i
  have hσ : a.Says c.varNames c.shockNames c.paramNames σ := by
    rw [ev, es, ep]
    refine ⟨?_, ?_, ?_, ?_, ?_⟩
    · intro i n asm hi
      rcases i with _ | _ | i <;> simp at hi <;> subst hi <;> simp [σ]
    · intro i n asm hi
      rcases i with _ | _ | i <;> simp at hi <;> subst hi <;> simp [σ]
    · intro i n asm hi
      rcases i with _ | _ | i <;> simp at hi <;> subst hi <;> simp [σ]
    · intro i n asm hi
      rcases i with _ | i <;> simp at hi
      subst hi; simp [σ]
    · intro i n hi
      rcases i with _ | _ | i <;> simp at hi <;> subst hi <;> simp [σ]
  have hss : MeetsSS PFC.big.ssDict σ := by
    intro p hp x hx _
    simp only [PFC.big, List.mem_singleton] at hp
    subst hp
    simp [σ, hx, SExpr.eval]
  refine ⟨σ, hσ, hss, ?_⟩
  rw [(C121_residual id id (fun _ => .refl _) (fun _ => .refl _) PFC.big c f h hsh a σ hσ hss 1 _ rfl).2]
  simp [PFC.sym, SExpr.eval, σ]
  ring

end GE
