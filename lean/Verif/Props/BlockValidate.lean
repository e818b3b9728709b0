import Verif.Props.Primitives
import Verif.Props.Calibration
/-! # C67: which blocks are accepted; supplements to C16, C21, C49, C53, C54, C55 -/

namespace GE

/-! ## C67 -/

/-- the tags on equation number `k` are recorded and are all among the allowed ones -/
def TagsWithin (flags : List (Nat × Flags)) (mayExclude mayOptimise : Prop) (k : Nat) : Prop :=
  ∃ f, dget flags k = some f ∧ f.isCalibrating = false ∧ (f.exclude = true → mayExclude) ∧
    (f.minimize = true → mayOptimise) ∧ (f.maximize = true → mayOptimise)

/-- what the documentation asks of a block: controls and objective come together, there is at most one objective, every control is
used in a definition, the objective or a constraint, `@exclude` only on constraints, `@minimize`/`@maximize` only on the objective
and not both, no calibrating arrow outside the calibration component -/
structure WellFormedBlock (B : Block) : Prop where
  both : B.objective.isSome ↔ B.controls.isSome
  one : ∀ os, B.objective = some os → os.length ≤ 1
  used : ∀ cs, B.controls = some cs → ∀ c ∈ cs, ∃ comp ∈ [B.definitions, B.objective, B.constraints], ∃ l, comp = some l ∧
    ∃ p ∈ l, Sym.tv c ∈ p.2.lhs.syms ∨ Sym.tv c ∈ p.2.rhs.syms
  definitions : ∀ l, B.definitions = some l → ∀ p ∈ l, TagsWithin B.flags False False p.1
  identities : ∀ l, B.identities = some l → ∀ p ∈ l, TagsWithin B.flags False False p.1
  constraints : ∀ l, B.constraints = some l → ∀ p ∈ l, TagsWithin B.flags True False p.1
  objective : ∀ l, B.objective = some l → ∀ p ∈ l, TagsWithin B.flags False True p.1 ∧
    ∀ f, dget B.flags p.1 = some f → ¬ (f.minimize = true ∧ f.maximize = true)

namespace BVal

theorem forM_ok {α ε : Type} (f : α → Except ε Unit) : ∀ l : List α, l.forM f = .ok () ↔ ∀ x ∈ l, f x = .ok ()
  | [] => by simp [List.forM_eq_forM, pure, Except.pure]
  | a :: l => by
    have ih := forM_ok f l
    rw [List.forM_eq_forM] at ih ⊢
    simp only [List.forM_cons, List.mem_cons, forall_eq_or_imp, ← ih]
    cases h : f a with
    | error e => simp [bind, Except.bind]
    | ok u => simp [bind, Except.bind]

theorem bind_ok {α β ε : Type} (x : Except ε α) (k : α → Except ε β) (b : β) :
    (x >>= k) = .ok b ↔ ∃ a, x = .ok a ∧ k a = .ok b := by
  cases x <;> simp [bind, Except.bind]

theorem getD_all {α : Type} (o : Option (List α)) (P : α → Prop) : (∀ x ∈ o.getD [], P x) ↔ ∀ l, o = some l → ∀ x ∈ l, P x := by
  cases o <;> simp

theorem flagsAllowed_ok (me mo : Bool) (flags : List (Nat × Flags)) (d : Option (List (Nat × SEq))) :
    flagsAllowed me mo flags d = .ok () ↔ ∀ l, d = some l → ∀ p ∈ l, TagsWithin flags (me = true) (mo = true) p.1 := by
  unfold flagsAllowed
  rw [forM_ok, getD_all]
  refine forall_congr' fun l => forall_congr' fun _ => forall_congr' fun p => forall_congr' fun _ => ?_
  unfold TagsWithin
  cases dget flags p.1 with
  | none => simp
  | some f =>
    rcases f with ⟨a, b, c, d⟩
    cases a <;> cases b <;> cases c <;> cases d <;> cases me <;> cases mo <;> simp

end BVal
open BVal

/-- **C67** a block is accepted exactly when it is well formed. -/
theorem C67_accepted_iff (B : Block) : B.validate = .ok () ↔ WellFormedBlock B := by
  have hv : B.validate = .ok () ↔
      (¬ (B.objective.isSome = true ∧ B.controls.isNone = true) ∧ ¬ (B.objective.isNone = true ∧ B.controls.isSome = true) ∧
       ¬ (B.objective.getD []).length > 1) ∧
      ((B.controls.getD []).forM (fun c =>
        if (dvals B.definitions ++ dvals B.objective ++ dvals B.constraints).any fun e => e.syms.contains (.tv c) then .ok ()
        else (throw (.controlNotFound c) : Except BErr Unit)) = .ok () ∧
      flagsAllowed false false B.flags B.definitions = .ok () ∧ flagsAllowed false true B.flags B.objective = .ok () ∧
      flagsAllowed true false B.flags B.constraints = .ok () ∧ flagsAllowed false false B.flags B.identities = .ok () ∧
      ((B.objective.getD []).forM (fun p =>
        match dget B.flags p.1 with
        | none => (.error .keyError : Except BErr Unit)
        | some f => if f.minimize && f.maximize then (.error .valueError : Except BErr Unit) else .ok ()) = .ok ())) := by
    unfold Block.validate
    by_cases h1 : B.objective.isSome && B.controls.isNone
    · simp [h1, throw, throwThe, MonadExceptOf.throw, bind, Except.bind]
      intro h; simp [h] at h1; intro h2; simp_all
    · by_cases h2 : B.objective.isNone && B.controls.isSome
      · simp [h1, h2, throw, throwThe, MonadExceptOf.throw, bind, Except.bind]
        simp at h2; intro h; simp [h2.1] at h; obtain ⟨_, h2⟩ := h2; revert h2; cases B.controls <;> simp_all
      · by_cases h3 : (B.objective.getD []).length > 1
        · simp [h1, h2, h3, throw, throwThe, MonadExceptOf.throw, bind, Except.bind]
        · have h1' : ¬ (B.objective.isSome = true ∧ B.controls.isNone = true) := by simpa using h1
          have h2' : ¬ (B.objective.isNone = true ∧ B.controls.isSome = true) := by simpa using h2
          simp only [h1, h2, h3, if_false, Bool.false_eq_true, pure_bind, bind_ok, h1', h2', not_false_iff, true_and, exists_const]
          constructor
          · rintro ⟨a, ha, ⟨b, hb, c, hc, d, hd, e, he, hf⟩⟩; exact ⟨ha, hb, hc, hd, he, hf⟩
          · rintro ⟨ha, hb, hc, hd, he, hf⟩; exact ⟨(), ha, (), hb, (), hc, (), hd, (), he, hf⟩
  rw [hv]
  simp only [forM_ok, getD_all, flagsAllowed_ok]
  have hused : ∀ c : TSym, ((dvals B.definitions ++ dvals B.objective ++ dvals B.constraints).any fun e => e.syms.contains (.tv c)) = true ↔
      ∃ comp ∈ [B.definitions, B.objective, B.constraints], ∃ l, comp = some l ∧ ∃ p ∈ l, Sym.tv c ∈ p.2.lhs.syms ∨ Sym.tv c ∈ p.2.rhs.syms := by
    intro c
    simp only [List.any_append, Bool.or_eq_true, List.any_eq_true, List.mem_cons, List.not_mem_nil, or_false, exists_eq_or_imp, exists_eq_left,
      SEq.syms, dvals, List.contains_iff_mem, List.mem_append, List.mem_map]
    have : ∀ o : Option (List (Nat × SEq)), (∃ x, (∃ a, a ∈ o.getD [] ∧ a.2 = x) ∧ (Sym.tv c ∈ x.lhs.syms ∨ Sym.tv c ∈ x.rhs.syms)) ↔
        ∃ l, o = some l ∧ ∃ p ∈ l, Sym.tv c ∈ p.2.lhs.syms ∨ Sym.tv c ∈ p.2.rhs.syms := by
      intro o
      cases o with
      | none => simp
      | some l =>
        simp only [Option.getD_some, Option.some.injEq, exists_eq_left']
        constructor
        · rintro ⟨_, ⟨a, h, rfl⟩, h2⟩; exact ⟨a, h, h2⟩
        · rintro ⟨a, h, h2⟩; exact ⟨_, ⟨a, h, rfl⟩, h2⟩
    rw [this, this, this, or_assoc]
  constructor
  · rintro ⟨⟨h1, h2, h3⟩, h4, h5, h6, h7, h8, h9⟩
    refine ⟨?_, ?_, ?_, ?_, ?_, ?_, ?_⟩
    · cases ho : B.objective <;> cases hc : B.controls <;> simp_all
    · intro os ho; rw [ho] at h3; simpa using h3
    · intro cs hcs c hc
      have := h4 cs hcs c hc
      rw [← hused]
      by_contra hn
      rw [if_neg hn] at this; cases this
    · simpa using h5
    · simpa using h8
    · simpa using h7
    · intro l hl p hp
      refine ⟨by simpa using h6 l hl p hp, ?_⟩
      intro f hf ⟨hm, hM⟩
      have := h9 l hl p hp
      rw [hf] at this
      simp [hm, hM] at this
  · rintro ⟨h1, h2, h3, h4, h5, h6, h7⟩
    refine ⟨⟨?_, ?_, ?_⟩, ?_, by simpa using h4, ?_, by simpa using h6, by simpa using h5, ?_⟩
    · cases ho : B.objective <;> cases hc : B.controls <;> simp_all
    · cases ho : B.objective <;> cases hc : B.controls <;> simp_all
    · cases ho : B.objective with
      | none => simp
      | some os => have := h2 os ho; simpa using this
    · intro cs hcs c hc
      rw [if_pos ((hused c).mpr (h3 cs hcs c hc))]
    · intro l hl p hp; simpa using (h7 l hl p hp).1
    · intro l hl p hp
      obtain ⟨⟨f, hf, _⟩, hn⟩ := h7 l hl p hp
      have := hn f hf
      rw [hf]
      cases h1 : f.minimize <;> cases h2 : f.maximize <;> simp_all

/-- **C67** the documented exception for an incomplete optimisation problem, for too many objectives, and for a control that occurs nowhere. -/
theorem C67_errors (B : Block) :
    (¬ (B.objective.isSome ↔ B.controls.isSome) → B.validate = .error .optimizationProblemNotDefined) ∧
    ((B.objective.isSome ↔ B.controls.isSome) → ∀ os, B.objective = some os → 1 < os.length → B.validate = .error .multipleObjectives) ∧
    (∀ c, B.validate = .error (.controlNotFound c) → (∃ cs, B.controls = some cs ∧ c ∈ cs) ∧
      ∀ comp ∈ [B.definitions, B.objective, B.constraints], ∀ l, comp = some l → ∀ p ∈ l, Sym.tv c ∉ p.2.lhs.syms ∧ Sym.tv c ∉ p.2.rhs.syms) := by
  refine ⟨?_, ?_, ?_⟩
  · intro h
    unfold Block.validate
    cases ho : B.objective <;> cases hc : B.controls <;> simp [ho, hc] at h
    · simp [throw, throwThe, MonadExceptOf.throw, bind, Except.bind]
    · simp [throw, throwThe, MonadExceptOf.throw, bind, Except.bind]
  · intro h os ho hl
    unfold Block.validate
    rw [ho] at h
    cases hc : B.controls <;> simp [hc] at h
    simp [ho, hl, throw, throwThe, MonadExceptOf.throw, bind, Except.bind]
  · intro c h
    have hforM : ∀ {α : Type} (f : α → Except BErr Unit) (l : List α) e, l.forM f = .error e → ∃ x ∈ l, f x = .error e := by
      intro α f l e
      rw [List.forM_eq_forM]
      induction l with
      | nil => simp [pure, Except.pure]
      | cons a l ih =>
        simp only [List.forM_cons]
        cases ha : f a with
        | error e' =>
          simp only [bind, Except.bind]
          intro he
          exact ⟨a, by simp, by rw [ha]; exact congrArg _ (by cases he; rfl)⟩
        | ok u =>
          simp only [bind, Except.bind]
          intro he
          obtain ⟨x, hx, hfx⟩ := ih he
          exact ⟨x, by simp [hx], hfx⟩
    have hflag : ∀ me mo d, flagsAllowed me mo B.flags d ≠ .error (.controlNotFound c) := by
      intro me mo d hE
      obtain ⟨p, _, hp⟩ := hforM _ _ _ hE
      cases hf : dget B.flags p.1 with
      | none => simp [hf] at hp
      | some f => simp only [hf] at hp; split at hp <;> (try split at hp) <;> (try split at hp) <;> (try split at hp) <;> simp at hp
    have hbind : ∀ {α β : Type} (x : Except BErr α) (k : α → Except BErr β) e, (x >>= k) = .error e → x = .error e ∨ ∃ a, x = .ok a ∧ k a = .error e := by
      intro α β x k e hx
      cases x with
      | error e' => left; simp [bind, Except.bind] at hx; rw [hx]
      | ok a => right; exact ⟨a, rfl, by simpa [bind, Except.bind] using hx⟩
    unfold Block.validate at h
    by_cases h1 : B.objective.isSome && B.controls.isNone
    · simp [h1, throw, throwThe, MonadExceptOf.throw, bind, Except.bind] at h
    by_cases h2 : B.objective.isNone && B.controls.isSome
    · simp [h1, h2, throw, throwThe, MonadExceptOf.throw, bind, Except.bind] at h
    by_cases h3 : (B.objective.getD []).length > 1
    · simp [h1, h2, h3, throw, throwThe, MonadExceptOf.throw, bind, Except.bind] at h
    simp only [h1, h2, h3, if_false, Bool.false_eq_true, pure_bind] at h
    rcases hbind _ _ _ h with h | ⟨_, _, h⟩
    · obtain ⟨c', hc', hx⟩ := hforM _ _ _ h
      split at hx
      · cases hx
      · rename_i hany
        have : c' = c := by simpa [throw, throwThe, MonadExceptOf.throw] using hx
        subst this
        constructor
        · cases hcc : B.controls with
          | none => simp [hcc] at hc'
          | some cs => exact ⟨cs, rfl, by simpa [hcc] using hc'⟩
        · intro comp hcomp l hl p hp
          rw [Bool.not_eq_true, List.any_eq_false] at hany
          have hmem : p.2 ∈ dvals B.definitions ++ dvals B.objective ++ dvals B.constraints := by
            simp only [List.mem_append, dvals, List.mem_map]
            simp only [List.mem_cons, List.not_mem_nil, or_false] at hcomp
            rcases hcomp with rfl | rfl | rfl
            · exact .inl (.inl ⟨p, by simp [hl, hp], rfl⟩)
            · exact .inl (.inr ⟨p, by simp [hl, hp], rfl⟩)
            · exact .inr ⟨p, by simp [hl, hp], rfl⟩
          have := hany _ hmem
          simp only [List.contains_iff_mem, SEq.syms, List.mem_append, not_or] at this
          exact this
    rcases hbind _ _ _ h with h | ⟨_, _, h⟩
    · exact absurd h (hflag _ _ _)
    rcases hbind _ _ _ h with h | ⟨_, _, h⟩
    · exact absurd h (hflag _ _ _)
    rcases hbind _ _ _ h with h | ⟨_, _, h⟩
    · exact absurd h (hflag _ _ _)
    rcases hbind _ _ _ h with h | ⟨_, _, h⟩
    · exact absurd h (hflag _ _ _)
    obtain ⟨p, _, hp⟩ := hforM _ _ _ h
    cases hf : dget B.flags p.1 with
    | none => simp [hf] at hp
    | some f => simp only [hf] at hp; split at hp <;> simp at hp

/-- non-vacuity: a household with one control, an objective and a constraint is well formed -/
example : WellFormedBlock
    { name := ['H'], controls := some [⟨['C'], .t 0, []⟩]
      objective := some [(0, ⟨.sym (.tv ⟨['U'], .t 0, []⟩), .sym (.tv ⟨['C'], .t 0, []⟩)⟩)]
      constraints := some [(1, ⟨.sym (.tv ⟨['C'], .t 0, []⟩), .num 1⟩)]
      flags := [(0, { maximize := true }), (1, { exclude := true })] } := by
  rw [← C67_accepted_iff]; decide +kernel

/-- and one whose control is only used in the identities is not -/
example : ¬ WellFormedBlock
    { name := ['H'], controls := some [⟨['C'], .t 0, []⟩]
      objective := some [(0, ⟨.sym (.tv ⟨['U'], .t 0, []⟩), .num 1⟩)]
      identities := some [(1, ⟨.sym (.tv ⟨['C'], .t 0, []⟩), .num 1⟩)]
      flags := [(0, {}), (1, {})] } := by
  rw [← C67_accepted_iff]; decide +kernel

/-- **C67** every block of a loaded model is well formed: what the parser hands over passed the check. -/
theorem C67_constructed (asm : List (Str × Asm)) (ss : List (TSym × SExpr)) (b : Blk) (r : Built) (h : constructBlock asm ss b = .ok r) :
    ∃ B0, astBlockToBlock asm (expandBlock b) = .ok B0 ∧ WellFormedBlock B0 := by
  unfold constructBlock at h
  cases h1 : astBlockToBlock asm (expandBlock b) with
  | error e => simp [h1] at h
  | ok B0 =>
    refine ⟨B0, rfl, ?_⟩
    rw [← C67_accepted_iff]
    cases h2 : B0.validate with
    | error e => simp [h1, h2] at h
    | ok u => rfl

/-! ## C49: definitions that use other definitions -/

namespace BVal

theorem defDict_get (ds : List SEq) (hn : (ds.map SEq.lhs).Nodup) (k : Sym) (v : SExpr) :
    dget (defDict ds) k = some v ↔ ∃ e ∈ ds, e.lhs = .sym k ∧ e.rhs = v := by
  have gen : ∀ (ds : List SEq) (acc : List (Sym × SExpr)), (ds.map SEq.lhs).Nodup →
      dget (ds.foldl (fun d e => match e.lhs with | .sym s => dset d s e.rhs | _ => d) acc) k =
        match ds.find? fun e => e.lhs = .sym k with | some e => some e.rhs | none => dget acc k := by
    intro ds
    induction ds with
    | nil => intro acc _; rfl
    | cons e ds ih =>
      intro acc hn
      rw [List.map_cons, List.nodup_cons] at hn
      rw [List.foldl_cons, ih _ hn.2]
      by_cases he : e.lhs = .sym k
      · have : ds.find? (fun e => e.lhs = .sym k) = none := by
          rw [List.find?_eq_none]; intro x hx; simp only [decide_eq_true_eq]
          intro hxk; exact hn.1 (List.mem_map.mpr ⟨x, hx, hxk.trans he.symm⟩)
        rw [this]
        simp [he, dget_dset]
      · rw [List.find?_cons_of_neg (by simpa using he)]
        split
        · rfl
        · split
          · rename_i s hs
            rw [dget_dset, if_neg]
            rintro rfl; exact he hs
          · rfl
  have hg : dget (defDict ds) k = _ := gen ds [] hn
  rw [hg]
  constructor
  · intro h
    split at h
    · rename_i e he
      have h1 := List.find?_some he
      exact ⟨e, List.mem_of_find?_eq_some he, by simpa using h1, by simpa using h⟩
    · simp [dget] at h
  · rintro ⟨e, he, h1, rfl⟩
    have : ds.find? (fun e => e.lhs = .sym k) = some e := by
      cases hf : ds.find? (fun e => e.lhs = .sym k) with
      | none =>
        rw [List.find?_eq_none] at hf
        exact absurd h1 (by simpa using hf e he)
      | some e' =>
        have h2 := List.find?_some hf
        have h3 := List.mem_of_find?_eq_some hf
        simp only [decide_eq_true_eq] at h2
        congr 1
        obtain ⟨i, hi, rfl⟩ := List.mem_iff_getElem.mp he
        obtain ⟨j, hj, rfl⟩ := List.mem_iff_getElem.mp h3
        have := (List.Nodup.getElem_inj_iff hn (i := i) (j := j) (hi := by simpa using hi) (hj := by simpa using hj)).mp (by simp [h1, h2])
        subst this; rfl
    rw [this]

theorem defDict_key (ds : List SEq) (hn : (ds.map SEq.lhs).Nodup) (k : Sym) : k ∈ dkeys (defDict ds) ↔ ∃ e ∈ ds, e.lhs = .sym k := by
  rw [← dget_isSome, Option.isSome_iff_exists]
  constructor
  · rintro ⟨v, h⟩; obtain ⟨e, he, h1, _⟩ := (defDict_get ds hn k v).mp h; exact ⟨e, he, h1⟩
  · rintro ⟨e, he, h1⟩; exact ⟨_, (defDict_get ds hn k _).mpr ⟨e, he, h1, rfl⟩⟩

end BVal

/-- specification: the definition of `k` mentions `j`, which another definition introduces -/
def Uses (ds : List SEq) (k j : Sym) : Prop :=
  j ≠ k ∧ (∃ e ∈ ds, e.lhs = .sym k ∧ j ∈ e.rhs.syms) ∧ ∃ e ∈ ds, e.lhs = .sym j

/-- **C49** consolidating the definitions of a block: numbering and left-hand sides are kept, nothing else of the block changes, and each
right-hand side keeps its value wherever the block's definitions hold. -/
theorem C49_consolidate (B B' : Block) (ds : List (Nat × SEq)) (hB : B.definitions = some ds) (h : B.consolidate = .ok B') :
    ∃ ds', B' = { B with definitions := some ds' } ∧
      List.Forall₂ (fun p p' => p'.1 = p.1 ∧ p'.2.lhs = p.2.lhs ∧
        ∀ {K} (V : Valuation K) (t : Int), (∀ q ∈ ds, q.2.lhs.at V t = q.2.rhs.at V t) → p'.2.rhs.at V t = p.2.rhs.at V t) ds ds' := by
  unfold Block.consolidate at h
  rw [hB] at h
  simp only at h
  split at h
  · rename_i flat hf
    refine ⟨_, (Except.ok.inj h).symm, ?_⟩
    rw [List.forall₂_map_right_iff, List.forall₂_same]
    intro p _
    refine ⟨rfl, rfl, ?_⟩
    intro K V t hV
    refine subsSeq_same_value V t _ _ ?_
    intro q hq
    refine C15_same_values _ hf V t ?_ q.1 q.2 hq
    intro k v hk
    obtain ⟨e, he, h1, h2⟩ := Slv.defDict_mem _ _ (mem_of_dget _ _ _ hk)
    obtain ⟨q', hq', rfl⟩ := List.mem_map.mp he
    have := hV q' hq'
    simp only at h1 h2
    rw [h1] at this
    rw [h2]; exact this
  · cases h

/-- **C49** (partial) after consolidation no right-hand side mentions a symbol introduced by a definition, provided no symbol is defined
twice and no definition mentions its own symbol (the self-referring case violates this: `C15_self_reference_violated`). -/
theorem C49_consolidate_closed_partial (B B' : Block) (ds ds' : List (Nat × SEq)) (hB : B.definitions = some ds) (h : B.consolidate = .ok B')
    (hB' : B'.definitions = some ds') (hn : (ds.map fun p => p.2.lhs).Nodup) (hself : ∀ p ∈ ds, ∀ s, p.2.lhs = .sym s → s ∉ p.2.rhs.syms) :
    ∀ p ∈ ds', ∀ q ∈ ds, ∀ s, q.2.lhs = .sym s → s ∉ p.2.rhs.syms := by
  have hn' : ((ds.map Prod.snd).map SEq.lhs).Nodup := by rw [List.map_map]; exact hn
  unfold Block.consolidate at h
  rw [hB] at h
  simp only at h
  split at h
  · rename_i flat hf
    have := Except.ok.inj h
    subst this
    simp only [Option.some.injEq] at hB'
    subst hB'
    intro p hp q hq s hs hmem
    obtain ⟨p0, hp0, rfl⟩ := List.mem_map.mp hp
    have hkey : s ∈ dkeys (defDict (ds.map Prod.snd)) := (defDict_key _ hn' s).mpr ⟨q.2, List.mem_map.mpr ⟨q, hq, rfl⟩, hs⟩
    rcases syms_subsSeq _ _ _ hmem with ⟨_, h2⟩ | ⟨w, hw, h2⟩
    · exact h2 (((C15_keys _ hf).2 s).mpr hkey)
    · refine C15_resolved_partial _ hf ?_ w.1 w.2 hw s h2 hkey
      intro k v hk hkv
      obtain ⟨e, he, h3, h4⟩ := (defDict_get _ hn' k v).mp hk
      obtain ⟨e', he', rfl⟩ := List.mem_map.mp he
      exact hself e' he' k h3 (h4 ▸ hkv)
  · cases h

/-- **C49** definitions are rejected exactly when one of them depends, through others, on itself. -/
theorem C49_consolidate_error_iff (B : Block) (ds : List (Nat × SEq)) (hB : B.definitions = some ds) (hn : (ds.map fun p => p.2.lhs).Nodup) :
    (∃ e, B.consolidate = .error e) ↔ ∃ k, Relation.TransGen (Uses (ds.map Prod.snd)) k k := by
  have hn' : ((ds.map Prod.snd).map SEq.lhs).Nodup := by rw [List.map_map]; exact hn
  have hdep : ∀ k j, DependsOn (defDict (ds.map Prod.snd)) k j ↔ Uses (ds.map Prod.snd) k j := by
    intro k j
    unfold DependsOn Uses
    rw [defDict_key _ hn']
    refine and_congr_right fun _ => ?_
    rw [and_comm]
    refine and_congr_left fun _ => ?_
    constructor
    · rintro ⟨v, hv, hj⟩; obtain ⟨e, he, h1, rfl⟩ := (defDict_get _ hn' k v).mp hv; exact ⟨e, he, h1, hj⟩
    · rintro ⟨e, he, h1, hj⟩; exact ⟨_, (defDict_get _ hn' k _).mpr ⟨e, he, h1, rfl⟩, hj⟩
  have hdep' : DependsOn (defDict (ds.map Prod.snd)) = Uses (ds.map Prod.snd) := by funext k j; exact propext (hdep k j)
  rw [← hdep']
  change _ ↔ Circular _
  rw [← C15_cycle_iff]
  unfold Block.consolidate
  rw [hB]
  simp only
  cases hf : flattenSubs (defDict (ds.map Prod.snd)) with
  | none => exact absurd hf (flatten_total _)
  | some o => cases o <;> simp

/-- non-vacuity: `u[] = c[]`, `w[] = u[] + 1` is accepted, `w` no longer mentions `u` -/
example :
    let v := fun (n : Str) => Sym.tv ⟨n, .t 0, []⟩
    let B : Block := { name := ['B'], definitions := some [(0, ⟨.sym (v ['u']), .sym (v ['c'])⟩), (1, ⟨.sym (v ['w']), .add (.sym (v ['u'])) (.num 1)⟩)] }
    (B.consolidate.toOption.bind fun B => B.definitions) =
      some [(0, ⟨.sym (v ['u']), .sym (v ['c'])⟩), (1, ⟨.sym (v ['w']), .add (.sym (v ['c'])) (.num 1)⟩)] := by
  simp [Block.consolidate, Except.toOption, defDict, dset, flattenSubs, resolveLoop, resolve, dkeys, flatDeps, dget, SExpr.syms, List.eraseDups_cons,
    SExpr.subsSeq, SExpr.subs1, SExpr.replace]

/-! ## C21: computed parameters -/

/-- **C21** a formula for a parameter that is not a calibrating equation is rejected if it mentions a variable at any date other than the
steady state, or a steady-state variable for which the steady-state block gives no value. -/
theorem C21_computed_rejected (ss : List (TSym × SExpr)) (B : Block) (l1 l2 : List (Nat × SEq)) (p : Nat × SEq)
    (hB : B.calibration = some (l1 ++ p :: l2)) (hc : classOf B.flags p = .computed)
    (hv : ∃ v ∈ p.2.rhs.tsyms, v.idx ≠ .ss ∨ ∀ q ∈ ss, createName q.1 ≠ createName v) : ∃ e, B.paramDicts ss = .error e := by
  cases h : B.paramDicts ss with
  | error e => exact ⟨e, rfl⟩
  | ok r =>
    exfalso
    obtain ⟨_, _, h3, _⟩ := C21_classes ss B _ hB r h
    obtain ⟨v, hv, hne⟩ := hv
    have hm : p ∈ (l1 ++ p :: l2).filter fun p => classOf B.flags p = .computed := by simp [hc]
    have : ∀ (l : List (Nat × SEq)) (d : List (Sym × SExpr)),
        List.Forall₂ (fun (p : Nat × SEq) (q : Sym × SExpr) => p.2.lhs = .sym q.1 ∧ computedFrom ss p.2 q.2) l d → p ∈ l →
        ∃ r, computedFrom ss p.2 r := by
      intro l d hF hp
      induction hF with
      | nil => simp at hp
      | cons hh _ ih =>
        rcases List.mem_cons.mp hp with rfl | hp
        · exact ⟨_, hh.2⟩
        · exact ih hp
    obtain ⟨r', hr⟩ := this _ _ h3 hm
    have hvm : v ∈ (p.2.lhs.tsyms ++ p.2.rhs.tsyms).eraseDups := by simp [hv]
    rcases hr with ⟨h0, _⟩ | ⟨_, h1, _⟩
    · rw [List.mem_eraseDups] at hvm
      first
        | (rw [h0] at hvm; simp at hvm)
        | (simp only [List.append_eq_nil_iff] at h0; rw [h0.2] at hv; simp at hv)
        | (rw [h0] at hv; simp at hv)
    · unfold trySubsSS at h1
      simp only at h1
      split at h1
      · cases h1
      · rename_i hany
        split at h1
        · cases h1
        · split at h1
          · cases h1
          · rename_i d hd
            rcases hne with hne | hne
            · apply hany
              rw [List.any_eq_true]; exact ⟨v, hvm, by simpa using hne⟩
            · generalize (p.2.lhs.tsyms ++ p.2.rhs.tsyms).eraseDups = vs at hd hvm
              clear hany h1
              induction vs generalizing d with
              | nil => simp at hvm
              | cons w vs ih =>
                rw [List.mapM_cons] at hd
                cases hf : ss.find? fun p => createName p.1 = createName w with
                | none => simp [hf] at hd
                | some q =>
                  rcases List.mem_cons.mp hvm with rfl | hvm
                  · have h5 := List.find?_some hf
                    exact hne q (List.mem_of_find?_eq_some hf) (by simpa using h5)
                  · cases hm2 : (vs.mapM fun v => (ss.find? fun p => createName p.1 = createName v).map fun p => (Sym.tv v, p.2)) with
                    | none => simp [hf, hm2] at hd
                    | some d' => exact ih d' hm2 hvm

/-- non-vacuity: `d = K[]` -/
example (ss : List (TSym × SExpr)) :
    let B : Block := { name := ['H'], calibration := some [(0, ⟨.sym (.par ['d']), .sym (.tv ⟨['K'], .t 0, []⟩)⟩)], flags := [(0, {})] }
    ∃ e, B.paramDicts ss = .error e :=
  C21_computed_rejected ss _ [] [] _ rfl rfl ⟨⟨['K'], .t 0, []⟩, by simp [SExpr.tsyms, SExpr.syms], .inl (by simp)⟩

/-! ## C53, C54: which blocks are steady-state blocks -/

/-- specification: a name spells `w` (in capitals), whatever the case of its letters and wherever underscores are put -/
def Spells : Str → Str → Prop
  | [], w => w = []
  | c :: s, w => if c = '_' then Spells s w else ∃ w', w = c.toUpper :: w' ∧ Spells s w'

namespace BVal

theorem norm_spells : ∀ (s w : Str), normName s = w ↔ Spells s w
  | [], w => by simp [normName, Spells, eq_comm]
  | c :: s, w => by
    have ih := norm_spells s
    by_cases hc : c = '_'
    · subst hc
      have : normName ('_' :: s) = normName s := by
        simp [normName, show Char.toUpper '_' = '_' by decide]
      rw [this, ih]; simp [Spells]
    · have hu : c.toUpper ≠ '_' := by
        unfold Char.toUpper
        split
        · rename_i h
          intro he
          have h1 := congrArg Char.val he
          dsimp only at h1
          generalize hd : 'A'.val - 'a'.val = d at h1
          have h2 : c.val = '_'.val - d := by rw [← h1, UInt32.add_sub_cancel]
          rw [← hd] at h2
          have h3 := h.2
          rw [h2] at h3
          revert h3; decide
        · exact hc
      have : normName (c :: s) = c.toUpper :: normName s := by simp [normName, hu]
      rw [this]
      have hs : Spells (c :: s) w ↔ ∃ w', w = c.toUpper :: w' ∧ Spells s w' := by simp [Spells, hc]
      rw [hs]
      constructor
      · rintro rfl; exact ⟨_, rfl, (ih _).mp rfl⟩
      · rintro ⟨w', rfl, h⟩; rw [(ih w').mpr h]

end BVal

/-- **C53**, **C54** the blocks left out of the model's equations are those whose name spells `SS` or `STEADYSTATE`; the blocks used as
steady-state blocks are these and the ones whose name spells `STEADY`. -/
theorem C53_skipped_names (s : Str) : isSkippedName s = true ↔ Spells s "STEADYSTATE".toList ∨ Spells s "SS".toList := by
  simp only [← norm_spells]
  unfold isSkippedName
  rw [decide_eq_true_eq]
  simp only [List.mem_cons, List.not_mem_nil, or_false]; rfl

theorem C54_ss_names (s : Str) : isSSName s = true ↔ Spells s "STEADYSTATE".toList ∨ Spells s "SS".toList ∨ Spells s "STEADY".toList := by
  simp only [← norm_spells]
  unfold isSSName
  rw [decide_eq_true_eq]
  simp only [List.mem_cons, List.not_mem_nil, or_false]
  constructor
  · rintro (h | h | h | h)
    · exact .inl h
    · exact .inr (.inl h)
    · exact .inl h
    · exact .inr (.inr h)
  · rintro (h | h | h)
    · exact .inl h
    · exact .inr (.inl h)
    · exact .inr (.inr (.inr h))

/-- non-vacuity -/
example : Spells "steady_State".toList "STEADYSTATE".toList ∧ Spells "_ss".toList "SS".toList := by
  simp only [← norm_spells]; decide +kernel

/-! ## C55: shocks without hyper-priors -/

/-- **C55** a shock gets an entry exactly when it is `Normal` and one of its keywords names a parameter. -/
theorem C55_entry_iff (priors : List (Str × Dist)) (i : Dist) (hk : (dkeys i.kwargs).Nodup) :
    (createShockDist i priors).isSome ↔ i.dist = "Normal".toList ∧ ∃ k n, (k, .inr n) ∈ i.kwargs := by
  have hN : "Normal".toList = ['N','o','r','m','a','l'] := by decide
  rw [hN]
  constructor
  · intro h
    by_cases hd : i.dist = ['N','o','r','m','a','l']
    · refine ⟨hd, ?_⟩
      by_contra hno
      push Not at hno
      obtain ⟨_, e1, _, e3⟩ := Ldr.shockLoop_spec priors i.kwargs { name := i.param } hk (by simp [dget])
      have hemp : (shockLoop priors i.kwargs { name := i.param }).names = [] := by
        cases hc : (shockLoop priors i.kwargs { name := i.param }).names with
        | nil => rfl
        | cons a l =>
          exfalso
          have ha : dget (shockLoop priors i.kwargs { name := i.param }).names a.1 = some a.2 := by
            rw [hc]; simp [dget]
          by_cases hm : a.1 ∈ dkeys i.kwargs
          · obtain ⟨⟨k, v⟩, hkv, hka⟩ := List.mem_map.mp hm
            cases v with
            | inl q =>
              have := (e1 k q hkv).2.2
              simp only at hka
              rw [← hka, this] at ha; cases ha
            | inr n => exact hno k n hkv
          · rw [(e3 _ hm).2.2] at ha; simp [dget] at ha
      simp [createShockDist, hd, hemp] at h
    · simp [createShockDist, hd] at h
  · rintro ⟨hd, k, n, hkn⟩
    obtain ⟨s, hs, _⟩ := C55_shock priors i hd hk k n hkn
    rw [hs]; rfl

/-- non-vacuity -/
example : (createShockDist { param := ['e'], dist := "Normal".toList, kwargs := [(['m','u'], .inl 0), (['s'], .inr ['x'])] } []).isSome = true ∧
    (createShockDist { param := ['e'], dist := "Normal".toList, kwargs := [(['m','u'], .inl 0)] } []).isSome = false := by decide +kernel

end GE
