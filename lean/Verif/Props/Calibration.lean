import Verif.Props.ToBlock
import Verif.Props.Flatten
/-! # C21: every calibration equation ends up in exactly one parameter class -/

namespace GE

/-- the class of a calibration equation -/
inductive PClass where
  | numeric | calibrating | computed
  deriving DecidableEq

/-- specification: right-hand side without symbols: numeric; otherwise calibrating if written with `->`; otherwise computed -/
def classOf (flags : List (Nat × Flags)) (p : Nat × SEq) : PClass :=
  if p.2.rhs.syms = [] then .numeric
  else if ∃ f, dget flags p.1 = some f ∧ f.isCalibrating = true then .calibrating
  else .computed

/-- the value recorded for a computed parameter: the right-hand side itself, or, if it mentions steady-state variables, the
right-hand side with their analytic solutions substituted, no variable being left -/
def computedFrom (ss : List (TSym × SExpr)) (e : SEq) (r : SExpr) : Prop :=
  (e.lhs.tsyms ++ e.rhs.tsyms = [] ∧ r = e.rhs) ∨
  (e.lhs.tsyms ++ e.rhs.tsyms ≠ [] ∧ trySubsSS ss e = .ok r ∧ r.tsyms = [])

namespace Calibr

theorem split₂ {α β} (R : α → β → Prop) (l1 l2 : List α) (d : List β) (h : List.Forall₂ R (l1 ++ l2) d) :
    ∃ d1 d2, d = d1 ++ d2 ∧ List.Forall₂ R l1 d1 ∧ List.Forall₂ R l2 d2 := by
  induction l1 generalizing d with
  | nil => exact ⟨[], d, rfl, .nil, h⟩
  | cons a l1 ih =>
    cases h with
    | cons h1 h2 =>
      obtain ⟨d1, d2, rfl, e1, e2⟩ := ih _ h2
      exact ⟨_ :: d1, d2, rfl, .cons h1 e1, e2⟩

variable (ss : List (TSym × SExpr)) (flags : List (Nat × Flags))

/-- what one accepted step does -/
theorem step_cases (st st' : ParamDicts) (p : Nat × SEq) (h : paramStep ss flags st p = .ok st') :
    ∃ x, p.2.lhs = .sym x ∧
      ((classOf flags p = .numeric ∧ ((x ∈ dkeys st.param ∧ st' = { st with duplicates := st.duplicates ++ [x] }) ∨
        (x ∉ dkeys st.param ∧ st' = { st with param := st.param ++ [(x, p.2.rhs)] }))) ∨
       (classOf flags p = .calibrating ∧ (∀ v ∈ p.2.rhs.tsyms, v.idx = .ss) ∧
        ((x ∈ dkeys st.calib ∧ st' = { st with duplicates := st.duplicates ++ [x] }) ∨
        (x ∉ dkeys st.calib ∧ st' = { st with calib := st.calib ++ [(x, p.2.rhs)] }))) ∨
       (classOf flags p = .computed ∧ ∃ r, computedFrom ss p.2 r ∧
        ((x ∈ dkeys st.determ ∧ st' = { st with duplicates := st.duplicates ++ [x] }) ∨
        (x ∉ dkeys st.determ ∧ st' = { st with determ := st.determ ++ [(x, r)] })))) := by
  unfold paramStep at h
  split at h
  · rename_i x hx
    refine ⟨x, hx, ?_⟩
    split at h
    · rename_i hn
      left
      have hc : classOf flags p = .numeric := by
        unfold classOf
        rw [if_pos]
        simpa [SExpr.isNumber] using hn
      refine ⟨hc, ?_⟩
      split at h
      · left; cases h; exact ⟨by assumption, rfl⟩
      · right; cases h; rename_i hk; exact ⟨hk, by rw [dset_new _ _ _ hk]⟩
    · rename_i hn
      have hn' : p.2.rhs.syms ≠ [] := by simpa [SExpr.isNumber] using hn
      split at h
      · cases h
      · rename_i f hf
        split at h
        · rename_i hcal
          right; left
          refine ⟨by unfold classOf; rw [if_neg hn', if_pos ⟨f, hf, hcal⟩], ?_⟩
          split at h
          · cases h
          · rename_i hss
            refine ⟨?_, ?_⟩
            · intro v hv
              simp only [List.any_eq_true, not_exists, not_and] at hss
              have := hss v (List.mem_append_right _ hv)
              simpa using this
            · split at h
              · left; cases h; exact ⟨by assumption, rfl⟩
              · right; cases h; rename_i hk; exact ⟨hk, by rw [dset_new _ _ _ hk]⟩
        · rename_i hcal
          right; right
          refine ⟨by
            unfold classOf; rw [if_neg hn', if_neg]
            rintro ⟨f', hf', h'⟩
            rw [hf] at hf'; cases hf'; exact hcal h', ?_⟩
          simp only at h
          split at h
          · cases h
          · rename_i r hr
            refine ⟨r, ?_, ?_⟩
            · split at hr
              · rename_i he
                cases hr
                exact .inl ⟨by simpa using he, rfl⟩
              · rename_i he
                right
                refine ⟨by simpa using he, ?_⟩
                split at hr
                · cases hr
                · rename_i r' hr'
                  split at hr
                  · rename_i hz
                    cases hr
                    exact ⟨hr', by simpa using hz⟩
                  · cases hr
            · split at h
              · left; cases h; exact ⟨by assumption, rfl⟩
              · right; cases h; rename_i hk; exact ⟨hk, by rw [dset_new _ _ _ hk]⟩
  · cases h

/-- the symbol defined by an equation -/
def defines (p : Nat × SEq) (x : Sym) : Prop := p.2.lhs = .sym x

structure Result (st r : ParamDicts) (cs : List (Nat × SEq)) : Prop where
  dup : st.duplicates = []
  par : ∃ l, r.param = st.param ++ l ∧
    List.Forall₂ (fun p q => p.2.lhs = .sym q.1 ∧ q.2 = p.2.rhs) (cs.filter fun p => classOf flags p = .numeric) l
  cal : ∃ l, r.calib = st.calib ++ l ∧
    List.Forall₂ (fun p q => p.2.lhs = .sym q.1 ∧ q.2 = p.2.rhs ∧ ∀ v ∈ p.2.rhs.tsyms, v.idx = .ss)
      (cs.filter fun p => classOf flags p = .calibrating) l
  det : ∃ l, r.determ = st.determ ++ l ∧
    List.Forall₂ (fun p q => p.2.lhs = .sym q.1 ∧ computedFrom ss p.2 q.2)
      (cs.filter fun p => classOf flags p = .computed) l

theorem fold_spec (cs : List (Nat × SEq)) (st r : ParamDicts) (h : cs.foldlM (paramStep ss flags) st = .ok r)
    (hd : r.duplicates = []) : Result ss flags st r cs ∧
      ((dkeys st.param).Nodup → (dkeys r.param).Nodup) ∧ ((dkeys st.calib).Nodup → (dkeys r.calib).Nodup) ∧
      ((dkeys st.determ).Nodup → (dkeys r.determ).Nodup) := by
  induction cs generalizing st with
  | nil =>
    simp only [List.foldlM_nil] at h
    cases h
    exact ⟨⟨hd, ⟨[], by simp, .nil⟩, ⟨[], by simp, .nil⟩, ⟨[], by simp, .nil⟩⟩, id, id, id⟩
  | cons p cs ih =>
    rw [List.foldlM_cons] at h
    cases hs : paramStep ss flags st p with
    | error e => rw [hs] at h; cases h
    | ok st' =>
      rw [hs] at h
      obtain ⟨⟨d0, ⟨l1, p1, p2⟩, ⟨l2, c1, c2⟩, ⟨l3, t1, t2⟩⟩, n1, n2, n3⟩ := ih st' h
      have happ : ∀ (l : List (Sym × SExpr)) (x : Sym) (v : SExpr), x ∉ dkeys l → (dkeys l).Nodup → (dkeys (l ++ [(x, v)])).Nodup := by
        intro l x v hx hn
        simp only [dkeys, List.map_append, List.map_cons, List.map_nil]
        rw [List.nodup_append]
        refine ⟨hn, by simp, ?_⟩
        intro a ha b hb
        simp only [List.mem_singleton] at hb
        subst hb
        rintro rfl; exact hx ha
      obtain ⟨x, hx, hcase⟩ := step_cases ss flags st st' p hs
      rcases hcase with ⟨hc, h1 | ⟨hk, h1⟩⟩ | ⟨hc, hss, h1 | ⟨hk, h1⟩⟩ | ⟨hc, r', hr, h1 | ⟨hk, h1⟩⟩
      · rw [h1.2] at d0; simp at d0
      · subst h1
        refine ⟨⟨d0, ⟨(x, p.2.rhs) :: l1, by simpa using p1, ?_⟩, ⟨l2, c1, ?_⟩, ⟨l3, t1, ?_⟩⟩, fun hn => n1 (happ _ _ _ hk hn), n2, n3⟩
        · rw [List.filter_cons_of_pos (by simp [hc])]; exact .cons ⟨hx, rfl⟩ p2
        · rw [List.filter_cons_of_neg (by simp [hc])]; exact c2
        · rw [List.filter_cons_of_neg (by simp [hc])]; exact t2
      · rw [h1.2] at d0; simp at d0
      · subst h1
        refine ⟨⟨d0, ⟨l1, p1, ?_⟩, ⟨(x, p.2.rhs) :: l2, by simpa using c1, ?_⟩, ⟨l3, t1, ?_⟩⟩, n1, fun hn => n2 (happ _ _ _ hk hn), n3⟩
        · rw [List.filter_cons_of_neg (by simp [hc])]; exact p2
        · rw [List.filter_cons_of_pos (by simp [hc])]; exact .cons ⟨hx, rfl, hss⟩ c2
        · rw [List.filter_cons_of_neg (by simp [hc])]; exact t2
      · rw [h1.2] at d0; simp at d0
      · subst h1
        refine ⟨⟨d0, ⟨l1, p1, ?_⟩, ⟨l2, c1, ?_⟩, ⟨(x, r') :: l3, by simpa using t1, ?_⟩⟩, n1, n2, fun hn => n3 (happ _ _ _ hk hn)⟩
        · rw [List.filter_cons_of_neg (by simp [hc])]; exact p2
        · rw [List.filter_cons_of_neg (by simp [hc])]; exact c2
        · rw [List.filter_cons_of_pos (by simp [hc])]; exact .cons ⟨hx, hr⟩ t2

end Calibr

/-- **C21** when a block's calibration is accepted, the three parameter dictionaries consist, in order, of exactly the numeric
equations, exactly the calibrating equations (all of whose variables are at the steady state) and exactly the computed
parameters; no parameter is defined twice within a class. -/
theorem C21_classes (ss : List (TSym × SExpr)) (B : Block) (cs : List (Nat × SEq)) (hB : B.calibration = some cs)
    (r : ParamDicts) (h : B.paramDicts ss = .ok r) :
    List.Forall₂ (fun p q => p.2.lhs = .sym q.1 ∧ q.2 = p.2.rhs) (cs.filter fun p => classOf B.flags p = .numeric) r.param ∧
    List.Forall₂ (fun p q => p.2.lhs = .sym q.1 ∧ q.2 = p.2.rhs ∧ ∀ v ∈ p.2.rhs.tsyms, v.idx = .ss)
      (cs.filter fun p => classOf B.flags p = .calibrating) r.calib ∧
    List.Forall₂ (fun p q => p.2.lhs = .sym q.1 ∧ computedFrom ss p.2 q.2)
      (cs.filter fun p => classOf B.flags p = .computed) r.determ ∧
    (dkeys r.param).Nodup ∧ (dkeys r.calib).Nodup ∧ (dkeys r.determ).Nodup ∧
    r.param.length + r.calib.length + r.determ.length = cs.length := by
  unfold Block.paramDicts at h
  rw [hB] at h
  simp only at h
  split at h
  · cases h
  · rename_i r' hr
    split at h
    · rename_i hd
      cases h
      obtain ⟨⟨_, ⟨l1, p1, p2⟩, ⟨l2, c1, c2⟩, ⟨l3, t1, t2⟩⟩, n1, n2, n3⟩ :=
        Calibr.fold_spec ss B.flags cs _ _ hr (by simpa using hd)
      simp only [List.nil_append] at p1 c1 t1
      subst p1 c1 t1
      refine ⟨p2, c2, t2, n1 (by simp [dkeys]), n2 (by simp [dkeys]), n3 (by simp [dkeys]), ?_⟩
      rw [← p2.length_eq, ← c2.length_eq, ← t2.length_eq]
      clear p2 c2 t2 n1 n2 n3 hr hB
      induction cs with
      | nil => rfl
      | cons p cs ih =>
        cases hc : classOf B.flags p <;> simp [List.filter_cons, hc] <;> omega
    · cases h

/-- **C21** two definitions of the same parameter in the same class are never accepted. -/
theorem C21_duplicates_raise (ss : List (TSym × SExpr)) (B : Block) (l1 l2 l3 : List (Nat × SEq)) (p q : Nat × SEq)
    (hB : B.calibration = some (l1 ++ p :: l2 ++ q :: l3)) (hl : p.2.lhs = q.2.lhs)
    (hc : classOf B.flags p = classOf B.flags q) : ∃ e, B.paramDicts ss = .error e := by
  cases h : B.paramDicts ss with
  | error e => exact ⟨e, rfl⟩
  | ok r =>
    exfalso
    obtain ⟨h1, h2, h3, n1, n2, n3, _⟩ := C21_classes ss B _ hB r h
    have key : ∀ (R : Nat × SEq → Sym × SExpr → Prop), (∀ p q, R p q → p.2.lhs = .sym q.1) → ∀ (C : PClass) (d : List (Sym × SExpr)),
        classOf B.flags p = C → List.Forall₂ R ((l1 ++ p :: l2 ++ q :: l3).filter fun p => classOf B.flags p = C) d → ¬ (dkeys d).Nodup := by
      intro R hR C d hC hF
      have : ((l1 ++ p :: l2 ++ q :: l3).filter fun p => classOf B.flags p = C) =
          l1.filter (fun p => classOf B.flags p = C) ++ p :: (l2.filter (fun p => classOf B.flags p = C) ++
            q :: l3.filter (fun p => classOf B.flags p = C)) := by
        simp [List.filter_append, List.filter_cons, hC, ← hc]
      rw [this] at hF
      obtain ⟨d1, d2, rfl, e1, hF2⟩ := Calibr.split₂ R _ _ _ hF
      cases hF2 with
      | cons hp hrest =>
        rename_i y d2
        obtain ⟨d3, d4, rfl, e3, hF4⟩ := Calibr.split₂ R _ _ _ hrest
        cases hF4 with
        | cons hq hrest' =>
          rename_i z d5
          have e1 := hR _ _ hp
          have e2 := hR _ _ hq
          rw [hl, e2] at e1
          have : z.1 = y.1 := by simpa using e1
          simp only [dkeys, List.map_append, List.map_cons, List.nodup_append, List.nodup_cons]
          intro hnd
          apply hnd.2.1.1
          rw [← this]
          simp
    cases hC : classOf B.flags p with
    | numeric => exact key _ (fun _ _ h => h.1) _ _ hC h1 n1
    | calibrating => exact key _ (fun _ _ h => h.1) _ _ hC h2 n2
    | computed => exact key _ (fun _ _ h => h.1) _ _ hC h3 n3

/-- **C21** substituting the analytic steady state into a computed parameter keeps its value at every path whose steady state
agrees with the analytic solutions. -/
theorem C21_computed_value (ss : List (TSym × SExpr)) (e : SEq) (r : SExpr) (h : computedFrom ss e r) (P : RealPath) (t : Int)
    (hP : ∀ p ∈ ss, ∀ v : TSym, createName v = createName p.1 → P.val.symAt t (.tv v) = p.2.val P t) :
    r.val P t = e.rhs.val P t := by
  rcases h with ⟨_, rfl⟩ | ⟨_, h, _⟩
  · rfl
  · unfold trySubsSS at h
    simp only at h
    split at h
    · cases h
    · split at h
      · cases h
      · split at h
        · cases h
        · rename_i d hd
          cases h
          refine subsSeq_same_value P.val t e.rhs d ?_
          generalize ((e.lhs.tsyms ++ e.rhs.tsyms).eraseDups) = vs at hd
          clear * - hd hP
          induction vs generalizing d with
          | nil => simp at hd; subst hd; simp
          | cons v vs ih =>
            rw [List.mapM_cons] at hd
            cases hf : ss.find? fun p => createName p.1 = createName v with
            | none => simp [hf] at hd
            | some q =>
              cases hm : (vs.mapM fun v => (ss.find? fun p => createName p.1 = createName v).map fun p => (Sym.tv v, p.2)) with
              | none => simp [hf, hm] at hd
              | some d' =>
                simp [hf, hm] at hd
                subst hd
                intro p hp
                rcases List.mem_cons.mp hp with rfl | hp
                · have h1 := List.find?_some hf
                  have h2 := List.mem_of_find?_eq_some hf
                  exact (hP q h2 v (by simpa [eq_comm] using h1)).symm
                · exact ih d' hm p hp

/-- **C21** is violated across classes: the same parameter given once by a number and once by a formula is accepted and recorded
twice, with both values. -/
theorem C21_cross_class_violated (a b : Str) (q : Rat) (ss : List (TSym × SExpr)) :
    let B : Block := { name := ['H'], calibration := some [(0, ⟨.sym (.par a), .num q⟩), (1, ⟨.sym (.par a), .sym (.par b)⟩)],
                       flags := [(0, {}), (1, {})] }
    ∃ r, B.paramDicts ss = .ok r ∧ dget r.param (.par a) = some (.num q) ∧ dget r.determ (.par a) = some (.sym (.par b)) := by
  refine ⟨{ param := [(.par a, .num q)], determ := [(.par a, .sym (.par b))] }, ?_, by simp [dget], by simp [dget]⟩
  rfl

/-- **C21** a calibrating equation with a dated variable is rejected. -/
theorem C21_dynamic_calibrating_raises (ss : List (TSym × SExpr)) (B : Block) (l1 l2 : List (Nat × SEq)) (p : Nat × SEq)
    (hB : B.calibration = some (l1 ++ p :: l2)) (hc : classOf B.flags p = .calibrating)
    (hv : ∃ v ∈ p.2.rhs.tsyms, v.idx ≠ .ss) : ∃ e, B.paramDicts ss = .error e := by
  cases h : B.paramDicts ss with
  | error e => exact ⟨e, rfl⟩
  | ok r =>
    exfalso
    obtain ⟨_, h2, _⟩ := C21_classes ss B _ hB r h
    obtain ⟨v, hv, hne⟩ := hv
    have hm : p ∈ (l1 ++ p :: l2).filter fun p => classOf B.flags p = .calibrating := by simp [hc]
    have : ∀ (l : List (Nat × SEq)) (d : List (Sym × SExpr)),
        List.Forall₂ (fun (p : Nat × SEq) (q : Sym × SExpr) => p.2.lhs = .sym q.1 ∧ q.2 = p.2.rhs ∧ ∀ v ∈ p.2.rhs.tsyms, v.idx = .ss) l d →
        p ∈ l → False := by
      intro l d hF hp
      induction hF with
      | nil => simp at hp
      | cons hh _ ih =>
        rcases List.mem_cons.mp hp with rfl | hp
        · exact hne (hh.2.2 v hv)
        · exact ih hp
    exact this _ _ h2 hm

/-- non-vacuity: one equation of each class -/
example :
    let B : Block := { name := ['H']
                       calibration := some [(3, ⟨.sym (.par ['b']), .num (99/100)⟩), (4, ⟨.sym (.par ['d']), .mul (.num 2) (.sym (.par ['b']))⟩),
                         (5, ⟨.sym (.par ['a']), SExpr.sub (.sym (.tv ⟨['K'], .ss, []⟩)) (.num 3)⟩)]
                       flags := [(3, {}), (4, {}), (5, { isCalibrating := true })] }
    ∃ r, B.paramDicts [] = .ok r ∧ r.param.length = 1 ∧ r.calib.length = 1 ∧ r.determ.length = 1 := ⟨_, rfl, rfl, rfl, rfl⟩

end GE
