import Verif.Props.SolveModel
import Verif.Props.ResidualNorms
/-! # C86: the solvability check of parameter draws -/

open Matrix

namespace GE

/-- **C86.** The label of a draw names the first stage that failed, and there is no label exactly when every stage succeeded and neither norm was seen
to exceed its bound. For all stage functions and every draw. -/
theorem C86_first_failure {U S L P : Type} (steady : U → Call (S × Bool)) (linearize : U → S → Call L) (solve : L → Call (Option P))
    (bk : L → Call Bool) (norms : L → P → Call (Fl × Fl)) (normTol : ℝ) (u : U) (r : DrawResult)
    (h : checkOneDraw steady linearize solve bk norms normTol u = some r) :
    (r.step = some .steadyState ↔ steady u = .numeric ∨ ∃ ss, steady u = .ret (ss, false)) ∧
    (r.step = some .perturbation ↔ ∃ ss, steady u = .ret (ss, true) ∧
      (linearize u ss = .numeric ∨ ∃ l, linearize u ss = .ret l ∧ (solve l = .numeric ∨ solve l = .ret none))) ∧
    (r.step = some .blanchardKahn ↔ ∃ ss l p, steady u = .ret (ss, true) ∧ linearize u ss = .ret l ∧ solve l = .ret (some p) ∧ bk l = .ret false) ∧
    (r.step = some .deterministicNorm ↔ ∃ ss l p, steady u = .ret (ss, true) ∧ linearize u ss = .ret l ∧ solve l = .ret (some p) ∧ bk l = .ret true ∧
      (norms l p = .numeric ∨ ∃ d s, norms l p = .ret (some d, s) ∧ normTol < d)) ∧
    (r.step = some .stochasticNorm ↔ ∃ ss l p d s, steady u = .ret (ss, true) ∧ linearize u ss = .ret l ∧ solve l = .ret (some p) ∧ bk l = .ret true ∧
      norms l p = .ret (d, some s) ∧ (∀ x, d = some x → x ≤ normTol) ∧ normTol < s) ∧
    (r.step = none ↔ ∃ ss l p d s, steady u = .ret (ss, true) ∧ linearize u ss = .ret l ∧ solve l = .ret (some p) ∧ bk l = .ret true ∧
      norms l p = .ret (d, s) ∧ (∀ x, d = some x → x ≤ normTol) ∧ (∀ x, s = some x → x ≤ normTol)) := by
  unfold checkOneDraw at h
  rcases h1 : steady u with ⟨ss, _ | _⟩ | _ | _ <;> rw [h1] at h <;> simp only [Option.some.injEq, reduceCtorEq] at h <;> try subst h <;> simp
  rcases h2 : linearize u ss with l | _ | _ <;> rw [h2] at h <;> simp only [Option.some.injEq, reduceCtorEq] at h <;> try subst h <;> simp [h2]
  rcases h3 : solve l with (_ | p) | _ | _ <;> rw [h3] at h <;> simp only [Option.some.injEq, reduceCtorEq] at h <;> try subst h <;> simp [h2, h3]
  rcases h4 : bk l with (_ | _) | _ | _ <;> rw [h4] at h <;> simp only [Option.some.injEq, reduceCtorEq] at h <;> try subst h <;> simp [h2, h3, h4]
  rcases h5 : norms l p with ⟨d, s⟩ | _ | _ <;> rw [h5] at h <;> simp only [Option.some.injEq, reduceCtorEq] at h <;> try subst h <;> simp [h2, h3, h4, h5]
  rcases d with _ | d <;> rcases s with _ | s
  · simp [normStep, Fl.gt]
  · by_cases hs : normTol < s
    · simp [normStep, Fl.gt, hs, not_le.2 hs]
    · simp [normStep, Fl.gt, hs, not_lt.1 hs]
  · by_cases hd : normTol < d
    · simp [normStep, Fl.gt, hd, not_le.2 hd]
    · simp [normStep, Fl.gt, hd, not_lt.1 hd]
  · by_cases hd : normTol < d
    · simp [normStep, Fl.gt, hd, not_le.2 hd]
    · by_cases hs : normTol < s
      · simp [normStep, Fl.gt, hd, not_lt.1 hd, hs, not_le.2 hs]
      · simp [normStep, Fl.gt, hd, not_lt.1 hd, hs, not_lt.1 hs]

/-- **C86.** The norms in the table are those of the solution of that draw, or NaN; they are NaN only when an earlier stage failed or computing them did. -/
theorem C86_norms {U S L P : Type} (steady : U → Call (S × Bool)) (linearize : U → S → Call L) (solve : L → Call (Option P))
    (bk : L → Call Bool) (norms : L → P → Call (Fl × Fl)) (normTol : ℝ) (u : U) (r : DrawResult)
    (h : checkOneDraw steady linearize solve bk norms normTol u = some r) :
    (∃ ss l p, steady u = .ret (ss, true) ∧ linearize u ss = .ret l ∧ solve l = .ret (some p) ∧ bk l = .ret true ∧ norms l p = .ret (r.det, r.stoch)) ∨
      (r.det = none ∧ r.stoch = none ∧ (r.step = some .steadyState ∨ r.step = some .perturbation ∨ r.step = some .blanchardKahn ∨
        (r.step = some .deterministicNorm ∧ ∃ ss l p, steady u = .ret (ss, true) ∧ linearize u ss = .ret l ∧ solve l = .ret (some p) ∧ norms l p = .numeric))) := by
  unfold checkOneDraw at h
  rcases h1 : steady u with ⟨ss, _ | _⟩ | _ | _ <;> rw [h1] at h <;> simp only [Option.some.injEq, reduceCtorEq] at h <;> try subst h <;> simp
  rcases h2 : linearize u ss with l | _ | _ <;> rw [h2] at h <;> simp only [Option.some.injEq, reduceCtorEq] at h <;> try subst h <;> simp [h2]
  rcases h3 : solve l with (_ | p) | _ | _ <;> rw [h3] at h <;> simp only [Option.some.injEq, reduceCtorEq] at h <;> try subst h <;> simp [h2, h3]
  rcases h4 : bk l with (_ | _) | _ | _ <;> rw [h4] at h <;> simp only [Option.some.injEq, reduceCtorEq] at h <;> try subst h <;> simp [h2, h3, h4]
  rcases h5 : norms l p with ⟨d, s⟩ | _ | _ <;> rw [h5] at h <;> simp only [Option.some.injEq, reduceCtorEq] at h <;> try subst h <;> simp [h2, h3, h4, h5]

/-- **C86.** Success is meaningful: when a draw gets no label, the steady state was found, the linearised system was solved by the solver asked for (or
directly, for a backward-looking model), as many generalised eigenvalues lie outside the unit circle as there are leads, and both residual norms of
that solution are reported and at most the bound. -/
theorem C86_success {U S : Type} {n k : ℕ} (steady : U → Call (S × Bool)) (linearize : U → S → Call (LinMats n k)) (tol : ℝ) (gen : GenOracle n tol)
    (qz : ∀ A B C : Mat n n, Option (SortedQZ (toC (-setupG0 B C bkTol)) (toC (setupG1 A C bkTol)))) (maxIter : ℕ) (backward : Bool) (solver : Str)
    (normTol : ℝ) (u : U) (r : DrawResult) (h : checkDraw steady linearize tol gen qz maxIter backward solver normTol u = some r) (hr : r.step = none) :
    ∃ ss m T R q, steady u = .ret (ss, true) ∧ linearize u ss = .ret m ∧ solvePerturbation tol gen maxIter backward solver m = .ret (some (T, R)) ∧
      qz m.A m.B m.C = some q ∧ bkUnstable (bkEigenvalues q) = (Finset.univ.filter fun j => 1e-8 < ∑ i, |m.C i j|).card ∧
      r.det = some (residualNorms m.A m.B m.C m.D T R tol).1 ∧ r.stoch = some (residualNorms m.A m.B m.C m.D T R tol).2 ∧
      (residualNorms m.A m.B m.C m.D T R tol).1 ≤ normTol ∧ (residualNorms m.A m.B m.C m.D T R tol).2 ≤ normTol := by
  unfold checkDraw at h
  obtain ⟨ss, m, p, d, s, h1, h2, h3, h4, h5, h6, h7⟩ := (C86_first_failure _ _ _ _ _ _ _ _ h).2.2.2.2.2.1 hr
  simp only [Call.ret.injEq, Prod.mk.injEq] at h5
  obtain ⟨rfl, rfl⟩ := h5
  have htol : bkForward m.C bkTol = (Finset.univ.filter fun j => 1e-8 < ∑ i, |m.C i j|).card := by
    rw [bkForward, show bkTol = 1e-8 by norm_num [bkTol]]
  have hq : ∃ q, qz m.A m.B m.C = some q ∧ bkUnstable (bkEigenvalues q) = bkForward m.C bkTol := by
    unfold bkCall at h4
    cases hq : qz m.A m.B m.C with
    | none => rw [hq] at h4; cases h4
    | some q =>
      rw [hq] at h4
      simp only [checkBK] at h4
      refine ⟨q, rfl, ?_⟩
      simp at h4
      exact h4.symm
  obtain ⟨q, hq, hc⟩ := hq
  refine ⟨ss, m, p.1, p.2, q, h1, h2, h3, hq, hc.trans htol, ?_, ?_, h6 _ rfl, h7 _ rfl⟩
  · rcases C86_norms _ _ _ _ _ _ _ _ h with ⟨ss', m', p', e1, e2, e3, -, e5⟩ | ⟨-, -, e⟩
    · rw [h1] at e1; cases e1
      rw [h2] at e2; cases e2
      rw [h3] at e3; cases e3
      simp only [Call.ret.injEq, Prod.mk.injEq] at e5
      exact e5.1.symm
    · rw [hr] at e; simp at e
  · rcases C86_norms _ _ _ _ _ _ _ _ h with ⟨ss', m', p', e1, e2, e3, -, e5⟩ | ⟨-, -, e⟩
    · rw [h1] at e1; cases e1
      rw [h2] at e2; cases e2
      rw [h3] at e3; cases e3
      simp only [Call.ret.injEq, Prod.mk.injEq] at e5
      exact e5.2.symm
    · rw [hr] at e; simp at e

/-- **C86, false for NaN.** A draw whose residual norms are both NaN is reported as a success. -/
theorem C86_nan_violated {U S L P : Type} (steady : U → Call (S × Bool)) (linearize : U → S → Call L) (solve : L → Call (Option P))
    (bk : L → Call Bool) (norms : L → P → Call (Fl × Fl)) (normTol : ℝ) (u : U) (ss : S) (l : L) (p : P) (h1 : steady u = .ret (ss, true))
    (h2 : linearize u ss = .ret l) (h3 : solve l = .ret (some p)) (h4 : bk l = .ret true) (h5 : norms l p = .ret (none, none)) :
    checkOneDraw steady linearize solve bk norms normTol u = some ⟨none, none, none⟩ := by
  simp [checkOneDraw, h1, h2, h3, h4, h5, normStep, Fl.gt]

/-- **C86, false for the Blanchard-Kahn stage.** A numerical error raised while computing the eigenvalues is not turned into a label: it ends the whole
check, in serial mode whatever the other draws do. -/
theorem C86_bk_escapes_violated {S L P : Type} (columns : List Str) (steady : List (Str × ℝ) → Call (S × Bool)) (linearize : List (Str × ℝ) → S → Call L)
    (solve : L → Call (Option P)) (bk : L → Call Bool) (norms : L → P → Call (Fl × Fl)) (normTol : ℝ) (rows : List (ℝ × List ℝ)) (row : ℝ × List ℝ)
    (hrow : row ∈ rows) (ss : S) (l : L) (p : P) (h1 : steady (paramDict columns row) = .ret (ss, true))
    (h2 : linearize (paramDict columns row) ss = .ret l) (h3 : solve l = .ret (some p)) (h4 : bk l = .numeric) :
    solvabilityCheck (checkOneDraw steady linearize solve bk norms normTol) 1 [] ⟨columns, rows⟩ = .error .draw := by
  have h : checkOneDraw steady linearize solve bk norms normTol (paramDict columns row) = none := by
    simp [checkOneDraw, h1, h2, h3, h4]
  have hm : ∀ (us : List (List (Str × ℝ))) (v : List (Str × ℝ)), v ∈ us → checkOneDraw steady linearize solve bk norms normTol v = none →
      us.mapM (checkOneDraw steady linearize solve bk norms normTol) = none := by
    intro us
    induction us with
    | nil => intro v hv; cases hv
    | cons a us ih =>
      intro v hv hn
      rw [List.mapM_cons]
      rcases List.mem_cons.1 hv with rfl | hv
      · rw [hn]; rfl
      · rw [ih v hv hn]
        cases checkOneDraw steady linearize solve bk norms normTol a <;> rfl
  unfold solvabilityCheck runSerial
  simp only [if_true]
  rw [hm _ _ (List.mem_map.2 ⟨row, hrow, rfl⟩) h]

/-- **C86, false for a misspelt solver.** For a model with leads, a solver name that does not exist is not refused: every draw whose linearisation works is
labelled `"perturbation"`. -/
theorem C86_unknown_solver_violated {U S : Type} {n k : ℕ} (steady : U → Call (S × Bool)) (linearize : U → S → Call (LinMats n k)) (tol : ℝ)
    (gen : GenOracle n tol) (qz : ∀ A B C : Mat n n, Option (SortedQZ (toC (-setupG0 B C bkTol)) (toC (setupG1 A C bkTol)))) (maxIter : ℕ) (solver : Str)
    (normTol : ℝ) (u : U) (ss : S) (m : LinMats n k) (h1 : steady u = .ret (ss, true)) (h2 : linearize u ss = .ret m)
    (hs : solver ≠ "gensys".toList ∧ solver ≠ "cycle_reduction".toList ∧ solver ≠ "backward_direct".toList) :
    checkDraw steady linearize tol gen qz maxIter false solver normTol u = some ⟨some .perturbation, none, none⟩ := by
  have h3 : solvePerturbation tol gen maxIter false solver m = .numeric := by
    unfold solvePerturbation
    simp only [Bool.false_eq_true, if_false]
    rw [if_neg hs.2.1, if_neg hs.1, if_neg hs.2.2]
  simp only [checkDraw, checkOneDraw, h1, h2, h3]

namespace SVab

theorem mapM_some {α β : Type} (f : α → Option β) : ∀ (l : List α) (r : List β), l.mapM f = some r → r.length = l.length ∧ ∀ (i : ℕ) (a : α), l[i]? = some a → r[i]? = f a := by
  intro l
  induction l with
  | nil => intro r h; simp at h; subst h; simp
  | cons a l ih =>
    intro r h
    rw [List.mapM_cons] at h
    cases ha : f a with
    | none => rw [ha] at h; cases h
    | some b =>
      cases hl : l.mapM f with
      | none => rw [ha, hl] at h; cases h
      | some bs =>
        rw [ha, hl] at h
        simp only [Option.bind_eq_bind, Option.bind_some, Option.pure_def, Option.some.injEq] at h
        subst h
        obtain ⟨h1, h2⟩ := ih bs hl
        refine ⟨by simp [h1], fun i x hx => ?_⟩
        cases i with
        | zero => simp at hx; subst hx; simp [ha]
        | succ i => simpa using h2 i x (by simpa using hx)

theorem mapM_perm {α β : Type} (f : α → Option β) {l l' : List α} (p : l.Perm l') : ∀ r, l.mapM f = some r → ∃ r', l'.mapM f = some r' ∧ r.Perm r' := by
  have key : ∀ (l : List α) (r : List β), l.mapM f = some r ↔ l.map f = r.map some := by
    intro l
    induction l with
    | nil => intro r; cases r <;> simp
    | cons a l ih =>
      intro r
      rw [List.mapM_cons]
      cases ha : f a with
      | none => cases r <;> simp [ha]
      | some b =>
        cases hl : l.mapM f with
        | none =>
          have : ∀ r : List β, l.map f ≠ r.map some := fun r h => by have := (ih r).2 h; rw [hl] at this; cases this
          cases r with
          | nil => simp
          | cons c r => simp [ha, this r]
        | some bs =>
          have e := (ih bs).1 hl
          cases r with
          | nil => simp
          | cons c r =>
            simp only [Option.bind_eq_bind, Option.bind_some, Option.pure_def, Option.some.injEq, List.cons.injEq, List.map_cons, ha, e]
            rw [(List.map_injective_iff.2 (Option.some_injective β)).eq_iff]
  intro r h
  have h1 := (key _ _).1 h
  have h2 : (l'.map f).Perm (r.map some) := by rw [← h1]; exact (p.map f).symm
  have h3 : ∃ r', l'.map f = List.map some r' := by
    refine ⟨(l'.map f).filterMap id, ?_⟩
    have : ∀ x ∈ l'.map f, ∃ b, x = some b := by
      intro x hx
      obtain ⟨b, -, hb⟩ := List.mem_map.1 (h2.mem_iff.1 hx)
      exact ⟨b, hb.symm⟩
    generalize l'.map f = q at this
    induction q with
    | nil => rfl
    | cons x q ih =>
      obtain ⟨b, rfl⟩ := this x (by simp)
      exact congrArg (some b :: ·) (ih fun y hy => this y (by simp [hy]))
  obtain ⟨r', hr'⟩ := h3
  refine ⟨r', (key _ _).2 hr', ?_⟩
  rw [hr'] at h2
  exact ((h2.filterMap id).trans (by simp)).symm.trans (by simp)

theorem filterMap_range {α : Type} (us : List α) : (List.range us.length).filterMap (fun i => us[i]?) = us := by
  induction us with
  | nil => rfl
  | cons a us ih =>
    rw [List.length_cons, List.range_succ_eq_map]
    simp only [List.filterMap_cons, List.getElem?_cons_zero, List.filterMap_map]
    congr 1

end SVab

/-- **C86.** With one core every row of the samples comes back once, in order, unchanged, with the outcome of checking that row's own parameters. -/
theorem C86_serial (check : List (Str × ℝ) → Option DrawResult) (finished : List ℕ) (f : DrawTable) (out : List ((ℝ × List ℝ) × DrawResult))
    (h : solvabilityCheck check 1 finished f = .ok out) :
    out.map Prod.fst = f.rows ∧ ∀ (i : ℕ) (row : ℝ × List ℝ) (r : DrawResult), out[i]? = some (row, r) → check (paramDict f.columns row) = some r := by
  unfold solvabilityCheck runSerial at h
  simp only [if_true] at h
  cases hm : (f.rows.map (paramDict f.columns)).mapM check with
  | none => rw [hm] at h; simp at h
  | some rs =>
    rw [hm] at h
    obtain ⟨hl, hi⟩ := SVab.mapM_some _ _ _ hm
    have e : out = f.rows.zip rs := by
      cases rs with
      | nil => simp at h
      | cons a rs => simp only [Except.ok.injEq] at h; exact h.symm
    subst e
    refine ⟨?_, fun i row r hr => ?_⟩
    · rw [List.map_fst_zip]
      simp at hl; omega
    · rw [List.getElem?_zip_eq_some] at hr
      have := hi i (paramDict f.columns row) (by rw [List.getElem?_map, hr.1]; rfl)
      rw [hr.2] at this
      exact this.symm

/-- **C86.** With several cores the rows come back in order and the outcomes are those of the draws, but only as a collection: the results are a
rearrangement of the serial ones. -/
theorem C86_parallel_collection (check : List (Str × ℝ) → Option DrawResult) (cores : Int) (hc : 2 ≤ cores) (finished : List ℕ) (f : DrawTable)
    (hf : finished.Perm (List.range f.rows.length)) (out : List ((ℝ × List ℝ) × DrawResult)) (h : solvabilityCheck check 1 [] f = .ok out) :
    ∃ out', solvabilityCheck check cores finished f = .ok out' ∧ out'.map Prod.fst = f.rows ∧ (out'.map Prod.snd).Perm (out.map Prod.snd) := by
  unfold solvabilityCheck runSerial at h
  simp only [if_true] at h
  cases hm : (f.rows.map (paramDict f.columns)).mapM check with
  | none => rw [hm] at h; simp at h
  | some rs =>
    rw [hm] at h
    have hl := (SVab.mapM_some _ _ _ hm).1
    have hne : rs ≠ [] := by rintro rfl; simp at h
    have e : out = f.rows.zip rs := by
      cases rs with
      | nil => simp at h
      | cons a rs => simp only [Except.ok.injEq] at h; exact h.symm
    subst e
    have hp : (finished.filterMap fun i => (f.rows.map (paramDict f.columns))[i]?).Perm (f.rows.map (paramDict f.columns)) := by
      have h1 := SVab.filterMap_range (f.rows.map (paramDict f.columns))
      rw [List.length_map] at h1
      conv_rhs => rw [← h1]
      exact hf.filterMap _
    obtain ⟨rs', hrs', hperm⟩ := SVab.mapM_perm check hp.symm rs hm
    have hl' : rs'.length = f.rows.length := by rw [← hperm.length_eq, hl, List.length_map]
    refine ⟨f.rows.zip rs', ?_, List.map_fst_zip (by omega), ?_⟩
    · unfold solvabilityCheck runParallel
      dsimp only
      rw [if_neg (by omega), if_neg (by omega), hrs']
      cases rs' with
      | nil => exact absurd (List.perm_nil.1 hperm) hne
      | cons a rs' => rfl
    · rw [List.map_snd_zip (by omega), List.map_snd_zip (by simp at hl; omega)]
      exact hperm.symm

/-- **C86, false with several cores.** There are two draws, one solvable and one not, and an order in which the workers may finish, for which the table says the
opposite of the truth in both rows. -/
theorem C86_parallel_violated :
    ∃ (check : List (Str × ℝ) → Option DrawResult) (f : DrawTable) (finished : List ℕ) (out : List ((ℝ × List ℝ) × DrawResult)),
      finished.Perm (List.range f.rows.length) ∧ f.rows.length = 2 ∧ solvabilityCheck check 2 finished f = .ok out ∧
      ∀ row r, (row, r) ∈ out → ∃ r', check (paramDict f.columns row) = some r' ∧ (r'.step = none ↔ r.step ≠ none) := by
  classical
  let good : DrawResult := ⟨none, some 0, some 0⟩
  let bad : DrawResult := ⟨some .steadyState, none, none⟩
  let cols : List Str := ["b".toList]
  let check : List (Str × ℝ) → Option DrawResult := fun d => some (if d = [("b".toList, 1)] then good else bad)
  have d0 : paramDict cols (0, [0]) = [("b".toList, 0)] := by
    have : renameFields 0 [] (indexName :: cols) = [indexName, "b".toList] := by decide
    unfold paramDict
    rw [this]
    simp [indexName]
  have d1 : paramDict cols (1, [1]) = [("b".toList, 1)] := by
    have : renameFields 0 [] (indexName :: cols) = [indexName, "b".toList] := by decide
    unfold paramDict
    rw [this]
    simp [indexName]
  have c0 : check (paramDict cols (0, [0])) = some bad := by rw [d0]; simp [check]
  have c1 : check (paramDict cols (1, [1])) = some good := by rw [d1]; simp [check]
  refine ⟨check, ⟨cols, [(0, [0]), (1, [1])]⟩, [1, 0], [((0, [0]), good), ((1, [1]), bad)], ?_, rfl, ?_, ?_⟩
  · decide
  · unfold solvabilityCheck runParallel
    dsimp only
    rw [if_neg (by decide), if_neg (by decide)]
    simp only [List.map_cons, List.map_nil, List.filterMap_cons, List.filterMap_nil, List.getElem?_cons_succ, List.getElem?_cons_zero, List.mapM_cons, List.mapM_nil,
      c0, c1]
    rfl
  · intro row r hm
    simp only [List.mem_cons, Prod.mk.injEq, List.not_mem_nil, or_false] at hm
    rcases hm with ⟨rfl, rfl⟩ | ⟨rfl, rfl⟩
    · exact ⟨bad, c0, by simp [bad, good]⟩
    · exact ⟨good, c1, by simp [bad, good]⟩

/-- **C86.** A check of no samples always fails, and fewer than one core is refused. -/
theorem C86_refusals (check : List (Str × ℝ) → Option DrawResult) (cores : Int) (finished : List ℕ) (f : DrawTable) :
    (f.rows = [] → 1 ≤ cores → solvabilityCheck check cores finished f = .error .noSamples) ∧
      (cores < 1 → solvabilityCheck check cores finished f = .error .poolSize) := by
  constructor
  · intro h0 hc
    unfold solvabilityCheck runSerial runParallel
    rw [h0]
    by_cases h1 : cores = 1
    · simp [h1]
    · have : ¬cores < 1 := by omega
      simp [h1, this]
  · intro hc
    unfold solvabilityCheck
    dsimp only
    rw [if_neg (by omega), if_pos hc]

namespace SVab

/-- a column name that `itertuples` leaves alone -/
def Plain (name : Str) : Prop := isIdentifier name = true ∧ name ∉ pyKeywords ∧ startsUnderscore name = false ∧ name ≠ "Index".toList

theorem rename_plain : ∀ (cols : List Str) (i : ℕ) (seen : List Str), (∀ c ∈ cols, Plain c) → cols.Nodup → (∀ c ∈ cols, c ∉ seen) → renameFields i seen cols = cols := by
  intro cols
  induction cols with
  | nil => intros; rfl
  | cons c cols ih =>
    intro i seen hp hn hs
    have hb : badField seen c = false := by
      obtain ⟨h1, h2, h3, -⟩ := hp c (by simp)
      simp [badField, h1, h2, h3, hs c (by simp)]
    unfold renameFields
    rw [if_neg (by simp [hb]), ih (i + 1) (c :: seen) (fun x hx => hp x (by simp [hx])) (List.nodup_cons.1 hn).2 ?_]
    intro x hx hc
    rcases List.mem_cons.1 hc with rfl | hc
    · exact (List.nodup_cons.1 hn).1 hx
    · exact hs x (by simp [hx]) hc

end SVab

/-- **C86.** When the columns are distinct plain identifiers — no keyword, no leading underscore, not `Index` — each draw's parameters are exactly its row:
every column name with that row's value, and nothing else. -/
theorem C86_parameters (columns : List Str) (label : ℝ) (row : List ℝ)
    (hc : ∀ c ∈ columns, isIdentifier c = true ∧ c ∉ pyKeywords ∧ startsUnderscore c = false ∧ c ≠ "Index".toList) (hn : columns.Nodup) :
    paramDict columns (label, row) = columns.zip row := by
  have hb : badField [] indexName = false := by decide
  have h : renameFields 0 [] (indexName :: columns) = indexName :: columns := by
    unfold renameFields
    rw [if_neg (by simp [hb]), SVab.rename_plain columns _ _ hc hn]
    intro c h1 h2
    rcases List.mem_singleton.1 h2 with rfl
    exact (hc _ h1).2.2.2 rfl
  unfold paramDict
  rw [h, List.zip_cons_cons, List.filter_cons_of_neg (by simp)]
  refine List.filter_eq_self.2 fun p hp => ?_
  have := (List.of_mem_zip hp).1
  simp only [ne_eq, decide_eq_true_eq]
  exact (hc _ this).2.2.2

/-- **C86, false for some parameter names.** A parameter named by a Python keyword, `lambda` for instance, is passed to the model under another name: whatever its
value, the draw never sets it. -/
theorem C86_keyword_violated (label v : ℝ) : paramDict ["lambda".toList, "b".toList] (label, [v, 2]) = [("_1".toList, v), ("b".toList, 2)] := by
  have : renameFields 0 [] (indexName :: ["lambda".toList, "b".toList]) = [indexName, "_1".toList, "b".toList] := by decide
  unfold paramDict
  rw [this]
  simp [indexName]

/-- **C86.** The priors sampled are exactly the model's priors, or those of the requested subset, in the model's order; a model without priors and a subset with
an unknown name are refused, and nothing else is. -/
theorem C86_priors {π : Type} (priors : List (Str × π)) (subset : Option (List Str)) :
    (∀ ps, collectPriors priors subset = .ok ps → ps.Sublist priors ∧
      ∀ p, p ∈ ps ↔ p ∈ priors ∧ ∀ ns, subset = some ns → p.1 ∈ ns) ∧
    ((∃ ps, collectPriors priors subset = .ok ps) ↔ priors ≠ [] ∧ ∀ ns, subset = some ns → ∀ x ∈ ns, ∃ d, (x, d) ∈ priors) ∧
    (∀ ns bad, collectPriors priors subset = .error (.unknown bad) → subset = some ns → ∀ x, x ∈ bad ↔ x ∈ ns ∧ ∀ d, (x, d) ∉ priors) := by
  have hk : ∀ x, x ∈ dkeys priors ↔ ∃ d, (x, d) ∈ priors := by
    intro x
    simp [dkeys]
  unfold collectPriors
  cases priors with
  | nil => simp
  | cons q qs =>
    rw [if_neg (by simp)]
    cases subset with
    | none => simp
    | some ns =>
      dsimp only
      set bad := ns.filter fun x => decide (x ∉ dkeys (q :: qs)) with hbad
      have hmem : ∀ x, x ∈ bad ↔ x ∈ ns ∧ ∀ d, (x, d) ∉ q :: qs := by
        intro x
        rw [hbad, List.mem_filter]
        simp only [decide_eq_true_eq, hk, not_exists]
      by_cases hb : bad = []
      · rw [hb]
        simp only [List.isEmpty_nil, if_true, Except.ok.injEq, reduceCtorEq, false_implies, implies_true, and_true, Option.some.injEq]
        refine ⟨?_, ?_⟩
        · rintro ps rfl
          refine ⟨List.filter_sublist, fun p => ?_⟩
          rw [List.mem_filter]
          simp
        · refine ⟨fun _ => ⟨by simp, ?_⟩, fun _ => ⟨_, rfl⟩⟩
          rintro _ rfl x hx
          by_contra hc
          have : x ∈ bad := (hmem x).2 ⟨hx, fun d hd => hc ⟨d, hd⟩⟩
          rw [hb] at this; cases this
      · have hb' : bad.isEmpty = false := by simpa using hb
        rw [hb']
        simp only [Bool.false_eq_true, if_false, reduceCtorEq, false_implies, implies_true, true_and, exists_false, false_iff, Except.error.injEq, PriorErr.unknown.injEq, Option.some.injEq]
        refine ⟨?_, ?_⟩
        · rintro ⟨-, h⟩
          obtain ⟨x, hx⟩ := List.exists_mem_of_ne_nil _ hb
          obtain ⟨h1, h2⟩ := (hmem x).1 hx
          obtain ⟨d, hd⟩ := h ns rfl x h1
          exact h2 d hd
        · rintro _ _ rfl rfl x
          exact hmem x

/-- **C86.** Which sampler a method name selects: `random` draws from the priors; a name ending in `_ppf` uses the inverse distribution functions with the
engine named before the ending; any other name goes to the uniform sampler unchanged. -/
theorem C86_dispatch (method : Str) :
    (samplerOf method = .rvs ↔ method = "random".toList) ∧
      (∀ base, samplerOf method = .ppf base ↔ method = base ++ "_ppf".toList) ∧
      (∀ m, samplerOf method = .uniform m → m = method ∧ ∀ base, method ≠ base ++ "_ppf".toList) := by
  have hlen : ("_ppf".toList).length = 4 := rfl
  have hend : ∀ s : Str, nameEndsWith s "_ppf".toList = true ↔ ∃ base, s = base ++ "_ppf".toList := by
    intro s
    rw [nameEndsWith, List.isSuffixOf_iff_suffix]
    constructor
    · rintro ⟨b, hb⟩; exact ⟨b, hb.symm⟩
    · rintro ⟨b, hb⟩; exact ⟨b, hb.symm⟩
  have htake : ∀ base : Str, (base ++ "_ppf".toList).take ((base ++ "_ppf".toList).length - 4) = base := by
    intro base
    rw [List.length_append, hlen, Nat.add_sub_cancel, List.take_left']
    rfl
  have hrand : ∀ base : Str, "random".toList ≠ base ++ "_ppf".toList := by
    intro base h
    have := (hend "random".toList).2 ⟨base, h⟩
    revert this
    decide
  unfold samplerOf
  by_cases h1 : method = "random".toList
  · subst h1
    simp only [if_true, reduceCtorEq, false_iff, false_implies, implies_true, and_true, true_and]
    exact hrand
  · rw [if_neg h1]
    by_cases h2 : nameEndsWith method "_ppf".toList = true
    · rw [if_pos h2]
      obtain ⟨base, rfl⟩ := (hend method).1 h2
      simp only [reduceCtorEq, false_iff, h1, not_false_eq_true, true_and, false_implies, implies_true, and_true, Sampler.ppf.injEq, htake]
      intro b
      constructor
      · rintro rfl; rfl
      · exact fun h => List.append_cancel_right h
    · rw [if_neg h2]
      simp only [reduceCtorEq, false_iff, h1, not_false_eq_true, true_and, Sampler.uniform.injEq]
      have hn : ∀ base, method ≠ base ++ "_ppf".toList := fun b hb => h2 ((hend method).2 ⟨b, hb⟩)
      exact ⟨hn, fun m hm => ⟨hm.symm, hn⟩⟩

/-- a frame of two ordinary parameters meets the hypotheses of `C86_parameters` -/
example : paramDict ["alpha".toList, "beta".toList] (0, [1, 2]) = [("alpha".toList, 1), ("beta".toList, 2)] := by
  rw [C86_parameters _ _ _ (by decide) (by decide)]
  rfl

/-- a pipeline in which a draw passes, and one in which the steady state is not found -/
example : checkOneDraw (fun u : Bool => Call.ret ((), u)) (fun _ _ => .ret ()) (fun _ => .ret (some ())) (fun _ => .ret true) (fun _ _ => .ret (some 0, some 0)) 1 true
      = some ⟨none, some 0, some 0⟩ ∧
    checkOneDraw (fun u : Bool => Call.ret ((), u)) (fun _ _ => .ret ()) (fun _ => .ret (some ())) (fun _ => .ret true) (fun _ _ => .ret (some 0, some 0)) 1 false
      = some ⟨some .steadyState, none, none⟩ := by
  constructor
  · simp [checkOneDraw, normStep, Fl.gt]
    norm_num
  · simp [checkOneDraw]

end GE
