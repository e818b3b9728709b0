import Verif.Model.FigAcf
import Verif.Props.Plotting
/-! # C128: the autocorrelation figure -/

namespace GE.Acf
open Plot

/-! ## specification -/

/-- apart from `lag` and the sample dimensions the tensor has exactly two dimensions, `d` first, and it has lags -/
def Layout (t : Tensor) (sample : List Str) (d : Str) : Prop :=
  "lag".toList ∈ t.dims ∧ ∃ e, (t.dims.filter fun x => decide (x ≠ "lag".toList ∧ x ∉ sample)) = [d, e]

/-- the tensor carries a sample dimension -/
def Sampled (t : Tensor) (sample : List Str) : Prop := ∃ x ∈ sample, x ∈ t.dims

/-- `m` shows the autocorrelation of the variable `v` with itself at every lag: a point per lag, or for samples the mean with the interval of the
smaller probability inside that of the larger -/
def Shows (t : Tensor) (sample : List Str) (d v : Str) (ci : ℝ × ℝ) (offset : ℝ) (colour : Nat) (m : Mark) : Prop :=
  ∃ k, (t.labels d)[k]? = some v ∧
    ((¬ Sampled t sample ∧ ∃ pts, m = .stem colour pts ∧ pts.length = t.lags.length ∧
        ∀ l x, t.lags[l]? = some x → pts[l]? = some (x + offset, t.value k k l)) ∨
     (Sampled t sample ∧ ∃ sticks, m = .forest colour sticks ∧ sticks.length = t.lags.length ∧
        ∀ l x, t.lags[l]? = some x → sticks[l]? = some (Stick.mk (x + offset) (t.mean k k l) (t.hdi (min ci.1 ci.2) k k l) (t.hdi (max ci.1 ci.2) k k l))))

/-- the markers of the reference in the panel of `v`: those of `v`, if the reference has it -/
def ShowsReference (r : Option Reference) (v : Str) (ms : List Mark) : Prop :=
  (∀ q labels, r = some q → q.labels = some labels → v ∈ labels → ∃ k pts, labels[k]? = some v ∧ ms = [.reference pts] ∧ pts.length = q.lags.length ∧
    ∀ l x, q.lags[l]? = some x → pts[l]? = some (x, q.value k l)) ∧
  ((∀ q labels, r = some q → q.labels = some labels → v ∉ labels) → ms = [])

/-! ## proofs -/

theorem varDims_eq (t : Tensor) (sample : List Str) : t.varDims sample = t.dims.filter fun x => decide (x ≠ "lag".toList ∧ x ∉ sample) := by
  unfold Tensor.varDims Tensor.present
  refine List.filter_congr fun x hx => ?_
  by_cases h1 : x = "lag".toList
  · simp [h1]
  · by_cases h2 : x ∈ sample <;> simp [h1, h2, hx]

theorem present_empty (t : Tensor) (sample : List Str) : (t.present sample).isEmpty = true ↔ ¬ Sampled t sample := by
  unfold Tensor.present Sampled
  rw [List.isEmpty_iff, List.filter_eq_nil_iff]
  simp

theorem sorted_eq (p : ℝ × ℝ) : sortedProbs p = (min p.1 p.2, max p.1 p.2) := by
  unfold sortedProbs
  split
  · rename_i h; rw [min_eq_left h, max_eq_right h]
  · rename_i h; rw [min_eq_right (le_of_lt (not_le.1 h)), max_eq_left (le_of_lt (not_le.1 h))]

theorem collect_ok {sample d} : ∀ (models : List (Str × Tensor)), (∀ m ∈ models, Layout m.2 sample d) → ∀ o,
    collectDims sample models o = .ok (if models = [] then o else some d) := by
  intro models
  induction models with
  | nil => intro _ o; simp [collectDims]
  | cons m rest ih =>
    intro h o
    obtain ⟨e, he⟩ := (h m (List.mem_cons_self ..)).2
    obtain ⟨n, t⟩ := m
    simp only [collectDims, varDims_eq, he]
    rw [ih (fun m hm => h m (List.mem_cons_of_mem _ hm))]
    by_cases hr : rest = [] <;> simp [hr]

theorem diagLabels_ok {t : Tensor} {sample d} (h : Layout t sample d) : t.diagLabels sample d = .ok (t.labels d) := by
  obtain ⟨_, e, he⟩ := h
  simp only [Tensor.diagLabels, varDims_eq, he, if_true]

theorem drawModel_ok (t : Tensor) (sample : List Str) (d v : Str) (lags : List ℝ) (hl : t.lags = lags) (hv : v ∈ t.labels d) (ci : ℝ × ℝ) (offset : ℝ)
    (colour : Nat) : ∃ m, drawModel t sample ((t.labels d).idxOf v) lags ci offset colour = .ok m ∧ Shows t sample d v ci offset colour m := by
  subst hl
  unfold drawModel
  rw [if_pos rfl]
  have hk : (t.labels d)[(t.labels d).idxOf v]? = some v := by
    rw [List.getElem?_eq_getElem (List.idxOf_lt_length_iff.2 hv)]
    simp
  by_cases hs : Sampled t sample
  · rw [if_neg (fun h => (present_empty t sample).1 h hs)]
    refine ⟨_, rfl, _, hk, .inr ⟨hs, _, rfl, by simp, ?_⟩⟩
    intro l x hx
    rw [sorted_eq]
    simp [List.getElem?_map, List.getElem?_zipIdx, hx]
  · rw [if_pos ((present_empty t sample).2 hs)]
    refine ⟨_, rfl, _, hk, .inl ⟨hs, _, rfl, by simp, ?_⟩⟩
    intro l x hx
    simp [List.getElem?_map, List.getElem?_zipIdx, hx]

theorem drawModels_ok (sample : List Str) (d v : Str) (lags : List ℝ) (ci : ℝ × ℝ) : ∀ (ms : List ((Str × Tensor) × ℝ × Nat)),
    (∀ m ∈ ms, Layout m.1.2 sample d ∧ m.1.2.lags = lags) →
    ∃ marks, drawModels sample d v lags ci ms = .ok marks ∧
      List.Forall₂ (fun m mark => Shows m.1.2 sample d v ci m.2.1 m.2.2 mark) (ms.filter fun m => decide (v ∈ m.1.2.labels d)) marks := by
  intro ms
  induction ms with
  | nil => intro _; exact ⟨[], rfl, .nil⟩
  | cons m rest ih =>
    intro h
    obtain ⟨marks, h1, h2⟩ := ih fun m hm => h m (List.mem_cons_of_mem _ hm)
    obtain ⟨⟨n, t⟩, offset, colour⟩ := m
    obtain ⟨hlay, hlag⟩ := h _ (List.mem_cons_self ..)
    simp only [drawModels, diagLabels_ok hlay]
    by_cases hv : v ∈ t.labels d
    · obtain ⟨mk, hm, hs⟩ := drawModel_ok t sample d v lags hlag hv ci offset colour
      rw [if_pos hv, hm]
      simp only [h1]
      refine ⟨mk :: marks, rfl, ?_⟩
      rw [List.filter_cons_of_pos (by simpa using hv)]
      exact .cons hs h2
    · rw [if_neg hv, h1]
      refine ⟨marks, rfl, ?_⟩
      rw [List.filter_cons_of_neg (by simpa using hv)]
      exact h2

theorem reference_ok (r : Option Reference) (v : Str) : ShowsReference r v (drawReference r v) := by
  constructor
  · rintro q labels rfl hq hv
    have hk : labels[labels.idxOf v]? = some v := by
      rw [List.getElem?_eq_getElem (List.idxOf_lt_length_iff.2 hv)]
      simp
    have e : drawReference (some q) v = [.reference (q.lags.zipIdx.map fun p => (p.1, q.value (labels.idxOf v) p.2))] := by
      simp only [drawReference, hq, if_pos hv]
    refine ⟨_, _, hk, e, by simp, ?_⟩
    intro l x hx
    simp [List.getElem?_map, List.getElem?_zipIdx, hx]
  · intro h
    cases r with
    | none => rfl
    | some q =>
      cases hq : q.labels with
      | none => simp [drawReference, hq]
      | some labels => simp only [drawReference, hq, if_neg (h q labels rfl hq)]

theorem drawPanels_ok (sample : List Str) (d : Str) (lags : List ℝ) (ci : ℝ × ℝ) (ms : List ((Str × Tensor) × ℝ × Nat)) (r : Option Reference)
    (h : ∀ m ∈ ms, Layout m.1.2 sample d ∧ m.1.2.lags = lags) : ∀ (vs : List (Str × Loc)), ∃ ps, drawPanels sample d lags ci ms r vs = .ok ps ∧
      List.Forall₂ (fun v p => p.title = v.1 ∧ p.loc = v.2 ∧ ∃ marks refs, p.marks = marks ++ refs ∧ ShowsReference r v.1 refs ∧
        List.Forall₂ (fun m mark => Shows m.1.2 sample d v.1 ci m.2.1 m.2.2 mark) (ms.filter fun m => decide (v.1 ∈ m.1.2.labels d)) marks) vs ps := by
  intro vs
  induction vs with
  | nil => exact ⟨[], rfl, .nil⟩
  | cons v rest ih =>
    obtain ⟨ps, h1, h2⟩ := ih
    obtain ⟨v, loc⟩ := v
    obtain ⟨marks, hm, hs⟩ := drawModels_ok sample d v lags ci ms h
    exact ⟨_, by simp only [drawPanels, hm, h1]; rfl, .cons ⟨rfl, rfl, marks, _, rfl, reference_ok r v, hs⟩ h2⟩

theorem offset_eq (n : Nat) (dodge : ℝ) (i : Nat) (h : i < n) : offsetOf n dodge i = ((i : ℝ) - ((n : ℝ) - 1) / 2) * dodge := by
  unfold offsetOf
  split
  · rfl
  · have h1 : n = 1 := by omega
    have h2 : i = 0 := by omega
    subst h1; subst h2
    simp

theorem zip_get {α β : Type} {R : (α × β) → γ → Prop} {as : List α} {bs : List β} {cs : List γ} (h : List.Forall₂ R (as.zip bs) cs)
    (hlen : as.length = bs.length) : cs.length = as.length ∧ ∀ (k : Nat) (a : α) (c : γ), as[k]? = some a → cs[k]? = some c → ∃ b, bs[k]? = some b ∧ R (a, b) c := by
  have hl := h.length_eq
  refine ⟨by simp [hlen] at hl ⊢; exact hl.symm, ?_⟩
  intro k a c ha hc
  have hk : k < as.length := by
    by_contra hk; rw [List.getElem?_eq_none (by omega)] at ha; cases ha
  have hk2 : k < cs.length := by
    by_contra hk; rw [List.getElem?_eq_none (by omega)] at hc; cases hc
  have := h.get (i := k) (by simp; omega) hk2
  rw [List.getElem?_eq_getElem hk] at ha
  rw [List.getElem?_eq_getElem hk2] at hc
  cases ha; cases hc
  refine ⟨bs[k]'(by omega), List.getElem?_eq_getElem _, by simpa using this⟩

end GE.Acf

namespace GE
open Plot Acf

/-- **C128** models that share the name of their variable dimension and their lags: the figure has one panel for every variable asked for (all those
of the first model by default), in order and in its place; in it every model that has the variable, and only those, in order, in its own
colour, with its own autocorrelation of that variable, moved sideways by its offset; and after them the reference, if it has the variable. -/
theorem C128_figure_partial (models : List (Str × Tensor)) (first : Str × Tensor) (hf : models.head? = some first) (vars : Option (List Str))
    (sample : List Str) (ci : ℝ × ℝ) (reference : Option Reference) (dodge : ℝ) (c : Nat) (hc : c ≠ 0) (d : Str)
    (hd : ∀ m ∈ models, Layout m.2 sample d) (hl : ∀ m ∈ models, m.2.lags = first.2.lags) (vs : List Str)
    (hvs : vs = vars.getD (first.2.labels d)) (hne : vs ≠ []) (hav : ∀ v ∈ vs, v ∈ first.2.labels d) :
    ∃ fig g, plotAcf models vars sample ci reference dodge (some c) = .ok fig ∧ prepareGrid (min c vs.length) vs.length = .ok g ∧
      fig.panels.length = vs.length ∧
      ∀ (k : Nat) (v : Str) (p : AcfPanel), vs[k]? = some v → fig.panels[k]? = some p → p.title = v ∧ g.locs[k]? = some p.loc ∧
        ∃ marks refs, p.marks = marks ++ refs ∧ ShowsReference reference v refs ∧
          List.Forall₂ (fun (m : (Str × Tensor) × Nat) mark =>
              Shows m.1.2 sample d v ci (((m.2 : ℝ) - ((models.length : ℝ) - 1) / 2) * dodge) m.2 mark)
            (models.zipIdx.filter fun m => decide (v ∈ m.1.2.labels d)) marks := by
  cases models with
  | nil => cases hf
  | cons m0 rest =>
    cases hf
    obtain ⟨n0, t0⟩ := first
    have hpos : 0 < vs.length := List.length_pos_iff.2 hne
    obtain ⟨g, hg, _, hlen, _⟩ := C113_layout (min c vs.length) vs.length (by omega)
    have hlay0 := hd _ (List.mem_cons_self ..)
    have hdr : ∀ m ∈ ((n0, t0) :: rest).zipIdx.map fun p => (p.1, offsetOf ((n0, t0) :: rest).length dodge p.2, p.2),
        Layout m.1.2 sample d ∧ m.1.2.lags = t0.lags := by
      intro m hm
      obtain ⟨p, hp, rfl⟩ := List.mem_map.1 hm
      have := List.mem_of_getElem? (List.mem_zipIdx_iff_getElem?.1 hp)
      exact ⟨hd _ this, hl _ this⟩
    obtain ⟨ps, hps, hall⟩ := drawPanels_ok sample d t0.lags ci _ reference hdr (vs.zip g.locs)
    obtain ⟨h1, h2⟩ := zip_get hall (by rw [hlen])
    refine ⟨⟨ps, legend (((n0, t0) :: rest).map Prod.fst) reference.isSome⟩, g, ?_, hg, h1, ?_⟩
    · unfold plotAcf
      rw [collect_ok _ hd]
      simp only [reduceCtorEq, if_false]
      rw [diagLabels_ok hlay0]
      simp only
      rw [← hvs, if_pos (by simpa using hav), hg]
      simp only
      rw [if_pos hlay0.1, hps]
    · intro k v p hv hp
      obtain ⟨loc, hloc, ht, hlc, marks, refs, hm, hr, hs⟩ := h2 k v p hv hp
      refine ⟨ht, by rw [hloc, hlc], marks, refs, hm, hr, ?_⟩
      rw [List.filter_map, List.forall₂_map_left_iff] at hs
      have : ∀ m ∈ ((n0, t0) :: rest).zipIdx, m.2 < ((n0, t0) :: rest).length := by
        intro m hm
        have := List.mem_zipIdx_iff_getElem?.1 hm
        by_contra hk
        rw [List.getElem?_eq_none (by omega)] at this; cases this
      have key : ∀ (l : List ((Str × Tensor) × Nat)) (mk : List Mark), (∀ m ∈ l, m.2 < ((n0, t0) :: rest).length) →
          List.Forall₂ (fun (m : (Str × Tensor) × Nat) mark => Shows m.1.2 sample d v ci (offsetOf ((n0, t0) :: rest).length dodge m.2) m.2 mark) l mk →
          List.Forall₂ (fun (m : (Str × Tensor) × Nat) mark =>
              Shows m.1.2 sample d v ci (((m.2 : ℝ) - ((((n0, t0) :: rest).length : ℝ) - 1) / 2) * dodge) m.2 mark) l mk := by
        intro l mk hlt h
        induction h with
        | nil => exact .nil
        | cons h _ ih =>
          refine .cons ?_ (ih fun m hm => hlt m (List.mem_cons_of_mem _ hm))
          rw [← offset_eq _ _ _ (hlt _ (List.mem_cons_self ..))]
          exact h
      refine key _ _ ?_ hs
      intro m hm
      exact this m (List.mem_filter.1 hm).1

/-- **C128** the offsets are symmetric about the lag and, for whole-numbered lags and room for all models, no two points of a panel share their
place on the axis. -/
theorem C128_apart (n : Nat) (dodge : ℝ) :
    (∀ i j, i + j + 1 = n → ((i : ℝ) - ((n : ℝ) - 1) / 2) * dodge = - (((j : ℝ) - ((n : ℝ) - 1) / 2) * dodge)) ∧
    (0 < dodge → (n : ℝ) * dodge ≤ 1 → ∀ (i j : Nat) (l l' : Int), i < n → j < n →
      (l : ℝ) + ((i : ℝ) - ((n : ℝ) - 1) / 2) * dodge = l' + ((j : ℝ) - ((n : ℝ) - 1) / 2) * dodge → i = j ∧ l = l') := by
  constructor
  · rintro i j rfl
    push_cast
    ring
  · intro hd hn i j l l' hi hj h
    have h' : ((l - l' : Int) : ℝ) = ((j : ℝ) - i) * dodge := by push_cast; linarith
    have hbound : |((l - l' : Int) : ℝ)| < 1 := by
      rw [h', abs_mul, abs_of_pos hd]
      have : |(j : ℝ) - i| < n := by
        rw [abs_lt]
        have h1 : (j : ℝ) < n := by exact_mod_cast hj
        have h2 : (i : ℝ) < n := by exact_mod_cast hi
        have h3 : (0 : ℝ) ≤ j := Nat.cast_nonneg j
        have h4 : (0 : ℝ) ≤ i := Nat.cast_nonneg i
        constructor <;> linarith
      calc |(j : ℝ) - i| * dodge < n * dodge := by exact mul_lt_mul_of_pos_right this hd
        _ ≤ 1 := hn
    have hz : l - l' = 0 := by
      have : |l - l'| < 1 := by exact_mod_cast hbound
      exact Int.abs_lt_one_iff.1 this
    have hll : l = l' := by omega
    refine ⟨?_, hll⟩
    rw [hz] at h'
    have : (j : ℝ) - i = 0 := by
      have h0 : ((j : ℝ) - i) * dodge = 0 := by rw [← h']; simp
      exact (mul_eq_zero.1 h0).resolve_right hd.ne'
    have : (j : ℝ) = i := by linarith
    exact_mod_cast this.symm

/-- **C128** the legend lists the models in order, each with the colour it is drawn in, when there are several, and the reference if there is one. -/
theorem C128_legend (models : List (Str × Tensor)) (vars : Option (List Str)) (sample : List Str) (ci : ℝ × ℝ) (reference : Option Reference) (dodge : ℝ)
    (cols : Option Nat) (fig : AcfFigure) (h : plotAcf models vars sample ci reference dodge cols = .ok fig) :
    (∀ i label, Entry.model i label ∈ fig.legend ↔ 2 ≤ models.length ∧ ∃ t, models[i]? = some (label, t)) ∧
    (Entry.data ∈ fig.legend ↔ reference ≠ none) ∧ fig.legend.Nodup := by
  have hleg : fig.legend = legend (models.map Prod.fst) reference.isSome := by
    unfold plotAcf at h
    split at h
    · cases h
    · cases h
    · split at h
      · cases h
      · split at h
        · cases h
        · simp only at h
          split at h
          · split at h
            · cases h
            · split at h
              · cases h
              · split at h
                · split at h
                  · cases h
                  · cases h; rfl
                · cases h
          · cases h
  rw [hleg]
  unfold legend
  refine ⟨?_, ?_, ?_⟩
  · intro i label
    by_cases h1 : 1 < (models.map Prod.fst).length
    · rw [if_pos h1]
      rw [List.length_map] at h1
      have hd : Entry.model i label ∉ (if reference.isSome = true then [Entry.data] else []) := by split <;> simp
      simp only [List.mem_append, hd, or_false, List.mem_map, Entry.model.injEq]
      constructor
      · rintro ⟨⟨a, b⟩, hp, rfl, rfl⟩
        have := List.mem_zipIdx_iff_getElem?.1 hp
        rw [List.getElem?_map] at this
        cases hm : models[b]? with
        | none => rw [hm] at this; cases this
        | some q =>
          rw [hm] at this
          simp only [Option.map_some, Option.some.injEq] at this
          exact ⟨h1, q.2, by rw [← this]⟩
      · rintro ⟨_, t, ht⟩
        refine ⟨(label, i), List.mem_zipIdx_iff_getElem?.2 ?_, rfl, rfl⟩
        rw [List.getElem?_map, ht]; rfl
    · rw [if_neg h1]
      rw [List.length_map] at h1
      have hd : Entry.model i label ∉ (if reference.isSome = true then [Entry.data] else []) := by split <;> simp
      simp only [List.nil_append, hd, false_iff]
      rintro ⟨h2, _⟩
      exact h1 (by omega)
  · cases reference <;> split <;> simp
  · have h1 : (((models.map Prod.fst).zipIdx.map fun p => Entry.model p.2 p.1) : List Entry).Nodup := by
      have : ((((models.map Prod.fst).zipIdx.map fun p => Entry.model p.2 p.1) : List Entry).map fun e => match e with | .model i _ => i | .data => 0).Nodup := by
        rw [List.map_map]
        have : ((fun e => match e with | Entry.model i _ => i | .data => 0) ∘ fun p : Str × Nat => Entry.model p.2 p.1) = Prod.snd := by
          funext p; rfl
        rw [this, List.zipIdx_map_snd]
        exact List.nodup_range'
      exact List.Nodup.of_map _ this
    by_cases hm : 1 < (models.map Prod.fst).length
    · rw [if_pos hm]
      cases reference with
      | none => simpa using h1
      | some r =>
        simp only [Option.isSome_some, if_true]
        rw [List.nodup_append]
        refine ⟨h1, by simp, ?_⟩
        rintro a ha b hb rfl
        simp only [List.mem_singleton] at hb
        subst hb
        simp at ha
    · rw [if_neg hm]
      cases reference <;> simp

/-- **C128** a variable the first model does not have is refused, and so is a tensor without exactly two variable dimensions. -/
theorem C128_refused (models : List (Str × Tensor)) (vars : Option (List Str)) (sample : List Str) (ci : ℝ × ℝ) (reference : Option Reference) (dodge : ℝ)
    (cols : Option Nat) :
    (∀ first d vs, models.head? = some first → (∀ m ∈ models, Layout m.2 sample d) → vars = some vs → (∃ v ∈ vs, v ∉ first.2.labels d) →
      plotAcf models vars sample ci reference dodge cols = .error .valueError) ∧
    ((∃ m ∈ models, (m.2.dims.filter fun x => decide (x ≠ "lag".toList ∧ x ∉ sample)).length ≠ 2) →
      plotAcf models vars sample ci reference dodge cols = .error .valueError) := by
  constructor
  · rintro first d vs hf hd rfl ⟨v, hv, hn⟩
    cases models with
    | nil => cases hf
    | cons m0 rest =>
      cases hf
      obtain ⟨n0, t0⟩ := first
      unfold plotAcf
      rw [collect_ok _ hd]
      simp only [reduceCtorEq, if_false]
      rw [diagLabels_ok (hd _ (List.mem_cons_self ..))]
      simp only [Option.getD_some]
      rw [if_neg]
      intro h
      have := List.all_eq_true.1 h v hv
      exact hn (by simpa using this)
  · rintro ⟨m, hm, hlen⟩
    have : ∀ (ms : List (Str × Tensor)) o, m ∈ ms → collectDims sample ms o = .error .valueError := by
      intro ms
      induction ms with
      | nil => intro o h; cases h
      | cons x rest ih =>
        intro o h
        obtain ⟨n, t⟩ := x
        simp only [collectDims]
        split
        · rename_i d e he
          rcases List.mem_cons.1 h with rfl | h
          · rw [varDims_eq] at he
            rw [he] at hlen
            exact absurd rfl hlen
          · exact ih _ h
        · rfl
    unfold plotAcf
    rw [this _ _ hm]

/-- a tensor with the given lags and variable dimension and entries, for one variable -/
def Acf.exT (d : Str) (lags : List ℝ) (value : Nat → ℝ) : Tensor :=
  ⟨["lag".toList, d, "aux".toList], fun _ => ["Y".toList], lags, fun _ _ l => value l, fun _ _ _ => 0, fun _ _ _ _ => (0, 0)⟩

/-- **C128** models with other lags are drawn at the lags of the first: the autocorrelation at lag 2 appears at lag 1. -/
theorem C128_lags_violated : ∃ fig p pts, plotAcf [("a".toList, exT "v".toList [0, 1] fun _ => 1), ("b".toList, exT "v".toList [0, 2] fun l => if l = 1 then 5 else 1)]
      none ["chain".toList, "draw".toList] (1/2, 94/100) none (1/5) (some 4) = .ok fig ∧ fig.panels = [p] ∧ p.marks[1]? = some (.stem 1 pts) ∧
      pts[1]? = some (1 + 1/10, 5) := by
  refine ⟨_, _, _, rfl, rfl, rfl, ?_⟩
  simp only [exT, List.zipIdx_cons, List.zipIdx_nil, List.map_cons, List.map_nil, List.getElem?_cons_succ, List.getElem?_cons_zero]
  simp [offsetOf]
  norm_num

theorem Acf.exT_layout {d : Str} {lags value sample} (hl : d ≠ "lag".toList) (hs : d ∉ sample) (hx : "aux".toList ∉ sample) :
    Layout (exT d lags value) sample d := by
  refine ⟨List.mem_cons_self .., "aux".toList, ?_⟩
  have ha : "aux".toList ≠ "lag".toList := by decide
  simp only [exT]
  rw [List.filter_cons_of_neg (by simp), List.filter_cons_of_pos (by exact decide_eq_true ⟨hl, hs⟩), List.filter_cons_of_pos (by exact decide_eq_true ⟨ha, hx⟩)]
  rfl

theorem Acf.alone (d : Str) (hl : d ≠ "lag".toList) (hs : d ∉ ["chain".toList, "draw".toList]) (label : Str) (value : Nat → ℝ) :
    ∃ fig, plotAcf [(label, exT d [0, 1] value)] none ["chain".toList, "draw".toList] (1/2, 94/100) none (1/5) (some 4) = .ok fig := by
  obtain ⟨fig, _, h, _⟩ := C128_figure_partial [(label, exT d [0, 1] value)] _ rfl none ["chain".toList, "draw".toList] (1/2, 94/100) none (1/5) 4
    (by decide) d (by
      intro m hm
      rcases List.mem_singleton.1 hm with rfl
      exact exT_layout hl hs (by decide)) (by
      intro m hm
      rcases List.mem_singleton.1 hm with rfl
      rfl) _ rfl (by simp [exT]) (by intro v hv; exact hv)
  exact ⟨fig, h⟩

/-- **C128** models whose variable dimensions have different names cannot be drawn together, although each can be drawn alone. -/
theorem C128_dims_violated (value : Nat → ℝ) :
    plotAcf [("a".toList, exT "variable".toList [0, 1] value), ("b".toList, exT "state".toList [0, 1] value)] none ["chain".toList, "draw".toList]
      (1/2, 94/100) none (1/5) (some 4) = .error .keyError ∧
    (∃ fig, plotAcf [("a".toList, exT "variable".toList [0, 1] value)] none ["chain".toList, "draw".toList] (1/2, 94/100) none (1/5) (some 4) = .ok fig) ∧
    ∃ fig, plotAcf [("b".toList, exT "state".toList [0, 1] value)] none ["chain".toList, "draw".toList] (1/2, 94/100) none (1/5) (some 4) = .ok fig :=
  ⟨rfl, alone "variable".toList (by decide) (by decide) _ _, alone "state".toList (by decide) (by decide) _ _⟩

/-- **C128** `n_cols=None`, which the signature allows, raises TypeError. -/
theorem C128_cols_violated (value : Nat → ℝ) : plotAcf [("a".toList, exT "variable".toList [0, 1] value)] none [] (1/2, 94/100) none (1/5) none =
    .error .typeError := rfl

/-- **C128** the legend announces the data even if no panel shows any. -/
theorem C128_reference_violated (value : Nat → ℝ) : ∃ fig, plotAcf [("a".toList, exT "variable".toList [0, 1] value)] none [] (1/2, 94/100)
    (some ⟨some ["C".toList], [0, 1], fun _ _ => 0⟩) (1/5) (some 4) = .ok fig ∧ Entry.data ∈ fig.legend ∧
    ∀ p ∈ fig.panels, ∀ pts, Mark.reference pts ∉ p.marks := by
  obtain ⟨fig, _, h, _, hlen, hp⟩ := C128_figure_partial [("a".toList, exT "variable".toList [0, 1] value)] _ rfl none [] (1/2, 94/100)
    (some ⟨some ["C".toList], [0, 1], fun _ _ => 0⟩) (1/5) 4 (by decide) "variable".toList (by
      intro m hm
      rcases List.mem_singleton.1 hm with rfl
      exact exT_layout (by decide) (by simp) (by simp)) (by
      intro m hm
      rcases List.mem_singleton.1 hm with rfl
      rfl) ["Y".toList] rfl (by simp) (by intro v hv; exact hv)
  refine ⟨fig, h, ((C128_legend _ _ _ _ _ _ _ _ h).2.1).2 (by simp), ?_⟩
  intro p hpm pts hmem
  obtain ⟨k, hk⟩ := List.mem_iff_getElem?.1 hpm
  have hk0 : k = 0 := by
    by_contra hne
    rw [List.getElem?_eq_none (by rw [hlen]; simp; omega)] at hk
    cases hk
  subst hk0
  obtain ⟨_, _, marks, refs, hm, hr, hs⟩ := hp 0 "Y".toList p rfl hk
  have hrefs : refs = [] := hr.2 (by
    rintro q labels hq hl
    cases hq
    cases hl
    decide)
  rw [hm, hrefs, List.append_nil] at hmem
  have : ∀ (l : List ((Str × Tensor) × Nat)) (mk : List Mark), List.Forall₂ (fun (m : (Str × Tensor) × Nat) mark => ∃ o,
      Shows m.1.2 [] "variable".toList "Y".toList (1/2, 94/100) o m.2 mark) l mk → Mark.reference pts ∉ mk := by
    intro l mk h
    induction h with
    | nil => simp
    | cons h _ ih =>
      intro hc
      rcases List.mem_cons.1 hc with rfl | hc
      · obtain ⟨o, k, _, ⟨_, _, h, _⟩ | ⟨_, _, h, _⟩⟩ := h <;> cases h
      · exact ih hc
  exact this _ _ (List.Forall₂.imp (fun _ _ h => ⟨_, h⟩) hs) hmem

/-- non-vacuity: two models, one with samples, meet the hypotheses of `C128_figure_partial` -/
example : ∃ models : List (Str × Tensor), models.length = 2 ∧ (∀ m ∈ models, Layout m.2 ["chain".toList, "draw".toList] "v".toList) ∧
    (∀ m ∈ models, m.2.lags = [0, 1, 2]) ∧ (∃ m ∈ models, Sampled m.2 ["chain".toList, "draw".toList]) ∧
    ∃ m ∈ models, ¬ Sampled m.2 ["chain".toList, "draw".toList] := by
  refine ⟨[("a".toList, exT "v".toList [0, 1, 2] fun _ => 1), ("b".toList, { exT "v".toList [0, 1, 2] (fun _ => 1) with
    dims := ["chain".toList, "draw".toList, "lag".toList, "v".toList, "aux".toList] })], rfl, ?_, ?_, ?_, ?_⟩
  · intro m hm
    rcases List.mem_cons.1 hm with rfl | hm
    · exact ⟨by decide, "aux".toList, by decide⟩
    · rcases List.mem_singleton.1 hm with rfl
      exact ⟨by decide, "aux".toList, by decide⟩
  · intro m hm
    rcases List.mem_cons.1 hm with rfl | hm
    · rfl
    · rcases List.mem_singleton.1 hm with rfl
      rfl
  · exact ⟨_, List.mem_cons_of_mem _ (List.mem_singleton.2 rfl), _, List.mem_cons_self .., by decide⟩
  · refine ⟨_, List.mem_cons_self .., ?_⟩
    unfold Sampled
    decide

end GE
