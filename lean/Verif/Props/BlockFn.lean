import Verif.Props.Tensor2
/-!
# C99: `block` -/

namespace GE

/-- every leaf stands at depth `d`, no list is empty, no tuple is used -/
inductive Uniform : ℕ → Blocks → Prop
  | leaf (t) : Uniform 0 (.leaf t)
  | list {d bs} : bs ≠ [] → (∀ b ∈ bs, Uniform d b) → Uniform (d + 1) (.list bs)

/-- a tensor cut up: along axis `a` into pieces of the first list of lengths, each of them along axis `a + 1` by the second, and so on -/
noncomputable def cutUp : ℕ → List (List ℕ) → Tensor → Blocks
  | _, [], t => .leaf t
  | a, c :: cs, t => .list ((List.range c.length).map fun k => cutUp (a + 1) cs (Tns.slice a (c.take k).sum (c.getD k 0) t))

namespace Tns

theorem depthL_some (d f n : ℕ) : ∀ bs : List Blocks, checkDepthsL d (some f) bs = .ok n ↔ n = f ∧ ∀ b ∈ bs, checkDepths d b = .ok f
  | [] => by
    simp [checkDepthsL, eq_comm]
  | b :: bs => by
    rw [checkDepthsL]
    cases h : checkDepths d b with
    | error e => simp [h]
    | ok c =>
      dsimp only
      by_cases hf : f = c
      · subst hf
        rw [if_neg (by simp), depthL_some d f n bs]
        simp [h]
      · rw [if_pos hf]
        simp [h, Ne.symm hf]

theorem depthL_none (d n : ℕ) (bs : List Blocks) : checkDepthsL d none bs = .ok n ↔ bs ≠ [] ∧ ∀ b ∈ bs, checkDepths d b = .ok n := by
  cases bs with
  | nil => simp [checkDepthsL]
  | cons b bs =>
    rw [checkDepthsL]
    cases h : checkDepths d b with
    | error e => simp [h]
    | ok c =>
      dsimp only
      rw [depthL_some]
      simp only [ne_eq, reduceCtorEq, not_false_eq_true, List.mem_cons, forall_eq_or_imp, h, Except.ok.injEq, true_and]
      constructor
      · rintro ⟨rfl, h2⟩; exact ⟨rfl, h2⟩
      · rintro ⟨rfl, h2⟩; exact ⟨rfl, h2⟩

mutual
theorem depth_ok : ∀ (b : Blocks) (d n : ℕ), checkDepths d b = .ok n ↔ ∃ m, n = d + m ∧ Uniform m b
  | .leaf t, d, n => by
    rw [checkDepths]
    constructor
    · intro h; cases h; exact ⟨0, rfl, .leaf t⟩
    · rintro ⟨m, rfl, hu⟩; cases hu; rfl
  | .tuple, d, n => by
    rw [checkDepths]
    constructor
    · intro h; cases h
    · rintro ⟨m, rfl, hu⟩; cases hu
  | .list bs, d, n => by
    rw [checkDepths, depthL_none]
    constructor
    · rintro ⟨hne, hall⟩
      obtain ⟨b0, hb0⟩ := List.exists_mem_of_ne_nil _ hne
      obtain ⟨m, hm, -⟩ := (depth_okL bs b0 hb0 _ _).1 (hall b0 hb0)
      refine ⟨m + 1, by omega, .list hne fun b hb => ?_⟩
      obtain ⟨m', hm', hu⟩ := (depth_okL bs b hb _ _).1 (hall b hb)
      have : m' = m := by omega
      rwa [this] at hu
    · rintro ⟨m, rfl, hu⟩
      cases hu with
      | list hne hall => exact ⟨hne, fun b hb => (depth_okL bs b hb _ _).2 ⟨_, by omega, hall b hb⟩⟩
theorem depth_okL : ∀ (bs : List Blocks), ∀ b ∈ bs, ∀ (d n : ℕ), checkDepths d b = .ok n ↔ ∃ m, n = d + m ∧ Uniform m b
  | [], b, hb => by simp at hb
  | c :: cs, b, hb => by
    rcases List.mem_cons.1 hb with h | h
    · rw [h]; exact depth_ok c
    · exact depth_okL cs b h
end

theorem checkDepths_uniform (b : Blocks) (d : ℕ) : checkDepths 0 b = .ok d ↔ Uniform d b := by
  rw [depth_ok]
  constructor
  · rintro ⟨m, rfl, h⟩; rwa [Nat.zero_add]
  · intro h; exact ⟨d, by simp, h⟩

theorem atleastNd_same {n : ℕ} {t : Tensor} (h : t.shape.length = n) : atleastNd n t = t := by
  subst h
  apply tensor_ext
  · simp [atleastNd, Tensor.of]
  · intro idx hidx
    have hidx : InShape (List.replicate (t.shape.length - t.shape.length) 1 ++ t.shape) idx := hidx
    unfold atleastNd
    rw [of_val _ _ hidx]
    simp

theorem recurseL_of {nd left : ℕ} : ∀ (bs : List Blocks) (ts : List Tensor), bs.length = ts.length →
    (∀ (i : ℕ) (b : Blocks) (t : Tensor), bs[i]? = some b → ts[i]? = some t → recurse nd left b = some t) → recurseL nd left bs = some ts
  | [], [], _, _ => rfl
  | [], _ :: _, h, _ => by simp at h
  | _ :: _, [], h, _ => by simp at h
  | b :: bs, t :: ts, h, hx => by
    rw [recurseL, hx 0 b t rfl rfl, Option.bind_some, recurseL_of bs ts (by simpa using h) (fun i y u h1 h2 => hx (i + 1) y u (by simpa using h1) (by simpa using h2))]
    rfl

theorem recurseL_get {nd left : ℕ} : ∀ (bs : List Blocks) (ts : List Tensor), recurseL nd left bs = some ts →
    bs.length = ts.length ∧ ∀ (i : ℕ) (b : Blocks), bs[i]? = some b → ∃ t, ts[i]? = some t ∧ recurse nd left b = some t
  | [], ts, h => by
    simp only [recurseL, Option.some.injEq] at h
    subst h; simp
  | b :: bs, ts, h => by
    rw [recurseL] at h
    obtain ⟨t, ht, h⟩ := Option.bind_eq_some_iff.1 h
    obtain ⟨ts', hts, h⟩ := Option.bind_eq_some_iff.1 h
    cases h
    obtain ⟨i1, i2⟩ := recurseL_get bs ts' hts
    refine ⟨by simp [i1], fun i z hz => ?_⟩
    cases i with
    | zero => simp at hz; subst hz; exact ⟨t, rfl, ht⟩
    | succ i => simpa using i2 i z (by simpa using hz)

/-- the pieces along one axis, put together again -/
theorem tjoin_slices (t : Tensor) (a : ℕ) (ha : a < t.shape.length) (c : List ℕ) (hc : c ≠ []) (hsum : c.sum = t.shape.getD a 0) :
    tjoin a ((List.range c.length).map fun k => slice a (c.take k).sum (c.getD k 0) t) = some t := by
  set xs := (List.range c.length).map fun k => slice a (c.take k).sum (c.getD k 0) t with hxs
  have hget : ∀ k, k < c.length → xs[k]? = some (slice a (c.take k).sum (c.getD k 0) t) := by
    intro k hk
    rw [hxs, List.getElem?_map, List.getElem?_range hk]; rfl
  have hlen : xs.length = c.length := by simp [hxs]
  have hpos : 0 < c.length := List.length_pos_iff.2 hc
  obtain ⟨x, xs', hx⟩ : ∃ x xs', xs = x :: xs' := List.exists_cons_of_ne_nil (by intro h; rw [h] at hlen; simp at hlen; omega)
  have hsh : ∀ y ∈ xs, y.shape.set a 0 = t.shape.set a 0 ∧ y.shape.length = t.shape.length := by
    intro y hy
    obtain ⟨k, -, rfl⟩ := List.mem_map.1 hy
    simp [slice, Tensor.of]
  have hx0 := hsh x (by rw [hx]; simp)
  have hw : (xs.map fun y => y.shape.getD a 0) = c := by
    apply List.ext_getElem (by simp [hlen])
    intro k h1 h2
    rw [List.getElem_map]
    have := hget k h2
    rw [List.getElem?_eq_getElem (by rw [hlen]; exact h2)] at this
    rw [Option.some.inj this]
    change (t.shape.set a (c.getD k 0)).getD a 0 = _
    rw [getD_set, if_pos ⟨rfl, ha⟩, List.getD_eq_getElem?_getD, List.getElem?_eq_getElem h2, Option.getD_some]
  rw [hx, tjoin_intro (by omega) (by rw [← hx]; intro y hy; rw [(hsh y hy).1, hx0.1]), ← hx, hw, hsum, Option.some.injEq]
  have eshape : x.shape.set a (t.shape.getD a 0) = t.shape := set_shape_eq hx0.1.symm (fun _ => rfl)
  apply tensor_ext eshape
  intro idx hidx
  have hidx : InShape (x.shape.set a (t.shape.getD a 0)) idx := hidx
  rw [of_val _ _ hidx]
  rw [eshape] at hidx
  -- which piece the index lies in
  have hal : a < idx.length := by rw [hidx.1]; exact ha
  have hlt := hidx.2 a ha
  rw [← hsum] at hlt
  obtain ⟨k, hk, hk1, hk2⟩ : ∃ k, k < c.length ∧ (c.take k).sum ≤ idx.getD a 0 ∧ idx.getD a 0 < (c.take k).sum + c.getD k 0 := by
    have : ∀ (c : List ℕ) (i : ℕ), i < c.sum → ∃ k, k < c.length ∧ (c.take k).sum ≤ i ∧ i < (c.take k).sum + c.getD k 0 := by
      intro c
      induction c with
      | nil => intro i hi; simp at hi
      | cons n c ih =>
        intro i hi
        by_cases h : i < n
        · exact ⟨0, by simp, by simp, by simpa using h⟩
        · rw [List.sum_cons] at hi
          obtain ⟨k, h1, h2, h3⟩ := ih (i - n) (by omega)
          refine ⟨k + 1, by simpa using h1, by rw [List.take_succ_cons, List.sum_cons]; omega, ?_⟩
          rw [List.take_succ_cons, List.sum_cons, List.getD_cons_succ]; omega
    exact this c _ hlt
  have hp := joinVal_piece xs k _ (idx.set a (idx.getD a 0 - (c.take k).sum)) (hget k hk) (by simpa using hal) (by
    change _ < (t.shape.set a (c.getD k 0)).getD a 0
    rw [getD_set, getD_set, if_pos ⟨rfl, hal⟩, if_pos ⟨rfl, ha⟩]; omega)
  rw [List.map_take, hw, getD_set, if_pos (c := a = a ∧ a < idx.length) ⟨rfl, hal⟩, List.set_set, Nat.sub_add_cancel hk1] at hp
  have eid : idx.set a (idx.getD a 0) = idx := by
    apply ext_getD (by simp)
    intro b hb
    rw [getD_set]
    split_ifs with h
    · rw [h.1]
    · rfl
  rw [eid] at hp
  rw [hp]
  unfold slice
  rw [of_val, getD_set, if_pos ⟨rfl, hal⟩, List.set_set, Nat.sub_add_cancel hk1, eid]
  refine ⟨by simp [hidx.1], fun b hb => ?_⟩
  rw [List.length_set] at hb
  rw [getD_set, getD_set]
  by_cases hba : b = a
  · rw [if_pos ⟨hba, hal⟩, if_pos ⟨hba, ha⟩]; omega
  · rw [if_neg (fun h => hba h.1), if_neg (fun h => hba h.1)]
    exact hidx.2 b hb

/-- the cuts fit the tensor -/
def Fits : ℕ → List (List ℕ) → List ℕ → Prop
  | _, [], _ => True
  | a, c :: cs, shape => c ≠ [] ∧ c.sum = shape.getD a 0 ∧ Fits (a + 1) cs shape

theorem fits_congr : ∀ (cs : List (List ℕ)) (a : ℕ) (s s' : List ℕ), (∀ b, a ≤ b → s.getD b 0 = s'.getD b 0) → Fits a cs s → Fits a cs s'
  | [], _, _, _, _, _ => trivial
  | c :: cs, a, s, s', h, ⟨h1, h2, h3⟩ => ⟨h1, by rw [h2, h a le_rfl], fits_congr cs (a + 1) s s' (fun b hb => h b (by omega)) h3⟩

theorem recurse_cutUp (nd : ℕ) : ∀ (cs : List (List ℕ)) (a : ℕ) (t : Tensor), t.shape.length = nd → a + cs.length = nd → Fits a cs t.shape →
    recurse nd cs.length (cutUp a cs t) = some t
  | [], a, t, h1, _, _ => by
    rw [cutUp, recurse, atleastNd_same h1]
  | c :: cs, a, t, h1, h2, ⟨f1, f2, f3⟩ => by
    rw [List.length_cons] at h2
    rw [cutUp, List.length_cons, recurse, Nat.add_sub_cancel]
    rw [recurseL_of _ ((List.range c.length).map fun k => slice a (c.take k).sum (c.getD k 0) t) (by simp)]
    · rw [Option.bind_some, show nd - (cs.length + 1) = a by omega]
      exact tjoin_slices t a (by omega) c f1 f2
    · intro i b u hb hu
      rw [List.getElem?_map] at hb hu
      obtain ⟨k, hk, rfl⟩ := Option.map_eq_some_iff.1 hb
      rw [hk] at hu
      cases hu
      apply recurse_cutUp nd cs (a + 1) _ (by simp [slice, Tensor.of, h1]) (by omega)
      refine fits_congr cs (a + 1) t.shape _ (fun b hb => ?_) f3
      change _ = (t.shape.set a _).getD b 0
      rw [getD_set, if_neg (by omega)]

theorem uniform_cutUp : ∀ (cs : List (List ℕ)) (a : ℕ) (t : Tensor), (∀ c ∈ cs, c ≠ []) → Uniform cs.length (cutUp a cs t)
  | [], _, t, _ => .leaf t
  | c :: cs, a, t, h => by
    rw [cutUp]
    refine .list ?_ ?_
    · have := h c (by simp)
      simp [this]
    · intro b hb
      obtain ⟨k, -, rfl⟩ := List.mem_map.1 hb
      exact uniform_cutUp cs (a + 1) _ (fun c hc => h c (by simp [hc]))

theorem flatL_mem {t : Tensor} : ∀ (bs : List Blocks), t ∈ Blocks.flatL bs ↔ ∃ b ∈ bs, t ∈ b.flat
  | [] => by simp [Blocks.flatL]
  | b :: bs => by simp [Blocks.flatL, flatL_mem bs]

theorem flat_cutUp : ∀ (cs : List (List ℕ)) (a : ℕ) (t : Tensor), ∀ u ∈ (cutUp a cs t).flat, u.shape.length = t.shape.length
  | [], _, t, u, hu => by
    simp only [cutUp, Blocks.flat, List.mem_singleton] at hu
    rw [hu]
  | c :: cs, a, t, u, hu => by
    rw [cutUp, Blocks.flat, flatL_mem] at hu
    obtain ⟨b, hb, hu⟩ := hu
    obtain ⟨k, -, rfl⟩ := List.mem_map.1 hb
    rw [flat_cutUp cs (a + 1) _ u hu]
    simp [slice, Tensor.of]

theorem foldl_max (n : ℕ) : ∀ (l : List ℕ) (m : ℕ), (∀ x ∈ l, x ≤ n) → m ≤ n → (m = n ∨ n ∈ l) → l.foldl max m = n
  | [], m, _, _, h => by simpa using h
  | x :: l, m, hl, hm, h => by
    rw [List.foldl_cons]
    refine foldl_max n l _ (fun y hy => hl y (by simp [hy])) (max_le hm (hl x (by simp))) ?_
    rcases h with h | h
    · left; subst h; exact max_eq_left (hl x (by simp))
    · rcases List.mem_cons.1 h with h | h
      · left; subst h; exact max_eq_right hm
      · exact Or.inr h

theorem le_foldl_max : ∀ (l : List ℕ) (m : ℕ), m ≤ l.foldl max m ∧ ∀ x ∈ l, x ≤ l.foldl max m
  | [], m => by simp
  | x :: l, m => by
    rw [List.foldl_cons]
    obtain ⟨h1, h2⟩ := le_foldl_max l (max m x)
    refine ⟨by omega, fun y hy => ?_⟩
    rcases List.mem_cons.1 hy with h | h
    · subst h; omega
    · exact h2 y h

end Tns

/-- **C99.** `block` accepts exactly the nested lists whose leaves all stand at the same depth, without empty lists and tuples, as far as the nesting is concerned: it
fails with one of its own errors otherwise, and can only fail with an error of `concatenate` then. -/
theorem C99_nesting (b : Blocks) : (∃ e, blockFn b = .error e ∧ e ≠ .concat) ↔ ¬∃ d, Uniform d b := by
  unfold blockFn
  cases h : checkDepths 0 b with
  | error e =>
    have hne : e ≠ .concat := by
      have key : (∀ b d, checkDepths d b ≠ .error .concat) := by
        intro b
        have : ∀ (bs : List Blocks) (hall : ∀ b ∈ bs, ∀ d, checkDepths d b ≠ .error .concat) (d : ℕ) (f : Option ℕ), checkDepthsL d f bs ≠ .error .concat := by
          intro bs
          induction bs with
          | nil => intro _ d f; cases f <;> simp [checkDepthsL]
          | cons c cs ih =>
            intro hall d f
            rw [checkDepthsL]
            have h1 := hall c (by simp) d
            have h2 := ih (fun b hb => hall b (by simp [hb]))
            cases hc : checkDepths d c with
            | error e => rw [hc] at h1; simpa using h1
            | ok n =>
              dsimp only
              cases f with
              | none => exact h2 d _
              | some f =>
                dsimp only
                split_ifs
                · simp
                · exact h2 d _
        exact Blocks.rec (motive_1 := fun b => ∀ d, checkDepths d b ≠ .error .concat) (motive_2 := fun bs => ∀ b ∈ bs, ∀ d, checkDepths d b ≠ .error .concat)
          (fun t d => by simp [checkDepths]) (fun bs ih d => by rw [checkDepths]; exact this bs ih _ _) (fun d => by simp [checkDepths])
          (fun b hb => by simp at hb) (fun c cs ihc ihcs b hb => by
            rcases List.mem_cons.1 hb with h | h
            · subst h; exact ihc
            · exact ihcs b h) b
      intro he
      exact key b 0 (by rw [h, he])
    refine ⟨fun _ ⟨d, hd⟩ => ?_, fun _ => ⟨e, rfl, hne⟩⟩
    rw [← Tns.checkDepths_uniform, h] at hd
    cases hd
  | ok d =>
    have hu := (Tns.checkDepths_uniform b d).1 h
    refine ⟨fun ⟨e, he, hne⟩ => ?_, fun hc => absurd ⟨d, hu⟩ hc⟩
    dsimp only at he
    split at he
    · cases he; exact absurd rfl hne
    · cases he

/-- **C99.** `block` puts together what was cut apart: for a tensor with any number of axes, cut along its last axes into pieces of any lengths, it returns the tensor. -/
theorem C99_reassembles (t : Tensor) (cs : List (List ℕ)) (hl : cs.length ≤ t.shape.length) (h1 : 1 ≤ t.shape.length)
    (hc : ∀ (i : ℕ) (c : List ℕ), cs[i]? = some c → c ≠ [] ∧ c.sum = t.shape.getD (t.shape.length - cs.length + i) 0) :
    blockFn (cutUp (t.shape.length - cs.length) cs t) = .ok t := by
  have hne : ∀ c ∈ cs, c ≠ [] := fun c h => by
    obtain ⟨i, hi⟩ := List.mem_iff_getElem?.1 h
    exact (hc i c hi).1
  have hfits : Tns.Fits (t.shape.length - cs.length) cs t.shape := by
    have : ∀ (cs : List (List ℕ)) (a : ℕ), (∀ (i : ℕ) (c : List ℕ), cs[i]? = some c → c ≠ [] ∧ c.sum = t.shape.getD (a + i) 0) → Tns.Fits a cs t.shape := by
      intro cs
      induction cs with
      | nil => intro _ _; trivial
      | cons c cs ih =>
        intro a h
        obtain ⟨g1, g2⟩ := h 0 c rfl
        refine ⟨g1, g2, ih (a + 1) fun i c hi => ?_⟩
        have := h (i + 1) c (by simpa using hi)
        rwa [show a + (i + 1) = a + 1 + i by omega] at this
    exact this cs _ hc
  unfold blockFn
  rw [(Tns.checkDepths_uniform _ _).2 (Tns.uniform_cutUp cs _ t hne)]
  dsimp only
  have hnd : ((cutUp (t.shape.length - cs.length) cs t).flat.map fun t => t.shape.length).foldl max (max cs.length 1) = t.shape.length := by
    have hall := Tns.flat_cutUp cs (t.shape.length - cs.length) t
    apply Tns.foldl_max
    · intro x hx
      obtain ⟨u, hu, rfl⟩ := List.mem_map.1 hx
      exact (hall u hu).le
    · omega
    · right
      have : (cutUp (t.shape.length - cs.length) cs t).flat ≠ [] := by
        have aux : ∀ (cs : List (List ℕ)) (a : ℕ) (t : Tensor), (∀ c ∈ cs, c ≠ []) → (cutUp a cs t).flat ≠ [] := by
          intro cs
          induction cs with
          | nil => intro a t _; simp [cutUp, Blocks.flat]
          | cons c cs ih =>
            intro a t h
            rw [cutUp, Blocks.flat]
            obtain ⟨n, c', hc'⟩ := List.exists_cons_of_ne_nil (h c (by simp))
            rw [hc', List.length_cons, List.range_succ_eq_map, List.map_cons, Blocks.flatL]
            simp [ih _ _ (fun c hc => h c (by simp [hc]))]
        exact aux cs _ t hne
      obtain ⟨u, us, hu⟩ := List.exists_cons_of_ne_nil this
      rw [List.mem_map]
      exact ⟨u, by rw [hu]; simp, hall u (by rw [hu]; simp)⟩
  rw [hnd, Tns.recurse_cutUp t.shape.length cs _ t rfl (by omega) hfits]

/-- the leaves of a nested list -/
inductive IsLeaf (t : Tensor) : Blocks → Prop
  | here : IsLeaf t (.leaf t)
  | inside {b bs} : b ∈ bs → IsLeaf t b → IsLeaf t (.list bs)

namespace Tns

theorem isLeaf_flat {t : Tensor} {b : Blocks} (h : IsLeaf t b) : t ∈ b.flat := by
  induction h with
  | here => simp [Blocks.flat]
  | inside hb _ ih => rw [Blocks.flat, flatL_mem]; exact ⟨_, hb, ih⟩

/-- pointwise sum -/
def plus (idx off : List ℕ) : List ℕ := List.zipWith (· + ·) idx off

theorem plus_getD {idx off : List ℕ} (h : off.length = idx.length) (b : ℕ) : (plus idx off).getD b 0 = idx.getD b 0 + off.getD b 0 := by
  simp only [plus, List.getD_eq_getElem?_getD, List.getElem?_zipWith]
  by_cases hb : b < idx.length
  · simp [hb, show b < off.length by omega]
  · simp [List.getElem?_eq_none (by omega : idx.length ≤ b), List.getElem?_eq_none (by omega : off.length ≤ b)]

theorem leaf_found {nd : ℕ} {t : Tensor} {b : Blocks} (hleaf : IsLeaf t b) : ∀ (d : ℕ) (T : Tensor), Uniform d b → recurse nd d b = some T →
    ∃ off : List ℕ, off.length = (atleastNd nd t).shape.length ∧ ∀ idx, InShape (atleastNd nd t).shape idx → InShape T.shape (plus idx off) ∧ T.val (plus idx off) = t.val (idx.drop (nd - t.shape.length)) := by
  induction hleaf with
  | here =>
    intro d T _ h
    rw [recurse] at h
    cases h
    refine ⟨List.replicate (atleastNd nd t).shape.length 0, by simp, fun idx hidx => ?_⟩
    have : plus idx (List.replicate (atleastNd nd t).shape.length 0) = idx := by
      apply ext_getD (by simp [plus, hidx.1])
      intro b hb
      rw [plus_getD (by simp [hidx.1]), List.getD_eq_getElem?_getD, List.getD_eq_getElem?_getD, List.getElem?_replicate]
      split_ifs <;> simp
    rw [this]
    exact ⟨hidx, of_val _ _ hidx⟩
  | @inside b bs hb _ ih =>
    intro d T hu h
    cases hu with
    | @list d _ hne hall =>
      rw [recurse, Nat.add_sub_cancel] at h
      obtain ⟨ts, hts, h⟩ := Option.bind_eq_some_iff.1 h
      obtain ⟨-, hget⟩ := recurseL_get _ _ hts
      obtain ⟨k, hk⟩ := List.mem_iff_getElem?.1 hb
      obtain ⟨u, hu, hru⟩ := hget k b hk
      obtain ⟨off, hoff, hin⟩ := ih d u (hall b hb) hru
      obtain ⟨x, xs, rfl, hax, hsh, rfl⟩ := tjoin_some h
      set a := nd - (d + 1)
      have hum : u ∈ x :: xs := List.mem_of_getElem? hu
      have hul := set_shape_len (hsh u hum)
      set o := (((x :: xs).take k).map fun y => y.shape.getD a 0).sum
      refine ⟨off.set a (off.getD a 0 + o), by simpa using hoff, fun idx hidx => ?_⟩
      obtain ⟨g1, g2⟩ := hin idx hidx
      have hil : idx.length = x.shape.length := by rw [← hul, ← g1.1]; simp [plus, hoff, hidx.1]
      have hol : off.length = idx.length := by rw [hoff, hidx.1]
      have e : plus idx (off.set a (off.getD a 0 + o)) = (plus idx off).set a ((plus idx off).getD a 0 + o) := by
        apply ext_getD (by simp [plus])
        intro c hc
        rw [plus_getD (by simp [hol]), getD_set, getD_set, plus_getD hol, plus_getD hol]
        have : (plus idx off).length = off.length := by simp [plus, hol]
        rw [this]
        split_ifs with h1
        · rw [h1.1]; omega
        · rfl
      have hpl : (plus idx off).length = x.shape.length := by rw [g1.1, hul]
      have hpiece := joinVal_piece (x :: xs) k u (plus idx off) hu (by omega) (g1.2 a (by omega))
      have hI : InShape (x.shape.set a ((x :: xs).map fun y => y.shape.getD a 0).sum) ((plus idx off).set a ((plus idx off).getD a 0 + o)) := by
        refine ⟨by simp [hpl], fun c hc => ?_⟩
        rw [List.length_set] at hc
        rw [getD_set, getD_set]
        by_cases hca : c = a
        · rw [if_pos ⟨hca, by omega⟩, if_pos ⟨hca, hax⟩]
          have hlt := g1.2 a (by omega)
          have hsp : ((x :: xs).map fun y => y.shape.getD a 0).sum = o + (((x :: xs).drop k).map fun y => y.shape.getD a 0).sum := by
            rw [← List.sum_append, ← List.map_append, List.take_append_drop]
          have hd2 : (((x :: xs).drop k).map fun y => y.shape.getD a 0).sum = u.shape.getD a 0 + (((x :: xs).drop (k + 1)).map fun y => y.shape.getD a 0).sum := by
            obtain ⟨hk', hyk⟩ := List.getElem?_eq_some_iff.1 hu
            rw [List.drop_eq_getElem_cons hk', hyk, List.map_cons, List.sum_cons]
          omega
        · rw [if_neg (fun h => hca h.1), if_neg (fun h => hca h.1), ← set_shape_getD (hsh u hum) hca]
          exact g1.2 c (by omega)
      rw [e]
      refine ⟨hI, ?_⟩
      rw [of_val _ _ hI, hpiece, g2]

end Tns

/-- **C99.** Every block is found in the result, unchanged: at some offset its entries appear in the order they have in the block, blocks with fewer axes being extended
by axes of length 1 in front (`idx.drop` forgets them). -/
theorem C99_contains (b : Blocks) (T t : Tensor) (h : blockFn b = .ok T) (hleaf : IsLeaf t b) :
    ∃ off : List ℕ, ∀ idx, InShape (List.replicate (T.shape.length - t.shape.length) 1 ++ t.shape) idx →
      InShape T.shape (List.zipWith (· + ·) idx off) ∧ T.val (List.zipWith (· + ·) idx off) = t.val (idx.drop (T.shape.length - t.shape.length)) := by
  unfold blockFn at h
  cases hd : checkDepths 0 b with
  | error e => rw [hd] at h; cases h
  | ok d =>
    rw [hd] at h
    dsimp only at h
    split at h
    · cases h
    · rename_i T' hr
      cases h
      have hu := (Tns.checkDepths_uniform b d).1 hd
      obtain ⟨off, hoff, hin⟩ := Tns.leaf_found hleaf d T hu hr
      set nd := (b.flat.map fun t => t.shape.length).foldl max (max d 1)
      have hle : ∀ t ∈ b.flat, t.shape.length ≤ nd := fun t ht => (Tns.le_foldl_max _ _).2 _ (List.mem_map.2 ⟨t, ht, rfl⟩)
      have hT : T.shape.length = nd := by
        have key : ∀ (d : ℕ) (b : Blocks), (∀ t ∈ b.flat, t.shape.length ≤ nd) → Uniform d b → ∀ T, recurse nd d b = some T → T.shape.length = nd := by
          intro d b hb hu
          induction hu with
          | leaf t =>
            intro T hT
            rw [recurse] at hT
            cases hT
            have := hb t (by simp [Blocks.flat])
            simp [atleastNd, Tensor.of]; omega
          | @list d bs hne hall ih =>
            intro T hT
            rw [recurse, Nat.add_sub_cancel] at hT
            obtain ⟨ts, hts, hT⟩ := Option.bind_eq_some_iff.1 hT
            obtain ⟨hl, hget⟩ := Tns.recurseL_get _ _ hts
            obtain ⟨x, xs, rfl, hax, hsh, rfl⟩ := Tns.tjoin_some hT
            obtain ⟨b0, bs', rfl⟩ := List.exists_cons_of_ne_nil hne
            obtain ⟨u, hu, hru⟩ := hget 0 b0 rfl
            simp only [List.getElem?_cons_zero, Option.some.injEq] at hu
            subst hu
            have := ih b0 (by simp) (fun t ht => hb t (by rw [Blocks.flat, Tns.flatL_mem]; exact ⟨b0, by simp, ht⟩)) x hru
            simp [Tensor.of, this]
        exact key d b hle hu T hr
      refine ⟨off, fun idx hidx => ?_⟩
      rw [hT] at hidx ⊢
      exact hin idx hidx

/-- a 2×3 matrix -/
noncomputable def exTensor : Tensor := Tensor.of [2, 3] fun idx => (idx.getD 0 0 * 10 + idx.getD 1 0 : ℕ)

/-- the hypotheses of `C99_reassembles` are met by a 2×3 matrix cut into rows of one and columns of two and one -/
example : blockFn (cutUp 0 [[1, 1], [2, 1]] exTensor) = .ok exTensor :=
  C99_reassembles exTensor [[1, 1], [2, 1]] (by decide) (by decide) (by
    intro i c h
    match i with
    | 0 => simp at h; subst h; decide
    | 1 => simp at h; subst h; decide
    | i + 2 => simp at h)

end GE
