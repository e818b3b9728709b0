import Verif.Props.Containers
import Verif.Props.ExpandTime
/-! # C03, C05, C08: in-place conversions, merging, whole models -/

namespace GE

namespace Cont2

variable {V : Type}

theorem updateDict_nil (h : Heap) (d o : SDict V) (hd : d.items = []) (ho : (dkeys o.items).Nodup) :
    SDict.updateDict h d o = (⟨o.items, o.isSympy, d.ref⟩, h.put d.ref ((h.get d.ref).update (h.get o.ref))) := by
  unfold SDict.updateDict
  simp [hd, dupdate_nil_of_nodup _ ho]

theorem update_empty (m : Meta) (h1 : (dkeys m.asm).Nodup) (h2 : (dkeys m.isVar).Nodup) : ({} : Meta).update m = m := by
  unfold Meta.update
  rw [dupdate_nil_of_nodup _ h1, dupdate_nil_of_nodup _ h2]

theorem saved_nodup (items : List (Key × V)) : (dkeys (savedMeta items).asm).Nodup ∧ (dkeys (savedMeta items).isVar).Nodup := by
  unfold savedMeta
  suffices h : ∀ (m : Meta), (dkeys m.asm).Nodup ∧ (dkeys m.isVar).Nodup →
      (dkeys (items.foldl (fun m q => saveKey m q.1) m).asm).Nodup ∧ (dkeys (items.foldl (fun m q => saveKey m q.1) m).isVar).Nodup from
    h {} ⟨by simp [dkeys], by simp [dkeys]⟩
  induction items with
  | nil => exact fun m h => h
  | cons p l ih =>
    intro m hm
    apply ih
    rcases p with ⟨k, v⟩
    cases k with
    | str s => exact hm
    | var s => exact ⟨dset_nodup _ _ _ hm.1, dset_nodup _ _ _ hm.2⟩
    | par n a => exact ⟨dset_nodup _ _ _ hm.1, dset_nodup _ _ _ hm.2⟩

/-- `_clean_update` replaces everything -/
theorem cleanUpdate_eq (h : Heap) (d o : SDict V) (hr : d.ref < h.length) (hne : d.ref ≠ o.ref) (ho : (dkeys o.items).Nodup)
    (h1 : (dkeys (h.get o.ref).asm).Nodup) (h2 : (dkeys (h.get o.ref).isVar).Nodup) :
    SDict.cleanUpdate h d o = (⟨o.items, o.isSympy, d.ref⟩, (h.put d.ref {}).put d.ref (h.get o.ref)) := by
  unfold SDict.cleanUpdate
  rw [updateDict_nil _ _ _ rfl ho]
  simp only [heap_get_put _ _ _ hr, heap_get_put_ne _ _ _ _ hne, update_empty _ h1 h2]

end Cont2

open Cont2

variable {V : Type}

/-- **C03 (partial: dates t-1, t, t+1, ss only)** the in-place conversions: the same dictionary object, converted in place to string keys and
back, holds exactly its original keys, values and order -/
theorem C03_inplace_roundtrip_partial (h0 : Heap) (items : List (Key × V)) (hne : items ≠ []) (h : Representable items) :
    ∃ d h1 s h2 r h3, SDict.new h0 items = .ok (d, h1) ∧ SDict.toStrInplace h1 d = .ok (s, h2) ∧ s.ref = d.ref ∧
      s.isSympy = false ∧ (∀ p ∈ s.items, p.1.isSym = false) ∧ s.items.length = items.length ∧
      SDict.toSympyInplace h2 s = .ok (r, h3) ∧ r.ref = d.ref ∧ r.items = items ∧ r.isSympy = true := by
  have hnew := new_sym h0 items h.sym hne
  have hstr : sympyKeysToStrings items = items.map fun p => (Key.str (symbolToString p.1), p.2) := by
    unfold sympyKeysToStrings
    apply dupdate_nil_of_nodup
    rw [dkeys_map items (fun k => Key.str (symbolToString k))]
    apply nodup_map_of_inj _ _ h.nodup
    intro a ha b hb hab
    exact symbolToString_inj items h a ha b hb (by simpa using hab)
  have hstrnd : (dkeys (sympyKeysToStrings items)).Nodup := dupdate_nodup _ _ (by simp [dkeys])
  have hnosym : ∀ p ∈ sympyKeysToStrings items, p.1.isSym = false := by
    rw [hstr]; intro p hp
    obtain ⟨q, _, rfl⟩ := List.mem_map.mp hp; rfl
  have hn2 := new_str (h0 ++ [savedMeta items]) (sympyKeysToStrings items) hnosym
  have hstrs : SDict.toStr (h0 ++ [savedMeta items]) ⟨items, true, h0.length⟩ =
      .ok (⟨sympyKeysToStrings items, false, h0.length + 1⟩,
        (h0 ++ [savedMeta items] ++ [({} : Meta)]).put (h0.length + 1) (savedMeta items)) := by
    unfold SDict.toStr
    rw [copy_ok _ true (by exact h.sym)]
    simp only [bind, Except.bind, hn2, pure, Except.pure, List.length_append, List.length_cons, List.length_nil]
    congr 3
    rw [heap_get_append_lt _ _ _ (by simp), heap_get_append]
  have hcell : ((h0 ++ [savedMeta items] ++ [({} : Meta)]).put (h0.length + 1) (savedMeta items)).get (h0.length + 1) = savedMeta items :=
    heap_get_put _ _ _ (by simp)
  generalize hH : (h0 ++ [savedMeta items] ++ [({} : Meta)]).put (h0.length + 1) (savedMeta items) = H at hstrs hcell
  have hHl : H.length = h0.length + 2 := by rw [← hH]; simp
  have hin1 : SDict.toStrInplace (h0 ++ [savedMeta items]) ⟨items, true, h0.length⟩ =
      .ok (⟨sympyKeysToStrings items, false, h0.length⟩, (H.put h0.length {}).put h0.length (savedMeta items)) := by
    unfold SDict.toStrInplace
    rw [hstrs]
    simp only [bind, Except.bind, pure, Except.pure]
    rw [cleanUpdate_eq _ _ _ (by simp [hHl]) (by simp) hstrnd (by simp only [hcell]; exact (saved_nodup items).1) (by simp only [hcell]; exact (saved_nodup items).2)]
    simp only [hcell]
  have hconv : stringKeysToSympy (savedMeta items) (sympyKeysToStrings items) = items := by
    unfold stringKeysToSympy
    rw [hstr, List.map_map]
    have hid : items.map ((fun p : Key × V => (keyToSympy (savedMeta items) p.1, p.2)) ∘
        fun p => (Key.str (symbolToString p.1), p.2)) = items := by
      conv => rhs; rw [← List.map_id items]
      apply List.map_congr_left
      intro p hp
      simp [keyToSympy_roundtrip items h p hp]
    rw [hid]
    exact dupdate_nil_of_nodup items h.nodup
  have hcell2 : ((H.put h0.length {}).put h0.length (savedMeta items)).get h0.length = savedMeta items := heap_get_put _ _ _ (by simp [hHl])
  generalize hG : (H.put h0.length {}).put h0.length (savedMeta items) = G at hin1 hcell2
  have hGl : G.length = h0.length + 2 := by rw [← hG]; simp [hHl]
  have hin2 : SDict.toSympyInplace G ⟨sympyKeysToStrings items, false, h0.length⟩ =
      .ok (⟨items, true, h0.length⟩, ((G ++ [savedMeta items]).put h0.length {}).put h0.length (savedMeta items)) := by
    unfold SDict.toSympyInplace SDict.toSympy
    simp only [hcell2, hconv, bind, Except.bind, pure, Except.pure]
    rw [new_sym _ items h.sym hne]
    simp only
    have hc3 : Heap.get (G ++ [savedMeta items]) G.length = savedMeta items := heap_get_append _ _
    rw [cleanUpdate_eq _ _ _ (by simp [hGl]; omega) (by simp [hGl]) h.nodup (by simp only [hc3]; exact (saved_nodup items).1) (by simp only [hc3]; exact (saved_nodup items).2)]
    simp only [hc3]
  exact ⟨_, _, _, _, _, _, hnew, hin1, rfl, rfl, hnosym, by rw [hstr]; simp, hin2, rfl, rfl, rfl⟩

namespace Cont2

theorem dget_perm {κ ν : Type} [DecidableEq κ] (e : List (κ × ν)) (h : (dkeys e).Nodup) (k : κ) : dget e.reverse k = dget e k := by
  have hr : (dkeys e.reverse).Nodup := by
    unfold dkeys at h ⊢
    rw [List.map_reverse]
    exact List.pairwise_reverse.mpr (h.imp fun hab => Ne.symm hab)
  cases hk : dget e k with
  | some v => exact dget_of_mem _ hr _ _ (List.mem_reverse.mpr (mem_of_dget _ _ _ hk))
  | none =>
    rw [dget_eq_none] at hk ⊢
    unfold dkeys at hk ⊢
    rw [List.map_reverse, List.mem_reverse]
    exact hk

end Cont2

/-- **C05 (what holds of `update`)** `d.update(o)`: every entry of `o` replaces the one of `d` and every other entry of `d` stays; the recorded
assumptions and kinds are merged the same way; no other dictionary's metadata changes — in particular not `o`'s, unless the two share it -/
theorem C05_update_partial (h : Heap) (d o : SDict V) (ho : (dkeys o.items).Nodup) (hr : d.ref < h.length)
    (h1 : (dkeys (h.get o.ref).asm).Nodup) (h2 : (dkeys (h.get o.ref).isVar).Nodup) :
    (∀ k, dget (SDict.updateDict h d o).1.items k = (dget o.items k).or (dget d.items k)) ∧
    (SDict.updateDict h d o).1.ref = d.ref ∧
    (∀ r, r ≠ d.ref → (SDict.updateDict h d o).2.get r = h.get r) ∧
    (∀ n, dget ((SDict.updateDict h d o).2.get d.ref).asm n = (dget (h.get o.ref).asm n).or (dget (h.get d.ref).asm n)) ∧
    (∀ n, dget ((SDict.updateDict h d o).2.get d.ref).isVar n = (dget (h.get o.ref).isVar n).or (dget (h.get d.ref).isVar n)) := by
  unfold SDict.updateDict
  refine ⟨?_, rfl, ?_, ?_, ?_⟩
  · intro k
    simp only [dget_dupdate, dget_perm _ ho]
  · intro r hne
    exact heap_get_put_ne _ _ _ _ (Ne.symm hne)
  · intro n
    simp only [heap_get_put _ _ _ hr, Meta.update, dget_dupdate, dget_perm _ h1]
  · intro n
    simp only [heap_get_put _ _ _ hr, Meta.update, dget_dupdate, dget_perm _ h2]

/-- **C08** whole models: the expansion keeps every block, in order and under its name, and a path that solves every expanded block solves every
original block; the model's other parts are untouched -/
theorem C08_model {K : Type} (I : Interp K) (m : Mdl) (path : Str → Int → K) :
    (expandModel m).blocks.map (fun b => b.name) = m.blocks.map (fun b => b.name) ∧
    ((∀ b ∈ (expandModel m).blocks, b.solvedBy I path) → ∀ b ∈ m.blocks, b.solvedBy I path) ∧
    { expandModel m with blocks := m.blocks } = m := by
  refine ⟨?_, ?_, rfl⟩
  · simp only [expandModel, List.map_map]
    apply List.map_congr_left
    intro b _
    exact (C09_other_fields_kept b).1
  · intro h b hb
    exact (C08_expanded_solution_solves_original I b path (h _ (List.mem_map.mpr ⟨b, hb, rfl⟩))).1

-- non-vacuity: two dictionaries with separate metadata
example : ∃ (a b : SDict Int) (h1 h2 : Heap), SDict.new [] exItems = .ok (a, h1) ∧ SDict.new h1 exItems = .ok (b, h2) ∧ a.ref ≠ b.ref ∧
    (dkeys b.items).Nodup ∧ a.ref < h2.length ∧ (dkeys (h2.get b.ref).asm).Nodup ∧ (dkeys (h2.get b.ref).isVar).Nodup :=
  ⟨_, _, _, _, rfl, rfl, by decide, by decide, by decide, by decide, by decide⟩

end GE
