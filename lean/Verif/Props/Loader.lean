import Verif.Model.Loader
import Verif.Props.Flatten
import Verif.Props.Validate
/-! # C19, C52–C56: from parsed blocks to model primitives -/

namespace GE
namespace Ldr

theorem mergeLoop_fst (ds : List (List (Sym × SExpr))) (acc dups) : (mergeLoop ds acc dups).1 = ds.foldl dupdate acc := by
  induction ds generalizing acc dups with
  | nil => rfl
  | cons d ds ih => simp only [mergeLoop, List.foldl_cons]; exact ih _ _

theorem mem_dups (ds : List (List (Sym × SExpr))) (acc dups) (k : Sym) :
    k ∈ (mergeLoop ds acc dups).2 ↔ k ∈ dups ∨ 2 ≤ ds.countP (fun d => k ∈ dkeys d) + (if k ∈ dkeys acc then 1 else 0) := by
  induction ds generalizing acc dups with
  | nil => simp only [mergeLoop, List.countP_nil]; split <;> simp
  | cons d ds ih =>
    simp only [mergeLoop]
    rw [ih]
    simp only [List.mem_append, List.mem_filter, decide_eq_true_eq, mem_dkeys_dupdate, List.countP_cons]
    by_cases h1 : k ∈ dkeys acc <;> by_cases h2 : k ∈ dkeys d <;> simp [h1, h2]

theorem pairwise_of_count (ds : List (List (Sym × SExpr))) (h : ∀ k, ds.countP (fun d => k ∈ dkeys d) ≤ 1) :
    ds.Pairwise (fun d e => ∀ k ∈ dkeys d, k ∉ dkeys e) := by
  induction ds with
  | nil => exact List.Pairwise.nil
  | cons d ds ih =>
    rw [List.pairwise_cons]
    refine ⟨?_, ih fun k => ?_⟩
    · intro e he k hk hke
      have := h k
      rw [List.countP_cons] at this
      have h2 : 0 < ds.countP fun d => k ∈ dkeys d := List.countP_pos_iff.mpr ⟨e, he, by simpa using hke⟩
      rw [if_pos (by simpa using hk)] at this; omega
    · have := h k; rw [List.countP_cons] at this; omega

theorem flat_nodup (ds : List (List (Sym × SExpr))) (hn : ∀ d ∈ ds, (dkeys d).Nodup)
    (hp : ds.Pairwise (fun d e => ∀ k ∈ dkeys d, k ∉ dkeys e)) : (dkeys ds.flatten).Nodup := by
  induction ds with
  | nil => simp [dkeys]
  | cons d ds ih =>
    rw [List.pairwise_cons] at hp
    simp only [List.flatten_cons, dkeys, List.map_append]
    rw [List.nodup_append]
    refine ⟨hn d (by simp), ih (fun e he => hn e (by simp [he])) hp.2, ?_⟩
    intro a ha b hb hab
    subst hab
    simp only [List.mem_map, List.mem_flatten] at hb
    obtain ⟨p, ⟨e, he, hpe⟩, rfl⟩ := hb
    exact hp.1 e he _ ha (List.mem_map_of_mem hpe)

theorem foldl_dupdate (ds : List (List (Sym × SExpr))) (acc) (h : (dkeys (acc ++ ds.flatten)).Nodup) : ds.foldl dupdate acc = acc ++ ds.flatten := by
  induction ds generalizing acc with
  | nil => simp
  | cons d ds ih =>
    rw [List.foldl_cons, dupdate_fresh, ih]
    · simp
    · simpa using h
    · rw [List.flatten_cons, ← List.append_assoc] at h
      simp only [dkeys, List.map_append] at h ⊢
      exact (List.nodup_append.mp h).1

end Ldr

open Ldr Vld

/-- **C19** merging fails exactly when two blocks define the same parameter, and the error names exactly the parameters defined by at
least two blocks. -/
theorem C19_duplicates (ds : List (List (Sym × SExpr))) :
    ((∃ e, mergeParams ds = .error e) ↔ ∃ k, 2 ≤ ds.countP fun d => k ∈ dkeys d) ∧
    ∀ e, mergeParams ds = .error e → ∀ k, k ∈ e ↔ 2 ≤ ds.countP fun d => k ∈ dkeys d := by
  have hm : ∀ k, k ∈ (mergeLoop ds [] []).2 ↔ 2 ≤ ds.countP fun d => k ∈ dkeys d := by
    intro k; rw [mem_dups]; simp [dkeys]
  unfold mergeParams
  by_cases h : (mergeLoop ds [] []).2.isEmpty = true
  · simp only [h, if_true]
    refine ⟨⟨(fun ⟨e, he⟩ => by cases he), ?_⟩, (fun e he => by cases he)⟩
    rintro ⟨k, hk⟩
    rw [← hm, List.isEmpty_iff.mp h] at hk
    simp at hk
  · simp only [h]
    refine ⟨⟨fun _ => ?_, fun _ => ⟨_, rfl⟩⟩, ?_⟩
    · cases hl : (mergeLoop ds [] []).2 with
      | nil => simp [hl] at h
      | cons k l => exact ⟨k, (hm k).mp (by rw [hl]; simp)⟩
    · intro e he; cases he; exact hm

/-- **C19** when merging succeeds the result contains exactly every parameter of every block with its value, each once, in alphabetical
order. -/
theorem C19_merge (ds : List (List (Sym × SExpr))) (r : List (Str × SExpr)) (h : mergeParams ds = .ok r)
    (hn : ∀ d ∈ ds, (dkeys d).Nodup) (hp : ∀ d ∈ ds, ∀ k ∈ dkeys d, ∃ n, k = .par n) :
    (∀ n v, (n, v) ∈ r ↔ ∃ d ∈ ds, (Sym.par n, v) ∈ d) ∧ (dkeys r).Nodup ∧ (dkeys r).Pairwise (fun a b => strLe a b = true) := by
  have hc : ∀ k, ds.countP (fun d => k ∈ dkeys d) ≤ 1 := by
    intro k
    by_contra hk
    obtain ⟨e, he⟩ := (C19_duplicates ds).1.mpr ⟨k, by omega⟩
    rw [he] at h; cases h
  have hflat := flat_nodup ds hn (pairwise_of_count ds hc)
  simp only [mergeParams] at h
  split at h
  · have h1 : (mergeLoop ds [] []).1 = ds.flatten := by rw [mergeLoop_fst, foldl_dupdate _ _ (by simpa using hflat)]; simp
    cases h
    rw [h1]
    have hpar : ∀ p ∈ ds.flatten, ∃ n, p.1 = .par n := by
      intro p hpm
      obtain ⟨d, hd, hpd⟩ := List.mem_flatten.mp hpm
      exact hp d hd _ (List.mem_map_of_mem hpd)
    have hk : dkeys (ds.flatten.map fun p => (p.1.toStr, p.2)) = (dkeys ds.flatten).map Sym.toStr := by
      simp only [dkeys, List.map_map]; rfl
    have hnd : (dkeys (ds.flatten.map fun p => (p.1.toStr, p.2))).Nodup := by
      rw [hk]
      refine List.Nodup.map_on ?_ hflat
      intro a ha b hb hab
      simp only [dkeys, List.mem_map] at ha hb
      obtain ⟨p, hp1, rfl⟩ := ha
      obtain ⟨q, hq1, rfl⟩ := hb
      obtain ⟨n, hn1⟩ := hpar p hp1
      obtain ⟨m, hm1⟩ := hpar q hq1
      rw [hn1, hm1] at hab ⊢
      simp only [Sym.toStr] at hab; rw [hab]
    have hup : dupdate [] (ds.flatten.map fun p => (p.1.toStr, p.2)) = ds.flatten.map fun p => (p.1.toStr, p.2) := by
      rw [dupdate_fresh _ _ (by simpa using hnd)]; simp
    unfold sortToString
    rw [hup]
    have perm := sortBy_perm (fun a b => strLe a.1 b.1) (ds.flatten.map fun p => (p.1.toStr, p.2))
    refine ⟨?_, ?_, ?_⟩
    · intro n v
      rw [perm.mem_iff]
      simp only [List.mem_map, Prod.mk.injEq]
      constructor
      · rintro ⟨p, hpm, h1, h2⟩
        obtain ⟨m, hm1⟩ := hpar p hpm
        rw [hm1] at h1
        simp only [Sym.toStr] at h1
        obtain ⟨d, hd, hpd⟩ := List.mem_flatten.mp hpm
        refine ⟨d, hd, ?_⟩
        rw [← h1, ← hm1, ← h2]; exact hpd
      · rintro ⟨d, hd, hpd⟩
        exact ⟨_, List.mem_flatten.mpr ⟨d, hd, hpd⟩, rfl, rfl⟩
    · exact (perm.map Prod.fst).nodup_iff.mpr hnd
    · have := sortBy_sorted (fun a b : Str × SExpr => strLe a.1 b.1)
        (fun a b c => strLe_trans a.1 b.1 c.1) (fun a b => strLe_total a.1 b.1) (ds.flatten.map fun p => (p.1.toStr, p.2))
      simpa [dkeys, List.pairwise_map] using this
  · cases h

/-- non-vacuity: two blocks with different parameters are merged, with a common one the merge fails -/
example : mergeParams [[(.par ['b'], .num 2)], [(.par ['a'], .num 1)]] = .ok [(['a'], .num 1), (['b'], .num 2)] ∧
    mergeParams [[(.par ['b'], .num 2)], [(.par ['b'], .num 1)]] = .error [.par ['b']] := by decide +kernel

/-- reading off a computed part of a loaded model -/
theorem Ldr.loaded {α : Type} (m : Mdl) (f : Primitives → α) (v : α) (h : (loadModel m).toOption.map f = some v) :
    ∃ P, loadModel m = .ok P ∧ f P = v := by
  cases hm : loadModel m with
  | error e => rw [hm] at h; cases h
  | ok P => rw [hm] at h; exact ⟨P, rfl, by simpa [Except.toOption] using h⟩

/-- a block with just these calibration lines -/
def calBlock (name : Str) (cs : List (Expr × Expr)) : Blk := { name := name, calibration := cs.map fun p => .eq { lhs := p.1, rhs := p.2 } }

/-- **C19** is violated across parameter classes: a parameter given a number in one block and a formula in another loads without error
and ends up in both dictionaries, with two different values. -/
theorem C19_cross_class_violated :
    ∃ P, loadModel { blocks := [calBlock ['A'] [(.par ['a'], .num 1), (.par ['c'], .num 3)], calBlock ['B'] [(.par ['a'], .par ['c'])]] } = .ok P ∧
      P.param = [(['a'], .num 1), (['c'], .num 3)] ∧ P.determ = [(['a'], .sym (.par ['c']))] := by
  have h : (loadModel { blocks := [calBlock ['A'] [(.par ['a'], .num 1), (.par ['c'], .num 3)], calBlock ['B'] [(.par ['a'], .par ['c'])]] }).toOption.map
      (fun P => (P.param, P.determ)) = some ([(['a'], .num 1), (['c'], .num 3)], [(['a'], .sym (.par ['c']))]) := by decide +kernel
  obtain ⟨P, h1, h2⟩ := loaded _ _ _ h
  exact ⟨P, h1, congrArg Prod.fst h2, congrArg Prod.snd h2⟩

/-- **C19** is violated for blocks sharing a name: the parameters of the earlier block disappear without an error. -/
theorem C19_same_name_violated :
    ∃ P, loadModel { blocks := [calBlock ['A'] [(.par ['a'], .num 1)], calBlock ['A'] [(.par ['b'], .num 2)]] } = .ok P ∧
      P.param = [(['b'], .num 2)] := by
  exact loaded _ Primitives.param _ (by decide +kernel)

end GE
