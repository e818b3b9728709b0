/-!
# Shared vocabulary of the model

`Str` stands for a Python `str` (list of code points); a Python `dict` is an insertion-ordered
association list with the usual in-place update.
-/

namespace GE

deriving instance DecidableEq for Except

/-- A Python `str`. -/
abbrev Str := List Char

/-- `d.get(k)` of a Python dict (language semantics; first matching entry, keys are unique). -/
def dget {κ ν : Type} [DecidableEq κ] : List (κ × ν) → κ → Option ν
  | [], _ => none
  | (k', v) :: d, k => if k' = k then some v else dget d k

/-- `d[k] = v` of a plain Python dict: replaces in place or appends at the end
(language semantics of insertion-ordered dicts). -/
def dset {κ ν : Type} [DecidableEq κ] : List (κ × ν) → κ → ν → List (κ × ν)
  | [], k, v => [(k, v)]
  | (k', v') :: d, k, v => if k' = k then (k', v) :: d else (k', v') :: dset d k v

/-- `d.update(e)` of plain Python dicts: assignments in the order of `e`. -/
def dupdate {κ ν : Type} [DecidableEq κ] (d e : List (κ × ν)) : List (κ × ν) :=
  e.foldl (fun acc p => dset acc p.1 p.2) d

/-- `list(d.keys())`. -/
def dkeys {κ ν : Type} (d : List (κ × ν)) : List κ := d.map Prod.fst

section
variable {κ ν : Type} [DecidableEq κ]

theorem dget_dset (d : List (κ × ν)) (k k' : κ) (v : ν) :
    dget (dset d k v) k' = if k = k' then some v else dget d k' := by
  induction d with
  | nil => simp [dset, dget]
  | cons p d ih =>
    obtain ⟨a, b⟩ := p
    simp only [dset]
    by_cases h : a = k
    · subst h; simp only [if_true, dget]; split <;> simp_all
    · simp only [h, if_false, dget, ih]
      by_cases h2 : a = k'
      · subst h2; simp [Ne.symm h]
      · simp [h2]

@[simp] theorem dget_dset_self (d : List (κ × ν)) (k : κ) (v : ν) :
    dget (dset d k v) k = some v := by simp [dget_dset]

theorem mem_dkeys_dset (d : List (κ × ν)) (k k' : κ) (v : ν) :
    k' ∈ dkeys (dset d k v) ↔ k' = k ∨ k' ∈ dkeys d := by
  induction d with
  | nil => simp [dset, dkeys]
  | cons p d ih =>
    obtain ⟨a, b⟩ := p
    simp only [dset]
    by_cases h : a = k
    · subst h; simp [dkeys]
    · simp only [h, if_false]
      simp only [dkeys, List.map_cons, List.mem_cons] at ih ⊢
      rw [ih]; grind

theorem dget_isSome (d : List (κ × ν)) (k : κ) : (dget d k).isSome ↔ k ∈ dkeys d := by
  induction d with
  | nil => simp [dget, dkeys]
  | cons p d ih =>
    obtain ⟨a, b⟩ := p
    simp only [dget, dkeys, List.map_cons, List.mem_cons]
    by_cases h : a = k
    · simp [h]
    · simp only [h, if_false, ih, dkeys]; grind

theorem dget_eq_none (d : List (κ × ν)) (k : κ) : dget d k = none ↔ k ∉ dkeys d := by
  rw [← dget_isSome]; cases dget d k <;> simp

theorem dset_nodup (d : List (κ × ν)) (k : κ) (v : ν) (h : (dkeys d).Nodup) :
    (dkeys (dset d k v)).Nodup := by
  induction d with
  | nil => simp [dset, dkeys]
  | cons p d ih =>
    obtain ⟨a, b⟩ := p
    simp only [dkeys, List.map_cons, List.nodup_cons] at h
    simp only [dset]
    by_cases h2 : a = k
    · simp only [h2, if_true, dkeys, List.map_cons, List.nodup_cons]; rw [← h2]; exact h
    · simp only [h2, if_false]
      have := ih h.2
      have hm := mem_dkeys_dset d k a v
      simp only [dkeys, List.map_cons, List.nodup_cons] at this hm ⊢
      exact ⟨by grind, this⟩

theorem dupdate_nodup (d e : List (κ × ν)) (h : (dkeys d).Nodup) : (dkeys (dupdate d e)).Nodup := by
  induction e generalizing d with
  | nil => exact h
  | cons p e ih => exact ih _ (dset_nodup _ _ _ h)

theorem mem_dkeys_dupdate (d e : List (κ × ν)) (k : κ) :
    k ∈ dkeys (dupdate d e) ↔ k ∈ dkeys d ∨ k ∈ dkeys e := by
  induction e generalizing d with
  | nil => simp [dupdate, dkeys]
  | cons p e ih =>
    have := ih (dset d p.1 p.2)
    simp only [dupdate, List.foldl_cons] at this ⊢
    rw [this, mem_dkeys_dset]
    simp only [dkeys, List.map_cons, List.mem_cons]; grind

theorem dset_new (d : List (κ × ν)) (k : κ) (v : ν) (h : k ∉ dkeys d) : dset d k v = d ++ [(k, v)] := by
  induction d with
  | nil => rfl
  | cons p d ih =>
    obtain ⟨a, b⟩ := p
    simp only [dkeys, List.map_cons, List.mem_cons, not_or] at h
    simp only [dset, if_neg (Ne.symm h.1), List.cons_append]
    rw [ih h.2]

/-- updating with fresh, distinct keys appends -/
theorem dupdate_fresh (d e : List (κ × ν)) (h : (dkeys (d ++ e)).Nodup) : dupdate d e = d ++ e := by
  induction e generalizing d with
  | nil => simp [dupdate]
  | cons p e ih =>
    have hk : p.1 ∉ dkeys d := by
      simp only [dkeys, List.map_append, List.map_cons] at h
      have := (List.nodup_append.mp h).2.2
      intro hm; exact this _ hm _ (by simp) rfl
    simp only [dupdate, List.foldl_cons]
    rw [dset_new d p.1 p.2 hk]
    have := ih (d ++ [p]) (by simpa using h)
    simp only [dupdate] at this
    rw [show d ++ [(p.1, p.2)] = d ++ [p] from rfl, this]; simp

theorem dget_of_mem (d : List (κ × ν)) (h : (dkeys d).Nodup) (k : κ) (v : ν) (hm : (k, v) ∈ d) :
    dget d k = some v := by
  induction d with
  | nil => simp at hm
  | cons p d ih =>
    obtain ⟨a, b⟩ := p
    simp only [dkeys, List.map_cons, List.nodup_cons] at h
    simp only [dget]
    rcases List.mem_cons.mp hm with h1 | h1
    · simp_all
    · by_cases h2 : a = k
      · exfalso; apply h.1; rw [h2]; exact List.mem_map.mpr ⟨_, h1, rfl⟩
      · simp [h2, ih h.2 h1]

theorem mem_of_dget (d : List (κ × ν)) (k : κ) (v : ν) (h : dget d k = some v) : (k, v) ∈ d := by
  induction d with
  | nil => simp [dget] at h
  | cons p d ih =>
    obtain ⟨a, b⟩ := p
    simp only [dget] at h
    split at h
    · simp_all
    · exact List.mem_cons_of_mem _ (ih h)

/-- the value found after `d.update(e)`: the last binding in `e`, else the one in `d` -/
theorem dget_dupdate (d e : List (κ × ν)) (k : κ) :
    dget (dupdate d e) k = ((dget e.reverse k).or (dget d k)) := by
  induction e generalizing d with
  | nil => simp [dupdate, dget]
  | cons p e ih =>
    have := ih (dset d p.1 p.2)
    simp only [dupdate, List.foldl_cons] at this ⊢
    rw [this, dget_dset, List.reverse_cons]
    have happ : ∀ (l : List (κ × ν)), dget (l ++ [p]) k
        = (dget l k).or (if p.1 = k then some p.2 else none) := by
      intro l
      induction l with
      | nil => simp [dget]
      | cons q l ihl =>
        simp only [List.cons_append, dget, ihl]
        split <;> simp
    rw [happ]
    cases dget e.reverse k <;> simp
    split <;> simp_all

end

end GE
