import Verif.Props.ParserMisc
import Verif.Props.Containers2
import Verif.Props.Lagrangian
import Verif.Model.ToSympy
/-! # C44: the flags of the symbols -/

namespace GE
namespace Flg

theorem add_nodup (name v : Str) (d : List (Str × Asm)) (h : ∀ p ∈ d, (dkeys p.2).Nodup) : ∀ p ∈ addAssumption name v d, (dkeys p.2).Nodup := by
  intro p hp
  have h0 : (dkeys ((dget d v).getD parserDefaults)).Nodup := by
    cases hd : dget d v with
    | none => decide
    | some a => exact h _ (mem_of_dget _ _ _ hd)
  rcases Lag.mem_dset _ _ _ _ hp with hp | rfl
  · exact h p hp
  · split
    · exact dset_nodup _ _ _ (dset_nodup _ _ _ h0)
    · exact dset_nodup _ _ _ h0

theorem items_nodup (name : Str) (vs : List Str) (d : List (Str × Asm)) (h : ∀ p ∈ d, (dkeys p.2).Nodup) :
    ∀ p ∈ vs.foldl (fun d v => addAssumption name v d) d, (dkeys p.2).Nodup := by
  induction vs generalizing d with
  | nil => exact h
  | cons v vs ih => exact ih _ (add_nodup name v d h)

theorem asm_nodup (sbs : List (Str × List Str)) : ∀ p ∈ buildAssumptions sbs, (dkeys p.2).Nodup := by
  have key : ∀ (sbs : List (Str × List Str)) (d : List (Str × Asm)), (∀ p ∈ d, (dkeys p.2).Nodup) →
      ∀ p ∈ sbs.foldl (fun d b => b.2.foldl (fun d v => addAssumption (lowerStr b.1) v d) d) d, (dkeys p.2).Nodup := by
    intro sbs
    induction sbs with
    | nil => intro d h; exact h
    | cons b sbs ih => intro d h; exact ih _ (items_nodup _ _ _ h)
  exact key sbs [] (by simp)

end Flg

/-- **C44** the flags of a variable in a converted equation, at whatever date: those the caller declared for its name, which win over the
defaults; `real` and `finite` where the caller said nothing; and no others -/
theorem C44_symbol (asm : List (Str × Asm)) (hnd : ∀ p ∈ asm, (dkeys p.2).Nodup) (n : Str) (t : TIdx) (key : Str) :
    dget (convVar asm n t).asm key =
      match (dget asm n).bind (dget · key) with
      | some value => some value
      | none => if key = "real".toList ∨ key = "finite".toList then some true else none := by
  have hdef : dget defaultAssumptions key = if key = "real".toList ∨ key = "finite".toList then some true else none := by
    have h1 : "real".toList = ['r','e','a','l'] := by decide
    have h2 : "finite".toList = ['f','i','n','i','t','e'] := by decide
    rw [h1, h2]
    unfold defaultAssumptions
    by_cases hr : key = ['r','e','a','l']
    · subst hr; decide
    · by_cases hf : key = ['f','i','n','i','t','e']
      · subst hf; decide
      · rw [if_neg (by simp [hr, hf])]
        simp [dget, hr, hf, Ne.symm hr, Ne.symm hf]
  simp only [convVar, mergeAssumptions]
  rw [dget_dupdate, hdef]
  cases h : dget asm n with
  | none => rfl
  | some a =>
    have ha : (dkeys a).Nodup := hnd _ (mem_of_dget _ _ _ h)
    have hrev : dget a.reverse key = dget a key := Cont2.dget_perm a ha key
    simp only [Option.getD_some, Option.bind_some, hrev]
    cases dget a key <;> rfl

/-- **C44** from the file to the symbols: a variable's flags, at every date, are `real`, `finite` and exactly what the file declares for it -/
theorem C44_file (sbs : List (Str × List Str)) (v : Str) (t : TIdx) (key : Str) (value : Bool) :
    dget (convVar (buildAssumptions sbs) v t).asm key = some value ↔
      value = true ∧ (key = "real".toList ∨ key = "finite".toList ∨
        ∃ b ∈ sbs, v ∈ b.2 ∧ (key = lowerStr b.1 ∨ (lowerStr b.1 = "unit_interval".toList ∧ key = "positive".toList))) := by
  have h1 : "real".toList = ['r','e','a','l'] := by decide
  have h3 : "unit_interval".toList = ['u','n','i','t','_','i','n','t','e','r','v','a','l'] := by decide
  have h4 : "positive".toList = ['p','o','s','i','t','i','v','e'] := by decide
  obtain ⟨hs, ha⟩ := C44_assumptions sbs v
  rw [C44_symbol _ (Flg.asm_nodup sbs)]
  cases h : dget (buildAssumptions sbs) v with
  | none =>
    have hno : ¬ ∃ b ∈ sbs, v ∈ b.2 := by rw [← hs, h]; simp
    simp only [Option.bind_none]
    split
    · next hk =>
      constructor
      · intro hv
        cases hv
        exact ⟨rfl, hk.elim Or.inl fun h => Or.inr (Or.inl h)⟩
      · rintro ⟨rfl, -⟩; rfl
    · next hk =>
      refine ⟨(by intro hv; cases hv), ?_⟩
      rintro ⟨-, hr | hf | ⟨b, hb, hv, -⟩⟩
      · exact absurd (Or.inl hr) hk
      · exact absurd (Or.inr hf) hk
      · exact absurd ⟨b, hb, hv⟩ hno
  | some a =>
    have key' := ha a h key
    rw [← h1, ← h3, ← h4] at key'
    simp only [Option.bind_some]
    cases hk : dget a key with
    | some w =>
      have hw := (key' w).1 hk
      constructor
      · intro hv
        cases hv
        exact ⟨hw.1, hw.2.elim Or.inl fun h => Or.inr (Or.inr h)⟩
      · rintro ⟨rfl, -⟩
        rw [hw.1]
    | none =>
      have hn : ∀ w, ¬ _ := fun w hw => by
        have := (key' w).2 hw
        rw [hk] at this
        cases this
      by_cases hd : key = "real".toList ∨ key = "finite".toList
      · rw [if_pos hd]
        constructor
        · intro hv
          cases hv
          exact ⟨rfl, hd.elim Or.inl fun h => Or.inr (Or.inl h)⟩
        · rintro ⟨rfl, -⟩; rfl
      · rw [if_neg hd]
        refine ⟨(by intro hv; cases hv), ?_⟩
        rintro ⟨hv, hr | hf | hx⟩
        · exact absurd (Or.inl hr) hd
        · exact absurd (Or.inr hf) hd
        · exact absurd ⟨hv, Or.inr hx⟩ (hn value)

/-- non-vacuity: `positive { C[]; };`, and a caller who says `finite` is false -/
example : dget (convVar (buildAssumptions [("positive".toList, [['C']])]) ['C'] (.t 1)).asm "positive".toList = some true ∧
    dget (convVar [(['C'], [("finite".toList, false)])] ['C'] .ss).asm "finite".toList = some false := by
  decide +kernel

end GE
