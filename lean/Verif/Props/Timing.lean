import Verif.Model.Simplification
import Verif.Props.Time
import Verif.Props.Primitives
import Mathlib.Data.List.Lex
import Mathlib.Data.Sum.Order
import Mathlib.Data.Char
/-! # C28: classification of symbols by date -/

namespace GE

namespace Tmg

/-! ### the natural order of names -/

/-- text and digit runs alternate, text first and last -/
inductive Alt : List NPart → Prop
  | one (w) : Alt [.txt w]
  | more (w d k) : Alt k → Alt (.txt w :: .dig d :: k)

theorem split_alt (s : Str) : Alt (splitDigits s) := by
  induction s with
  | nil => exact .one _
  | cons c s ih =>
    unfold splitDigits
    generalize splitDigits s = q at ih
    split
    · cases ih with
      | one w =>
        cases w <;> exact .more _ _ _ (.one _)
      | more w d k hk =>
        cases w with
        | nil => exact .more _ _ _ hk
        | cons a w => exact .more _ _ _ (.more _ _ _ hk)
    · cases ih with
      | one w => exact .one _
      | more w d k hk => exact .more _ _ _ hk

abbrev K := Lex (Str ⊕ Nat)

def key : NPart → K
  | .txt s => Sum.inlₗ s
  | .dig s => Sum.inrₗ (digitsVal s)

theorem strLe_lt (w v : Str) (h : w ≠ v) : strLe w v = decide (w < v) := by
  have h1 : strLe w v = true ↔ ¬ v < w := decide_eq_true_iff
  rw [Bool.eq_iff_iff, h1, decide_eq_true_iff]
  constructor
  · intro h2; exact lt_of_le_of_ne (not_lt.mp h2) h
  · intro h2; exact not_lt.mpr (le_of_lt h2)

theorem partsLt_key (p q : List NPart) (hp : Alt p) (hq : Alt q) : partsLt p q = some (decide (p.map key < q.map key)) := by
  induction hp generalizing q with
  | one w =>
    cases hq with
    | one v =>
      by_cases h : w = v
      · subst h; simp [partsLt]
      · simp only [partsLt, h, if_false, List.map_cons, List.map_nil, Option.some.injEq, List.cons_lt_cons_iff, strLe_lt w v h, decide_eq_decide]
        constructor
        · intro hle; exact Or.inl (Sum.Lex.inl_lt_inl_iff.mpr hle)
        · rintro (h1 | ⟨h1, h2⟩)
          · exact Sum.Lex.inl_lt_inl_iff.mp h1
          · exact absurd h2 (lt_irrefl _)
    | more v d k hk =>
      by_cases h : w = v
      · subst h; simp [partsLt, List.cons_lt_cons_iff]
      · simp only [partsLt, h, if_false, List.map_cons, List.map_nil, Option.some.injEq, List.cons_lt_cons_iff, strLe_lt w v h, decide_eq_decide]
        constructor
        · intro hle; exact Or.inl (Sum.Lex.inl_lt_inl_iff.mpr hle)
        · rintro (h1 | ⟨h1, h2⟩)
          · exact Sum.Lex.inl_lt_inl_iff.mp h1
          · exact absurd (Sum.inl.inj h1) h
  | more w e j hj ih =>
    cases hq with
    | one v =>
      by_cases h : w = v
      · subst h; simp [partsLt, List.cons_lt_cons_iff]
      · simp only [partsLt, h, if_false, List.map_cons, List.map_nil, Option.some.injEq, List.cons_lt_cons_iff, strLe_lt w v h, decide_eq_decide]
        constructor
        · intro hle; exact Or.inl (Sum.Lex.inl_lt_inl_iff.mpr hle)
        · rintro (h1 | ⟨h1, h2⟩)
          · exact Sum.Lex.inl_lt_inl_iff.mp h1
          · exact absurd (Sum.inl.inj h1) h
    | more v d k hk =>
      by_cases h : w = v
      · subst h
        by_cases hd : digitsVal e = digitsVal d
        · simp only [partsLt, if_true, hd, ih k hk, List.map_cons, key, List.cons_lt_cons_iff, lt_irrefl, false_or, true_and]
        · simp only [partsLt, if_true, hd, if_false, List.map_cons, Option.some.injEq, decide_eq_decide, List.cons_lt_cons_iff, lt_irrefl,
            false_or, true_and]
          constructor
          · intro hlt; exact Or.inl (Sum.Lex.inr_lt_inr_iff.mpr hlt)
          · rintro (h1 | ⟨h1, h2⟩)
            · exact Sum.Lex.inr_lt_inr_iff.mp h1
            · exact absurd (Sum.inr.inj h1) hd
      · simp only [partsLt, h, if_false, List.map_cons, Option.some.injEq, List.cons_lt_cons_iff, strLe_lt w v h, decide_eq_decide]
        constructor
        · intro hle; exact Or.inl (Sum.Lex.inl_lt_inl_iff.mpr hle)
        · rintro (h1 | ⟨h1, h2⟩)
          · exact Sum.Lex.inl_lt_inl_iff.mp h1
          · exact absurd (Sum.inl.inj h1) h

def nkey (s : Str) : List K := (splitDigits s).map key

theorem naturalLt_key (a b : Str) : naturalLt a b = some (decide (nkey a < nkey b)) :=
  partsLt_key _ _ (split_alt a) (split_alt b)

def le (a b : TSym) : Bool := naturalLt b.base a.base ≠ some true

theorem le_iff (a b : TSym) : le a b = true ↔ nkey a.base ≤ nkey b.base := by
  simp [le, naturalLt_key]

theorem naturalSort_eq (xs) : naturalSort xs = sortBy le xs := rfl

theorem sort_perm (xs : List TSym) : (naturalSort xs).Perm xs := Ldr.sortBy_perm _ _

theorem sort_sorted (xs : List TSym) : (naturalSort xs).Pairwise fun a b => nkey a.base ≤ nkey b.base := by
  have := Ldr.sortBy_sorted le (fun a b c h1 h2 => by rw [le_iff] at *; exact le_trans h1 h2)
    (fun a b => by rw [Bool.or_eq_true, le_iff, le_iff]; exact le_total _ _) xs
  exact this.imp fun h => (le_iff _ _).mp h

/-! ### splitting at digits -/

theorem split_digits (ds s : Str) (hd : ∀ c ∈ ds, c.isDigit = true) (hne : ds ≠ []) (hs : ∀ c s', s = c :: s' → c.isDigit = false) :
    splitDigits (ds ++ s) = .txt [] :: .dig ds :: splitDigits s := by
  induction ds with
  | nil => exact absurd rfl hne
  | cons c ds ih =>
    have hc := hd c (by simp)
    cases ds with
    | nil =>
      simp only [List.cons_append, List.nil_append, splitDigits, hc, if_true]
      cases s with
      | nil => rfl
      | cons b s' =>
        have hb := hs b s' rfl
        have : ∃ w k, splitDigits (b :: s') = .txt (b :: w) :: k := by
          have ha := split_alt s'
          unfold splitDigits; simp only [hb, Bool.false_eq_true, if_false]
          cases hh : splitDigits s' with
          | nil => rw [hh] at ha; cases ha
          | cons p k =>
            rw [hh] at ha
            cases ha <;> exact ⟨_, _, rfl⟩
        obtain ⟨w, k, hk⟩ := this
        rw [hk]
    | cons d ds =>
      have := ih (fun c hc => hd c (List.mem_cons_of_mem _ hc)) (by simp)
      simp only [List.cons_append] at this ⊢
      rw [splitDigits, if_pos hc, this]

theorem split_text (c : Char) (s w k) (hc : c.isDigit = false) (h : splitDigits s = .txt w :: k) :
    splitDigits (c :: s) = .txt (c :: w) :: k := by
  simp [splitDigits, hc, h]

/-- comparison after a common beginning -/
theorem nkey_cons_lt (c : Char) (s s' : Str) (hc : c.isDigit = false) : nkey (c :: s) < nkey (c :: s') ↔ nkey s < nkey s' := by
  have ha := split_alt s
  have hb := split_alt s'
  have hhead : ∀ s : Str, ∃ w k, splitDigits s = .txt w :: k := by
    intro s
    have := split_alt s
    cases hh : splitDigits s with
    | nil => rw [hh] at this; cases this
    | cons p k => rw [hh] at this; cases this <;> exact ⟨_, _, rfl⟩
  obtain ⟨w, k, h1⟩ := hhead s
  obtain ⟨v, j, h2⟩ := hhead s'
  unfold nkey
  rw [split_text c s w k hc h1, split_text c s' v j hc h2, h1, h2]
  simp only [List.map_cons, List.cons_lt_cons_iff]
  have hlt : key (.txt (c :: w)) < key (.txt (c :: v)) ↔ key (.txt w) < key (.txt v) := by
    unfold key
    rw [Sum.Lex.inl_lt_inl_iff, Sum.Lex.inl_lt_inl_iff, List.cons_lt_cons_iff]
    simp
  have heq : key (.txt (c :: w)) = key (.txt (c :: v)) ↔ key (.txt w) = key (.txt v) := by
    unfold key
    constructor
    · intro h; rw [(List.cons.inj (Sum.inl.inj h)).2]
    · intro h; rw [Sum.inl.inj h]
  rw [hlt, heq]

theorem digitsVal_natStr (n : Nat) : digitsVal (natStr n) = n := by
  have : digitsVal (natStr n) = Nat.ofDigitChars 10 (natStr n) 0 := by
    unfold digitsVal Nat.ofDigitChars
    rfl
  rw [this]; simp [natStr, Nat.ofDigitChars_toDigits]

end Tmg

open Tmg

/-- C28: the sort key never compares a number with a text, so sorting cannot fail with a TypeError, whatever the names are -/
theorem C28_comparable (a b : Str) : naturalLt a b = some true ∨ naturalLt a b = some false := by
  rw [naturalLt_key]
  by_cases h : nkey a < nkey b <;> simp [h]

/-- C28: the order is a strict weak order -/
theorem C28_order (a b c : Str) :
    naturalLt a a = some false ∧ (naturalLt a b = some true → naturalLt b a = some false) ∧
    (naturalLt a b = some true → naturalLt b c = some true → naturalLt a c = some true) ∧
    (naturalLt a b = some false → naturalLt b c = some false → naturalLt a c = some false) := by
  simp only [naturalLt_key, Option.some.injEq, decide_eq_true_eq, decide_eq_false_iff_not, not_lt]
  exact ⟨le_refl _, le_of_lt, lt_trans, fun h1 h2 => le_trans h2 h1⟩

/-- C28: numeric parts after a common beginning are compared as numbers: `x2` comes before `x10` -/
theorem C28_numeric (p s s' : Str) (m n : Nat) (hp : ∀ c ∈ p, c.isDigit = false) (hs : ∀ c k, s = c :: k → c.isDigit = false)
    (hs' : ∀ c k, s' = c :: k → c.isDigit = false) (h : m < n) : naturalLt (p ++ natStr m ++ s) (p ++ natStr n ++ s') = some true := by
  rw [naturalLt_key, Option.some.injEq, decide_eq_true_eq]
  induction p with
  | nil =>
    have hne : ∀ k, natStr k ≠ [] := fun k => Nat.toDigits_ne_nil
    simp only [List.nil_append]
    unfold nkey
    rw [split_digits _ s (fun c hc => natStr_digit hc) (hne m) hs, split_digits _ s' (fun c hc => natStr_digit hc) (hne n) hs']
    simp only [List.map_cons, List.cons_lt_cons_iff, lt_irrefl, false_or, true_and]
    refine Or.inl ?_
    unfold key
    rw [Sum.Lex.inr_lt_inr_iff, digitsVal_natStr, digitsVal_natStr]
    exact h
  | cons c p ih =>
    simp only [List.cons_append]
    rw [nkey_cons_lt c _ _ (hp c (by simp))]
    have := ih fun c hc => hp c (List.mem_cons_of_mem _ hc)
    simpa using this

/-- C28: names without digits are compared as text -/
theorem C28_text (a b : Str) (ha : ∀ c ∈ a, c.isDigit = false) (hb : ∀ c ∈ b, c.isDigit = false) :
    naturalLt a b = some (decide (a < b)) := by
  have hsp : ∀ s : Str, (∀ c ∈ s, c.isDigit = false) → splitDigits s = [.txt s] := by
    intro s hs
    induction s with
    | nil => rfl
    | cons c s ih => exact split_text c s s [] (hs c (by simp)) (ih fun d hd => hs d (List.mem_cons_of_mem _ hd))
  rw [naturalLt_key, Option.some.injEq, decide_eq_decide]
  unfold nkey
  rw [hsp a ha, hsp b hb]
  simp only [List.map_cons, List.map_nil, List.cons_lt_cons_iff, lt_irrefl, and_false, or_false]
  unfold key
  exact Sum.Lex.inl_lt_inl_iff

/-- C28, violated: distinct names can tie (`x1` and `x01`), so the order of the result is then the hash order of the set the code iterates -/
theorem C28_tie_violated : ∃ a b : Str, a ≠ b ∧ naturalLt a b = some false ∧ naturalLt b a = some false :=
  ⟨"x1".toList, "x01".toList, by decide, by decide +kernel, by decide +kernel⟩

/-! ## classification -/

/-- equal base names carry equal assumptions: what the parser produces when every variable is declared once -/
def SameAssumptions (atoms : List TSym) : Prop := ∀ x ∈ atoms, ∀ y ∈ atoms, x.base = y.base → x.asm = y.asm

namespace Tmg

theorem invalid_nil (atoms : List TSym) : (atoms.filter fun x => ¬ validTime x) = [] ↔ ∀ x ∈ atoms, x.idx = .t (-1) ∨ x.idx = .t 0 ∨ x.idx = .t 1 := by
  simp [List.filter_eq_nil_iff, validTime, or_iff_not_imp_left]

theorem classify_ok (atoms : List TSym) (shocks : List Str) (r) (h : classifyTiming atoms shocks = .ok r) :
    (∀ x ∈ atoms, x.idx = .t (-1) ∨ x.idx = .t 0 ∨ x.idx = .t 1) ∧
    r = ⟨varsAtTime atoms shocks (-1), varsAtTime atoms shocks 0, varsAtTime atoms shocks 1, naturalSort (atoms.filter fun x => x.base ∈ shocks)⟩ := by
  unfold classifyTiming at h
  by_cases hi : (atoms.filter fun x => ¬ validTime x) = []
  · simp only [hi, ne_eq, not_true_eq_false, if_false, Except.ok.injEq] at h
    exact ⟨(invalid_nil _).mp hi, h.symm⟩
  · simp only [ne_eq, hi, not_false_eq_true, if_true] at h
    cases h

theorem mem_byTime (atoms : List TSym) (shocks : List Str) (p) :
    p ∈ dupdate [] ((atoms.filter fun x => x.base ∉ shocks).map fun x => ((x.base, x.idx), x)) →
    p.2 ∈ atoms ∧ p.2.base ∉ shocks ∧ p.1 = (p.2.base, p.2.idx) := by
  intro h
  rcases Lag.mem_dupdate _ _ _ h with h | h
  · cases h
  · obtain ⟨x, hx, rfl⟩ := List.mem_map.mp h
    have := List.mem_filter.mp hx
    exact ⟨this.1, by simpa using this.2, rfl⟩

theorem mem_vars (atoms : List TSym) (shocks : List Str) (t : Int) (x : TSym) (h : x ∈ varsAtTime atoms shocks t) :
    x ∈ atoms ∧ x.base ∉ shocks ∧ x.idx = .t t := by
  unfold varsAtTime at h
  have h := (sort_perm _).mem_iff.mp h
  obtain ⟨p, hp, rfl⟩ := List.mem_map.mp h
  obtain ⟨hp1, hp2⟩ := List.mem_filter.mp hp
  obtain ⟨h1, h2, h3⟩ := mem_byTime atoms shocks p hp1
  rw [h3] at hp2
  exact ⟨h1, h2, by simpa using hp2⟩

theorem vars_mem (atoms : List TSym) (shocks : List Str) (t : Int) (x : TSym) (h : x ∈ atoms) (hs : x.base ∉ shocks) (ht : x.idx = .t t) :
    ∃ y ∈ varsAtTime atoms shocks t, y.base = x.base := by
  have hk : (x.base, x.idx) ∈ dkeys (dupdate [] ((atoms.filter fun x => x.base ∉ shocks).map fun x => ((x.base, x.idx), x))) := by
    rw [mem_dkeys_dupdate]
    right
    refine List.mem_map.mpr ⟨((x.base, x.idx), x), List.mem_map.mpr ⟨x, List.mem_filter.mpr ⟨h, by simpa using hs⟩, rfl⟩, rfl⟩
  obtain ⟨p, hp, hpk⟩ := List.mem_map.mp hk
  obtain ⟨h1, h2, h3⟩ := mem_byTime atoms shocks p hp
  refine ⟨p.2, ?_, ?_⟩
  · unfold varsAtTime
    refine (sort_perm _).mem_iff.mpr (List.mem_map.mpr ⟨p, List.mem_filter.mpr ⟨hp, ?_⟩, rfl⟩)
    rw [hpk, ht]; simp
  · have := h3.symm.trans hpk
    exact (Prod.mk.inj this).1

theorem vars_nodup (atoms : List TSym) (shocks : List Str) (t : Int) : ((varsAtTime atoms shocks t).map TSym.base).Nodup := by
  unfold varsAtTime
  rw [((sort_perm _).map _).nodup_iff]
  have hn := dupdate_nodup [] ((atoms.filter fun x => x.base ∉ shocks).map fun x => ((x.base, x.idx), x)) (by simp [dkeys])
  have hm := mem_byTime atoms shocks
  generalize dupdate [] ((atoms.filter fun x => x.base ∉ shocks).map fun x => ((x.base, x.idx), x)) = d at hn hm
  rw [List.map_map]
  have h2 : (dkeys (d.filter fun p => decide (p.1.2 = .t t))).Nodup := hn.sublist (List.Sublist.map _ List.filter_sublist)
  refine List.Nodup.of_map (f := fun b => (b, TIdx.t t)) ?_
  have : (d.filter fun p => decide (p.1.2 = .t t)).map Prod.fst =
      ((d.filter fun p => decide (p.1.2 = .t t)).map (TSym.base ∘ Prod.snd)).map fun b => (b, TIdx.t t) := by
    rw [List.map_map]
    refine List.map_congr_left fun p hp => ?_
    obtain ⟨hp1, hp2⟩ := List.mem_filter.mp hp
    have := (hm p hp1).2.2
    have ht : p.1.2 = .t t := by simpa using hp2
    simp only [Function.comp]
    rw [this] at ht ⊢
    simp only at ht
    rw [ht]
  rw [← this]
  exact h2

end Tmg

/-- C28: the classification is refused exactly when some symbol (shocks included) has a date other than −1, 0, 1, or is a steady-state symbol;
the message names exactly those symbols -/
theorem C28_rejects (atoms : List TSym) (shocks : List Str) :
    ((∃ bad, classifyTiming atoms shocks = .error bad) ↔ ∃ x ∈ atoms, ∀ i : Int, -1 ≤ i → i ≤ 1 → x.idx ≠ .t i) ∧
    ∀ bad, classifyTiming atoms shocks = .error bad → ∀ x, x ∈ bad ↔ x ∈ atoms ∧ ∀ i : Int, -1 ≤ i → i ≤ 1 → x.idx ≠ .t i := by
  have hv : ∀ x : TSym, (¬ (validTime x = true)) ↔ ∀ i : Int, -1 ≤ i → i ≤ 1 → x.idx ≠ .t i := by
    intro x
    simp only [validTime, decide_eq_true_eq, not_or]
    constructor
    · rintro ⟨h1, h2, h3⟩ i hi1 hi2
      have : i = -1 ∨ i = 0 ∨ i = 1 := by omega
      rcases this with rfl | rfl | rfl <;> assumption
    · intro h; exact ⟨h _ (by omega) (by omega), h _ (by omega) (by omega), h _ (by omega) (by omega)⟩
  unfold classifyTiming
  by_cases hi : (atoms.filter fun x => ¬ validTime x) = []
  · simp only [hi, ne_eq, not_true_eq_false, if_false]
    refine ⟨⟨fun ⟨_, h⟩ => by simp at h, ?_⟩, fun _ h => by simp at h⟩
    rintro ⟨x, hx, hb⟩
    rw [List.filter_eq_nil_iff] at hi
    exact absurd ((hv x).mpr hb) (by simpa using hi x hx)
  · simp only [ne_eq, hi, not_false_eq_true, if_true]
    refine ⟨⟨fun _ => ?_, fun _ => ⟨_, rfl⟩⟩, ?_⟩
    · obtain ⟨x, hx⟩ := List.exists_mem_of_ne_nil _ hi
      obtain ⟨h1, h2⟩ := List.mem_filter.mp hx
      exact ⟨x, h1, (hv x).mp (by simpa using h2)⟩
    · intro bad hb x
      rw [Except.error.injEq] at hb; subst hb
      rw [(sort_perm _).mem_iff, List.mem_filter, ← hv x]
      simp

/-- C28: a variable is in the lagged (current, lead) list exactly when it occurs with date −1 (0, 1) and is not a shock; a shock is in the
shock list at whatever date it occurs -/
theorem C28_membership (atoms : List TSym) (shocks : List Str) (hasm : SameAssumptions atoms) (r) (h : classifyTiming atoms shocks = .ok r)
    (x : TSym) :
    (x ∈ r.lags ↔ x ∈ atoms ∧ x.base ∉ shocks ∧ x.idx = .t (-1)) ∧ (x ∈ r.now ↔ x ∈ atoms ∧ x.base ∉ shocks ∧ x.idx = .t 0) ∧
    (x ∈ r.leads ↔ x ∈ atoms ∧ x.base ∉ shocks ∧ x.idx = .t 1) ∧ (x ∈ r.shocks ↔ x ∈ atoms ∧ x.base ∈ shocks) := by
  obtain ⟨hdate, rfl⟩ := classify_ok atoms shocks r h
  have key : ∀ t, x ∈ varsAtTime atoms shocks t ↔ x ∈ atoms ∧ x.base ∉ shocks ∧ x.idx = .t t := by
    intro t
    refine ⟨mem_vars atoms shocks t x, fun ⟨h1, h2, h3⟩ => ?_⟩
    obtain ⟨y, hy, hb⟩ := vars_mem atoms shocks t x h1 h2 h3
    obtain ⟨g1, g2, g3⟩ := mem_vars atoms shocks t y hy
    have : y = x := by
      have ha := hasm y g1 x h1 hb
      obtain ⟨yb, yi, ya⟩ := y; obtain ⟨xb, xi, xa⟩ := x
      simp only at *
      subst hb ha h3 g3; rfl
    exact this ▸ hy
  refine ⟨key _, key _, key _, ?_⟩
  rw [(sort_perm _).mem_iff, List.mem_filter]
  simp

/-- C28, violated: when one name carries two sets of assumptions, one of the two symbols is lost -/
theorem C28_assumptions_violated : ∃ atoms r, (∀ x ∈ atoms, x.idx = .t 0) ∧ classifyTiming atoms [] = .ok r ∧
    ∃ x ∈ atoms, x ∉ r.lags ∧ x ∉ r.now ∧ x ∉ r.leads ∧ x ∉ r.shocks :=
  ⟨[⟨['y'], .t 0, []⟩, ⟨['y'], .t 0, [(['p'], true)]⟩], ⟨[], [⟨['y'], .t 0, [(['p'], true)]⟩], [], []⟩, by decide, by decide +kernel,
    ⟨['y'], .t 0, []⟩, by decide, by decide⟩

/-- C28: no name is listed twice for one date, and every list is in natural order -/
theorem C28_sorted (atoms : List TSym) (shocks : List Str) (r) (h : classifyTiming atoms shocks = .ok r) :
    ∀ l ∈ [r.lags, r.now, r.leads, r.shocks], l.Pairwise (fun a b => naturalLt b.base a.base = some false) ∧
      (l = r.lags ∨ l = r.now ∨ l = r.leads → (l.map TSym.base).Nodup) := by
  obtain ⟨hdate, rfl⟩ := classify_ok atoms shocks r h
  have hs : ∀ xs : List TSym, (naturalSort xs).Pairwise fun a b => naturalLt b.base a.base = some false := fun xs =>
    (sort_sorted xs).imp fun {a b} hab => by rw [naturalLt_key, Option.some.injEq, decide_eq_false_iff_not]; exact not_lt.mpr hab
  intro l hl
  refine ⟨?_, ?_⟩
  · simp only [List.mem_cons, List.not_mem_nil, or_false] at hl
    rcases hl with rfl | rfl | rfl | rfl
    · exact hs _
    · exact hs _
    · exact hs _
    · exact hs _
  · rintro (rfl | rfl | rfl) <;> exact vars_nodup ..

namespace Tmg

theorem sorted_unique : ∀ (l m : List TSym), l.Perm m → l.Pairwise (fun a b => nkey a.base ≤ nkey b.base) →
    m.Pairwise (fun a b => nkey a.base ≤ nkey b.base) → (∀ a ∈ l, ∀ b ∈ l, nkey a.base = nkey b.base → a = b) → l = m := by
  intro l m hp hl hm hinj
  refine List.Perm.eq_of_pairwise (le := fun a b => nkey a.base ≤ nkey b.base) ?_ hl hm hp
  intro a b ha hb h1 h2
  exact hinj a ha b (hp.mem_iff.mpr hb) (le_antisymm h1 h2)

end Tmg

/-- C28: the result does not depend on the order in which Python iterates the set of symbols, when no two names tie (`C28_tie_violated`) -/
theorem C28_iteration_order (atoms atoms' : List TSym) (shocks : List Str) (hasm : SameAssumptions atoms) (hperm : atoms.Perm atoms')
    (htie : ∀ x ∈ atoms, ∀ y ∈ atoms, naturalLt x.base y.base = some false → naturalLt y.base x.base = some false → x.base = y.base)
    (hshock : ∀ x ∈ atoms, ∀ y ∈ atoms, x.base ∈ shocks → x.base = y.base → x.idx = y.idx)
    (r r') (h : classifyTiming atoms shocks = .ok r) (h' : classifyTiming atoms' shocks = .ok r') : r = r' := by
  have hasm' : SameAssumptions atoms' := fun x hx y hy => hasm x (hperm.mem_iff.mpr hx) y (hperm.mem_iff.mpr hy)
  have hm := C28_membership atoms shocks hasm r h
  have hm' := C28_membership atoms' shocks hasm' r' h'
  obtain ⟨hdate, rfl⟩ := classify_ok atoms shocks r h
  obtain ⟨hdate', rfl⟩ := classify_ok atoms' shocks r' h'
  have hk : ∀ x ∈ atoms, ∀ y ∈ atoms, nkey x.base = nkey y.base → x.base = y.base := by
    intro x hx y hy hxy
    refine htie x hx y hy ?_ ?_ <;> rw [naturalLt_key, hxy] <;> simp
  have hv : ∀ t : Int, t = -1 ∨ t = 0 ∨ t = 1 → varsAtTime atoms shocks t = varsAtTime atoms' shocks t := by
    intro t ht
    have hmem : ∀ x, x ∈ varsAtTime atoms shocks t ↔ x ∈ varsAtTime atoms' shocks t := by
      intro x
      rcases ht with rfl | rfl | rfl
      · have a := (hm x).1; have b := (hm' x).1; simp only at a b; rw [a, b, hperm.mem_iff]
      · have a := (hm x).2.1; have b := (hm' x).2.1; simp only at a b; rw [a, b, hperm.mem_iff]
      · have a := (hm x).2.2.1; have b := (hm' x).2.2.1; simp only at a b; rw [a, b, hperm.mem_iff]
    have hp : (varsAtTime atoms shocks t).Perm (varsAtTime atoms' shocks t) :=
      (List.perm_ext_iff_of_nodup (vars_nodup atoms shocks t).of_map (vars_nodup atoms' shocks t).of_map).mpr hmem
    refine sorted_unique _ _ hp (sort_sorted _) (sort_sorted _) fun a ha b hb hab => ?_
    obtain ⟨a1, a2, a3⟩ := mem_vars _ _ _ _ ha
    obtain ⟨b1, b2, b3⟩ := mem_vars _ _ _ _ hb
    have hbase := hk a a1 b b1 hab
    have hasm := hasm a a1 b b1 hbase
    obtain ⟨ab, ai, aa⟩ := a; obtain ⟨bb, bi, ba⟩ := b
    simp only at *
    subst hbase hasm a3 b3; rfl
  have hsh : naturalSort (atoms.filter fun x => x.base ∈ shocks) = naturalSort (atoms'.filter fun x => x.base ∈ shocks) := by
    refine sorted_unique _ _ (((sort_perm _).trans (hperm.filter _)).trans (sort_perm _).symm) (sort_sorted _) (sort_sorted _) fun a ha b hb hab => ?_
    obtain ⟨a1, a2⟩ := List.mem_filter.mp ((sort_perm _).mem_iff.mp ha)
    obtain ⟨b1, b2⟩ := List.mem_filter.mp ((sort_perm _).mem_iff.mp hb)
    have hbase := hk a a1 b b1 hab
    have hasm := hasm a a1 b b1 hbase
    have hidx := hshock a a1 b b1 (by simpa using a2) hbase
    obtain ⟨ab, ai, aa⟩ := a; obtain ⟨bb, bi, ba⟩ := b
    simp only at *
    subst hbase hasm hidx; rfl
  rw [hv (-1) (by simp), hv 0 (by simp), hv 1 (by simp), hsh]

/-- C28: the three lists of all combinations have one entry per variable (distinct up to date), in order of first occurrence, position by
position the same variable at dates −1, 0 and 1 -/
theorem C28_combinations (xs : List TSym) :
    (allTimeCombinations xs).2.1.Nodup ∧ (∀ y, y ∈ (allTimeCombinations xs).2.1 ↔ ∃ x ∈ xs, y = { x with idx := .t 0 }) ∧
    (allTimeCombinations xs).1.length = (allTimeCombinations xs).2.1.length ∧ (allTimeCombinations xs).2.2.length = (allTimeCombinations xs).2.1.length ∧
    (∀ ys, (allTimeCombinations xs).2.1 <+: (allTimeCombinations (xs ++ ys)).2.1) ∧
    ∀ (i : Nat) (y : TSym), (allTimeCombinations xs).2.1[i]? = some y → y.idx = .t 0 ∧
      (allTimeCombinations xs).1[i]? = some { y with idx := .t (-1) } ∧ (allTimeCombinations xs).2.2[i]? = some { y with idx := .t 1 } := by
  have hmem : ∀ y, y ∈ (allTimeCombinations xs).2.1 ↔ ∃ x ∈ xs, y = { x with idx := .t 0 } := by
    intro y
    simp [allTimeCombinations, List.mem_eraseDups, TSym.now, eq_comm]
  refine ⟨Ldr.nodup_eraseDups' _ _ (Nat.le_refl _), hmem, by simp [allTimeCombinations], by simp [allTimeCombinations],
    fun ys => by simp [allTimeCombinations, List.eraseDups_append], fun i y hy => ?_⟩
  obtain ⟨x, -, hx⟩ := (hmem y).mp (List.mem_of_getElem? hy)
  refine ⟨by rw [hx], ?_, ?_⟩ <;>
  · simp only [allTimeCombinations, List.getElem?_map] at hy ⊢
    rw [hy]; rfl

/-! ### concrete cases -/

/-- C28 on a small model: `y10[0], y2[0], k[-1], c[1], e[0]` -/
example : classifyTiming [⟨"y10".toList, .t 0, []⟩, ⟨"y2".toList, .t 0, []⟩, ⟨['k'], .t (-1), []⟩, ⟨['c'], .t 1, []⟩, ⟨['e'], .t 0, []⟩] [['e']] =
    .ok ⟨[⟨['k'], .t (-1), []⟩], [⟨"y2".toList, .t 0, []⟩, ⟨"y10".toList, .t 0, []⟩], [⟨['c'], .t 1, []⟩], [⟨['e'], .t 0, []⟩]⟩ := by
  decide +kernel

example : classifyTiming [⟨['y'], .t 0, []⟩, ⟨['y'], .ss, []⟩] [] = .error [⟨['y'], .ss, []⟩] := by decide +kernel

example : SameAssumptions [⟨"y10".toList, .t 0, []⟩, ⟨"y2".toList, .t 0, []⟩] := by
  intro x hx y hy _
  simp only [List.mem_cons, List.not_mem_nil, or_false] at hx hy
  rcases hx with rfl | rfl <;> rcases hy with rfl | rfl <;> rfl

end GE
