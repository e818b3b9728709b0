import Verif.Model.Containers
import Verif.Props.Time
/-!
# C03 – C06 — SymbolDictionary
-/

namespace GE

variable {V : Type}

/-! ## helper lemmas -/

theorem dupdate_nil_of_nodup {κ ν : Type} [DecidableEq κ] (e : List (κ × ν)) (h : (dkeys e).Nodup) :
    dupdate [] e = e := by
  simpa using dupdate_fresh [] e (by simpa using h)

theorem dkeys_map {κ κ' ν : Type} (e : List (κ × ν)) (f : κ → κ') :
    dkeys (e.map fun p => (f p.1, p.2)) = (dkeys e).map f := by
  simp [dkeys, Function.comp_def]

theorem nodup_map_of_inj {α β : Type} (l : List α) (f : α → β) (h : l.Nodup)
    (hf : ∀ a ∈ l, ∀ b ∈ l, f a = f b → a = b) : (l.map f).Nodup := by
  induction l with
  | nil => simp
  | cons x l ih =>
    simp only [List.map_cons, List.nodup_cons] at h ⊢
    refine ⟨?_, ih h.2 fun a ha b hb => hf a (by simp [ha]) b (by simp [hb])⟩
    intro hm
    obtain ⟨y, hy, he⟩ := List.mem_map.mp hm
    have := hf y (by simp [hy]) x (by simp) he
    exact h.1 (this ▸ hy)

/-- the metadata recorded for a list of symbol keys -/
def savedMeta (items : List (Key × V)) : Meta := items.foldl (fun m q => saveKey m q.1) {}

theorem heap_get_append (h : Heap) (m : Meta) : Heap.get (h ++ [m]) h.length = m := by
  simp [Heap.get]

theorem heap_get_append_lt (h : Heap) (m : Meta) (r : Nat) (hr : r < h.length) :
    Heap.get (h ++ [m]) r = Heap.get h r := by
  simp [Heap.get, List.getElem?_append_left hr]

theorem heap_get_put (h : Heap) (r : Nat) (m : Meta) (hr : r < h.length) : (h.put r m).get r = m := by
  simp [Heap.get, Heap.put, hr]

theorem heap_get_put_ne (h : Heap) (r r' : Nat) (m : Meta) (hr : r ≠ r') : (h.put r m).get r' = h.get r' := by
  simp [Heap.get, Heap.put, List.getElem?_set_ne hr]

@[simp] theorem heap_put_length (h : Heap) (r : Nat) (m : Meta) : (h.put r m).length = h.length := by
  simp [Heap.put]

theorem new_sym (h : Heap) (items : List (Key × V)) (hs : ∀ p ∈ items, p.1.isSym = true) (hne : items ≠ []) :
    SDict.new h items = .ok (⟨items, true, h.length⟩, h ++ [savedMeta items]) := by
  cases items with
  | nil => exact absurd rfl hne
  | cons p l =>
    have hp : p.1.isSym = true := hs p (by simp)
    have hany : (p :: l).any (fun q => decide (q.1.isSym ≠ p.1.isSym)) = false := by
      rw [List.any_eq_false]; intro q hq; simp [hs q hq, hp]
    unfold SDict.new
    simp only [hany, Bool.false_eq_true, if_false]
    simp only [hp, if_true]
    rfl

theorem new_str (h : Heap) (items : List (Key × V)) (hs : ∀ p ∈ items, p.1.isSym = false) :
    SDict.new h items = .ok (⟨items, false, h.length⟩, h ++ [({} : Meta)]) := by
  cases items with
  | nil => rfl
  | cons p l =>
    have hp : p.1.isSym = false := hs p (by simp)
    have hany : (p :: l).any (fun q => decide (q.1.isSym ≠ p.1.isSym)) = false := by
      rw [List.any_eq_false]; intro q hq; simp [hs q hq, hp]
    unfold SDict.new
    simp only [hany, Bool.false_eq_true, if_false]
    simp only [hp]
    rfl

theorem copy_ok (d : SDict V) (b : Bool) (hs : ∀ p ∈ d.items, p.1.isSym = b) : d.copy = .ok d := by
  unfold SDict.copy
  split
  · rfl
  · rename_i p l heq
    have hany : d.items.any (fun q => decide (q.1.isSym ≠ p.1.isSym)) = false := by
      rw [List.any_eq_false]; intro q hq; simp [hs q hq, hs p (by rw [heq]; simp)]
    simp only [hany, Bool.false_eq_true, if_false]

/-- the metadata key of a symbol: base name of a variable, name of a parameter -/
def metaName : Key → Str
  | .var s => s.base
  | .par n _ => n
  | .str s => s

def keyAsm : Key → Asm
  | .var s => s.asm
  | .par _ a => a
  | .str _ => []

def keyIsVar : Key → Bool
  | .var _ => true
  | _ => false

theorem saveKey_get (m : Meta) (k : Key) (hk : k.isSym = true) (n : Str) :
    dget (saveKey m k).asm n = (if metaName k = n then some (keyAsm k) else dget m.asm n) ∧
    dget (saveKey m k).isVar n = (if metaName k = n then some (keyIsVar k) else dget m.isVar n) := by
  cases k with
  | str s => simp [Key.isSym] at hk
  | var s => simp only [saveKey, dget_dset, metaName, keyAsm, keyIsVar]; exact ⟨rfl, rfl⟩
  | par p a => simp only [saveKey, dget_dset, metaName, keyAsm, keyIsVar]; exact ⟨rfl, rfl⟩

theorem foldSave (items : List (Key × V)) (hs : ∀ p ∈ items, p.1.isSym = true) (m : Meta) (n : Str) :
    (∀ a, (∀ p ∈ items, metaName p.1 = n → keyAsm p.1 = a) →
      (∃ p ∈ items, metaName p.1 = n) ∨ dget m.asm n = some a →
      dget (items.foldl (fun m q => saveKey m q.1) m).asm n = some a) ∧
    (∀ b, (∀ p ∈ items, metaName p.1 = n → keyIsVar p.1 = b) →
      (∃ p ∈ items, metaName p.1 = n) ∨ dget m.isVar n = some b →
      dget (items.foldl (fun m q => saveKey m q.1) m).isVar n = some b) ∧
    ((∀ p ∈ items, metaName p.1 ≠ n) →
      dget (items.foldl (fun m q => saveKey m q.1) m).isVar n = dget m.isVar n) := by
  induction items generalizing m with
  | nil => simp
  | cons q l ih =>
    have hq := saveKey_get m q.1 (hs q (by simp)) n
    have := ih (fun p hp => hs p (by simp [hp])) (saveKey m q.1)
    simp only [List.foldl_cons]
    refine ⟨?_, ?_, ?_⟩
    · intro a hall hex
      apply this.1 a (fun p hp => hall p (by simp [hp]))
      rw [hq.1]
      by_cases hn : metaName q.1 = n
      · right; simp [hn, hall q (by simp) hn]
      · simp only [hn, if_false]
        rcases hex with ⟨p, hp, hpn⟩ | h
        · rcases List.mem_cons.mp hp with rfl | hp
          · exact absurd hpn hn
          · exact Or.inl ⟨p, hp, hpn⟩
        · exact Or.inr h
    · intro b hall hex
      apply this.2.1 b (fun p hp => hall p (by simp [hp]))
      rw [hq.2]
      by_cases hn : metaName q.1 = n
      · right; simp [hn, hall q (by simp) hn]
      · simp only [hn, if_false]
        rcases hex with ⟨p, hp, hpn⟩ | h
        · rcases List.mem_cons.mp hp with rfl | hp
          · exact absurd hpn hn
          · exact Or.inl ⟨p, hp, hpn⟩
        · exact Or.inr h
    · intro hall
      rw [this.2.2 (fun p hp => hall p (by simp [hp])), hq.2]
      simp [hall q (by simp)]

/-- if no *parameter* is called `n`, the `_is_variable` entry of `n` cannot be `False` -/
theorem foldSave_isVar_ne_false (items : List (Key × V)) (hs : ∀ p ∈ items, p.1.isSym = true) (m : Meta)
    (n : Str) (hm : dget m.isVar n ≠ some false)
    (hp : ∀ p ∈ items, ∀ a, p.1 ≠ .par n a) :
    dget (items.foldl (fun m q => saveKey m q.1) m).isVar n ≠ some false := by
  induction items generalizing m with
  | nil => simpa
  | cons q l ih =>
    apply ih (fun p hp => hs p (by simp [hp])) _ _ (fun p h => hp p (by simp [h]))
    rw [(saveKey_get m q.1 (hs q (by simp)) n).2]
    split
    · rename_i hn
      have := hp q (by simp)
      cases hk : q.1 with
      | str s => rw [hk] at hn; have := hs q (by simp); simp [hk, Key.isSym] at this
      | var s => simp [keyIsVar]
      | par p a => simp [hk, metaName] at hn; subst hn; exact absurd hk (this a)
    · exact hm

theorem rsplit_some {s pre last : Str} (h : rsplit s = (some pre, last)) : s = pre ++ '_' :: last := by
  induction s generalizing pre last with
  | nil => simp [rsplit] at h
  | cons c s ih =>
    simp only [rsplit] at h
    rcases hr : rsplit s with ⟨a, b⟩
    rw [hr] at h
    cases a with
    | none =>
      simp only at h
      split at h
      · rename_i hc
        simp only [Prod.mk.injEq, Option.some.injEq] at h
        obtain ⟨rfl, rfl⟩ := h
        subst hc
        have : ∀ s b, rsplit s = (none, b) → s = b := by
          intro s
          induction s with
          | nil => intro b h; simp [rsplit] at h; exact h.symm
          | cons d s ih2 =>
            intro b h
            simp only [rsplit] at h
            rcases hr2 : rsplit s with ⟨x, y⟩
            rw [hr2] at h
            cases x with
            | none =>
              simp only at h
              split at h
              · simp at h
              · simp at h; rw [← h, ih2 y hr2]
            | some x => simp at h
        simp [this s b hr]
      · simp at h
    | some a =>
      simp only [Prod.mk.injEq, Option.some.injEq] at h
      obtain ⟨rfl, rfl⟩ := h
      simp [ih hr]

/-- the four dates a key string can spell -/
def shallow : TIdx → Prop := fun i => i = .t (-1) ∨ i = .t 0 ∨ i = .t 1 ∨ i = .ss

theorem natStr_one : natStr 1 = ['1'] := by decide

theorem dget_safeSuffix (i : TIdx) (h : shallow i) : dget safeStringToIndex (safeSuffix i) = some i := by
  rcases h with rfl | rfl | rfl | rfl <;> decide

theorem isSuffixOf_append (a b : Str) : b.isSuffixOf (a ++ b) = true := by
  rw [List.isSuffixOf_iff_suffix]; exact List.suffix_append a b

theorem hasTimeSuffix_safe (b : Str) (i : TIdx) (h : shallow i) :
    hasTimeSuffix (b ++ '_' :: safeSuffix i) = true := by
  have : ∀ w, endsWith (b ++ w) w = true := fun w => isSuffixOf_append b w
  rcases h with rfl | rfl | rfl | rfl
  · have := this ['_','t','m','1']
    simp [hasTimeSuffix, safeSuffix, natStr_one, this]
  · have := this ['_','t']
    simp [hasTimeSuffix, safeSuffix, this]
  · have := this ['_','t','p','1']
    simp [hasTimeSuffix, safeSuffix, natStr_one, this]
  · have := this ['_','s','s']
    simp [hasTimeSuffix, safeSuffix, this]

/-- the user-level conditions under which a sympy-keyed dictionary survives a trip through strings -/
structure Representable (items : List (Key × V)) : Prop where
  /-- all keys are symbols, without repetition (a Python dict) -/
  sym : ∀ p ∈ items, p.1.isSym = true
  nodup : (dkeys items).Nodup
  /-- variables are dated t-1, t, t+1 or ss and have identifier names -/
  dated : ∀ p ∈ items, ∀ s, p.1 = .var s → shallow s.idx ∧ '+' ∉ s.base ∧ '-' ∉ s.base
  /-- no parameter is spelled like a dated variable of the dictionary, nor (if its own name ends like a
  date) like the base name of one -/
  noClash : ∀ p ∈ items, ∀ q ∈ items, ∀ n a s, p.1 = .par n a → q.1 = .var s →
    n ≠ safeName s ∧ (hasTimeSuffix n = true → n ≠ s.base)
  /-- symbols with the same (base) name carry the same assumptions -/
  sameAsm : ∀ p ∈ items, ∀ q ∈ items, metaName p.1 = metaName q.1 → keyAsm p.1 = keyAsm q.1

theorem symbolToString_inj (items : List (Key × V)) (h : Representable items) :
    ∀ a ∈ dkeys items, ∀ b ∈ dkeys items, symbolToString a = symbolToString b → a = b := by
  intro a ha b hb hab
  obtain ⟨p, hp, rfl⟩ := List.mem_map.mp ha
  obtain ⟨q, hq, rfl⟩ := List.mem_map.mp hb
  rcases hpk : p.1 with s | s | ⟨n, x⟩
  · have := h.sym p hp; simp [hpk, Key.isSym] at this
  · rcases hqk : q.1 with s' | s' | ⟨n', x'⟩
    · have := h.sym q hq; simp [hqk, Key.isSym] at this
    · rw [hpk, hqk] at hab
      have h1 := h.dated p hp s hpk
      have h2 := h.dated q hq s' hqk
      have h3 := C01_safe_name_injective s s' h1.2 h2.2 hab
      have h4 := h.sameAsm p hp q hq (by simp [hpk, hqk, metaName, h3.1])
      simp only [hpk, hqk, keyAsm] at h4
      obtain ⟨b1, i1, a1⟩ := s
      obtain ⟨b2, i2, a2⟩ := s'
      simp_all
    · rw [hpk, hqk] at hab
      exact absurd hab.symm (h.noClash q hq p hp n' x' s hqk hpk).1
  · rcases hqk : q.1 with s' | s' | ⟨n', x'⟩
    · have := h.sym q hq; simp [hqk, Key.isSym] at this
    · rw [hpk, hqk] at hab
      exact absurd hab (h.noClash p hp q hq n x s' hpk hqk).1
    · rw [hpk, hqk] at hab
      simp only [symbolToString] at hab
      have h4 := h.sameAsm p hp q hq (by simp [hpk, hqk, metaName, hab])
      simp only [hpk, hqk, keyAsm] at h4
      simp [hab, h4]

theorem keyToSympy_roundtrip (items : List (Key × V)) (h : Representable items) (p : Key × V) (hp : p ∈ items) :
    keyToSympy (savedMeta items) (.str (symbolToString p.1)) = p.1 := by
  have hasm : dget (savedMeta items).asm (metaName p.1) = some (keyAsm p.1) :=
    (foldSave items h.sym {} (metaName p.1)).1 _ (fun q hq hn => h.sameAsm q hq p hp hn) (Or.inl ⟨p, hp, rfl⟩)
  rcases hpk : p.1 with s | s | ⟨n, x⟩
  · have := h.sym p hp; simp [hpk, Key.isSym] at this
  · have h1 := h.dated p hp s hpk
    have hn : symbolToString (.var s) = s.base ++ '_' :: safeSuffix s.idx := safeName_eq s h1.2.1 h1.2.2
    rw [hpk] at hasm
    simp only [metaName, keyAsm] at hasm
    have hv : dget (savedMeta items).isVar (symbolToString (.var s)) ≠ some false := by
      apply foldSave_isVar_ne_false items h.sym {} _ (by simp [dget])
      intro q hq a hqk
      exact (h.noClash q hq p hp _ a s hqk hpk).1 rfl
    have hv' : (dget (savedMeta items).isVar (symbolToString (.var s))).getD true = true := by
      cases hc : dget (savedMeta items).isVar (symbolToString (.var s)) with
      | none => rfl
      | some b => cases b with
        | true => rfl
        | false => exact absurd hc hv
    simp only [keyToSympy, hv']
    rw [hn, hasTimeSuffix_safe _ _ h1.1]
    simp only [Bool.true_eq_false, or_self, if_false, safeStringToSympy,
      rsplit_append _ _ (us_not_mem_safeSuffix _), dget_safeSuffix _ h1.1, Option.getD_some, hasm]
  · rw [hpk] at hasm
    simp only [metaName, keyAsm] at hasm
    simp only [keyToSympy, symbolToString]
    by_cases hsuf : hasTimeSuffix n = true
    · have hv : dget (savedMeta items).isVar n = some false := by
        apply (foldSave items h.sym {} n).2.1 false _ (Or.inl ⟨p, hp, by simp [hpk, metaName]⟩)
        intro q hq hqn
        rcases hqk : q.1 with s' | s' | ⟨n', x'⟩
        · rfl
        · rw [hqk] at hqn
          exact absurd hqn.symm ((h.noClash p hp q hq n x s' hpk hqk).2 hsuf)
        · rfl
      simp [hv, hasm]
    · simp [hsuf, hasm]

/-! ## C03 -/

/-- **C03 (partial: dates t-1, t, t+1, ss only)** Building a dictionary of symbols, converting it to string
keys and back restores exactly the original keys (names, dates, kind, assumptions), values and order.
Missing: deeper lags and leads, for which the claim is false (`C03_deep_index_lost`). -/
theorem C03_string_roundtrip_partial (h0 : Heap) (items : List (Key × V)) (hne : items ≠ [])
    (h : Representable items) :
    ∃ d h1 s h2 r h3, SDict.new h0 items = .ok (d, h1) ∧ SDict.toStr h1 d = .ok (s, h2) ∧
      s.isSympy = false ∧ (∀ p ∈ s.items, p.1.isSym = false) ∧
      SDict.toSympy h2 s = .ok (r, h3) ∧ r.items = items ∧ r.isSympy = true := by
  have hnew := new_sym h0 items h.sym hne
  have hstr : sympyKeysToStrings items = items.map fun p => (Key.str (symbolToString p.1), p.2) := by
    unfold sympyKeysToStrings
    apply dupdate_nil_of_nodup
    rw [dkeys_map items (fun k => Key.str (symbolToString k))]
    apply nodup_map_of_inj _ _ h.nodup
    intro a ha b hb hab
    exact symbolToString_inj items h a ha b hb (by simpa using hab)
  have hnosym : ∀ p ∈ sympyKeysToStrings items, p.1.isSym = false := by
    rw [hstr]; intro p hp
    obtain ⟨q, _, rfl⟩ := List.mem_map.mp hp; rfl
  have hn2 := new_str (h0 ++ [savedMeta items]) (sympyKeysToStrings items) hnosym
  have hstrs : SDict.toStr (h0 ++ [savedMeta items]) ⟨items, true, h0.length⟩ =
      .ok (⟨sympyKeysToStrings items, false, h0.length + 1⟩,
        (h0 ++ [savedMeta items] ++ [({} : Meta)]).put (h0.length + 1) (savedMeta items)) := by
    unfold SDict.toStr
    rw [copy_ok _ true (by exact h.sym)]
    simp only [bind, Except.bind, hn2, pure, Except.pure, List.length_append, List.length_cons, List.length_nil]
    congr 3
    rw [heap_get_append_lt _ _ _ (by simp), heap_get_append]
  refine ⟨_, _, _, _, ⟨items, true, ?_⟩, ?_, hnew, hstrs, rfl, hnosym, ?_, rfl, rfl⟩
  · exact h0.length + 2
  · exact ((h0 ++ [savedMeta items] ++ [({} : Meta)]).put (h0.length + 1) (savedMeta items)) ++ [savedMeta items]
  · unfold SDict.toSympy
    rw [heap_get_put _ _ _ (by simp)]
    have : stringKeysToSympy (savedMeta items) (sympyKeysToStrings items) = items := by
      unfold stringKeysToSympy
      rw [hstr, List.map_map]
      have hid : items.map ((fun p : Key × V => (keyToSympy (savedMeta items) p.1, p.2)) ∘
          fun p => (Key.str (symbolToString p.1), p.2)) = items := by
        conv => rhs; rw [← List.map_id items]
        apply List.map_congr_left
        intro p hp
        simp [keyToSympy_roundtrip items h p hp]
      rw [hid]
      exact dupdate_nil_of_nodup items h.nodup
    simp only [this]
    rw [new_sym _ items h.sym hne]
    simp

/-- the dictionary used in the non-vacuity example: two dates of `Y_C`, and two parameters one of which is
called `rho_t` -/
def exItems : List (Key × Int) :=
  [(.var ⟨['Y','_','C'], .t (-1), [(['r'], true)]⟩, 3), (.par ['r','h','o','_','t'] [], 7),
   (.var ⟨['Y','_','C'], .ss, [(['r'], true)]⟩, 4), (.par ['a'] [(['p'], true)], 9)]

-- non-vacuity of `Representable`
example : Representable exItems where
  sym := by decide
  nodup := by decide
  dated := by
    intro p hp s hs
    simp only [exItems, List.mem_cons, List.not_mem_nil, or_false] at hp
    rcases hp with rfl | rfl | rfl | rfl <;> cases hs <;> refine ⟨?_, by decide, by decide⟩ <;> simp [shallow]
  noClash := by
    intro p hp q hq n a s hn hs
    simp only [exItems, List.mem_cons, List.not_mem_nil, or_false] at hp hq
    rcases hp with rfl | rfl | rfl | rfl <;> cases hn <;>
      rcases hq with rfl | rfl | rfl | rfl <;> cases hs <;> decide
  sameAsm := by decide

/-- **C03 is false at deeper indices**: for every date with |t| ≥ 2 and every identifier, the round trip
returns a *plain parameter* symbol instead of the dated variable. -/
theorem C03_deep_index_lost (h0 : Heap) (b : Str) (a : Asm) (k : Int) (v : V)
    (hb : '+' ∉ b ∧ '-' ∉ b) (hk : k ≥ 2 ∨ k ≤ -2) :
    ∃ d h1 s h2 r h3 n a', SDict.new h0 [(.var ⟨b, .t k, a⟩, v)] = .ok (d, h1) ∧
      SDict.toStr h1 d = .ok (s, h2) ∧ SDict.toSympy h2 s = .ok (r, h3) ∧
      r.items = [(.par n a', v)] := by
  have hsuf : hasTimeSuffix (b ++ '_' :: safeSuffix (.t k)) = false := by
    have hns : safeSuffix (.t k) = 't' :: (if k > 0 then 'p' else 'm') :: natStr k.natAbs := by
      simp only [safeSuffix]; rw [if_neg (by omega)]
    have key : ∀ w : Str, '_' ∉ w → w ≠ safeSuffix (.t k) →
        endsWith (b ++ '_' :: safeSuffix (.t k)) ('_' :: w) = false := by
      intro w hw hne
      rw [Bool.eq_false_iff]
      intro h
      unfold endsWith at h
      rw [List.isSuffixOf_iff_suffix] at h
      obtain ⟨t, ht⟩ := h
      have h2 := congrArg rsplit ht
      rw [rsplit_append _ _ hw, rsplit_append _ _ (us_not_mem_safeSuffix _)] at h2
      simp at h2
      exact hne h2.2
    have kd : k.natAbs ≠ 1 := by omega
    have kne : ∀ i, i ≠ TIdx.t k → safeSuffix i ≠ safeSuffix (.t k) := fun i hi he => hi (safeSuffix_inj he)
    have e1 := key _ (us_not_mem_safeSuffix (.t 0)) (kne (.t 0) (by intro h; cases h; omega))
    have e2 := key _ (us_not_mem_safeSuffix (.t 1)) (kne (.t 1) (by intro h; cases h; omega))
    have e3 := key _ (us_not_mem_safeSuffix (.t (-1))) (kne (.t (-1)) (by intro h; cases h; omega))
    have e4 := key _ (us_not_mem_safeSuffix .ss) (kne .ss (by intro h; cases h))
    have d1 : safeSuffix (.t 0) = ['t'] := by decide
    have d2 : safeSuffix (.t 1) = ['t','p','1'] := by decide
    have d3 : safeSuffix (.t (-1)) = ['t','m','1'] := by decide
    have d4 : safeSuffix .ss = ['s','s'] := by decide
    rw [d1] at e1; rw [d2] at e2; rw [d3] at e3; rw [d4] at e4
    simp [hasTimeSuffix, e1, e2, e3, e4]
  have hname : safeName ⟨b, .t k, a⟩ = b ++ '_' :: safeSuffix (.t k) := safeName_eq _ hb.1 hb.2
  let m := savedMeta [((.var ⟨b, .t k, a⟩ : Key), v)]
  refine ⟨_, _, ⟨[(.str (safeName ⟨b, .t k, a⟩), v)], false, h0.length + 1⟩,
    (h0 ++ [m] ++ [({} : Meta)]).put (h0.length + 1) m,
    ⟨[(.par (safeName ⟨b, .t k, a⟩) ((dget m.asm (safeName ⟨b, .t k, a⟩)).getD []), v)], true, h0.length + 2⟩, ?_,
    safeName ⟨b, .t k, a⟩, (dget m.asm (safeName ⟨b, .t k, a⟩)).getD [],
    new_sym _ _ (by simp [Key.isSym]) (by simp), ?_, ?_, rfl⟩
  · exact ((h0 ++ [m] ++ [({} : Meta)]).put (h0.length + 1) m) ++
      [savedMeta [((.par (safeName ⟨b, .t k, a⟩) ((dget m.asm (safeName ⟨b, .t k, a⟩)).getD []) : Key), v)]]
  · unfold SDict.toStr
    rw [copy_ok _ true (by simp [Key.isSym])]
    simp only [bind, Except.bind, sympyKeysToStrings, List.map_cons, List.map_nil, dupdate, List.foldl_cons,
      List.foldl_nil, dset, symbolToString]
    rw [new_str _ _ (by simp [Key.isSym])]
    simp only [pure, Except.pure, List.length_append, List.length_cons, List.length_nil]
    congr 3
    rw [heap_get_append_lt _ _ _ (by simp), heap_get_append]
  · unfold SDict.toSympy
    rw [heap_get_put _ _ _ (by simp)]
    have : stringKeysToSympy m [(Key.str (safeName ⟨b, .t k, a⟩), v)] =
        [(.par (safeName ⟨b, .t k, a⟩) ((dget m.asm (safeName ⟨b, .t k, a⟩)).getD []), v)] := by
      simp [stringKeysToSympy, keyToSympy, hname, hsuf, dupdate, dset]
    simp only [this]
    rw [new_sym _ _ (by simp [Key.isSym]) (by simp)]
    simp

example : (3 : Int) ≥ 2 ∨ (3 : Int) ≤ -2 := by decide

/-- **C03** the clash hypothesis is necessary too: a parameter called `x_t` next to the variable `x` at date
t silently merges two entries into one. -/
theorem C03_clash_loses_entry :
    ∃ (items : List (Key × Int)) (d s : SDict Int) (h1 h2 : Heap), (dkeys items).Nodup ∧ items.length = 2 ∧
      SDict.new [] items = .ok (d, h1) ∧ SDict.toStr h1 d = .ok (s, h2) ∧ s.items.length = 1 :=
  ⟨[(.var ⟨['x'], .t 0, []⟩, 1), (.par ['x','_','t'] [], 2)], _, _, _, _, by decide, by decide, rfl, rfl, by decide⟩

/-- **C03** the other direction: any string key without `+`/`-` that is turned into a symbol prints back as
the same string, whatever the metadata says. -/
theorem C03_key_string_roundtrip (m : Meta) (s : Str) (h : '+' ∉ s ∧ '-' ∉ s) :
    symbolToString (keyToSympy m (.str s)) = s := by
  simp only [keyToSympy]
  split
  · rfl
  · simp only [safeStringToSympy]
    rcases hr : rsplit s with ⟨pre, last⟩
    simp only
    cases hd : dget safeStringToIndex last with
    | none => rfl
    | some i =>
      simp only
      rename_i hc
      have hsuf : hasTimeSuffix s = true := by
        simp only [not_or, Bool.not_eq_false] at hc; exact hc.2
      cases pre with
      | none =>
        exfalso
        have hns : ∀ s b, rsplit s = (none, b) → '_' ∉ s := by
          intro s
          induction s with
          | nil => simp
          | cons d s ih2 =>
            intro b h
            simp only [rsplit] at h
            rcases hr2 : rsplit s with ⟨x, y⟩
            rw [hr2] at h
            cases x with
            | none =>
              simp only at h
              split at h
              · simp at h
              · rename_i hd; simp only [List.mem_cons, not_or]; exact ⟨fun e => hd e.symm, ih2 y hr2⟩
            | some x => simp at h
        have hno := hns s last hr
        have key : ∀ w : Str, endsWith s ('_' :: w) = false := by
          intro w
          rw [Bool.eq_false_iff]; intro he
          unfold endsWith at he
          rw [List.isSuffixOf_iff_suffix] at he
          exact hno (he.subset (by simp))
        simp [hasTimeSuffix, key] at hsuf
      | some pre =>
        have hs := rsplit_some hr
        have hlast : safeSuffix i = last := by
          simp only [safeStringToIndex, dget] at hd
          split at hd
          · rename_i h1; cases hd; rw [← h1]; decide
          · split at hd
            · rename_i h1; cases hd; rw [← h1]; decide
            · split at hd
              · rename_i h1; cases hd; rw [← h1]; decide
              · split at hd
                · rename_i h1; cases hd; rw [← h1]; decide
                · cases hd
        simp only [Option.getD_some, symbolToString]
        rw [safeName_eq _ (by simp; intro hm; exact h.1 (by rw [hs]; simp [hm]))
          (by simp; intro hm; exact h.2 (by rw [hs]; simp [hm]))]
        simp only [hlast]
        exact hs.symm

/-! ## C04 -/

/-- the user-visible invariant: all keys are of the kind announced by `is_sympy` -/
def OneKind (d : SDict V) : Prop := ∀ p ∈ d.items, p.1.isSym = d.isSympy

/-- the operations of the dictionary's own API; the second operands are arbitrary dictionaries -/
inductive DOp (V : Type) where
  | setItem (k : Key) (v : V)
  | or (o : SDict V)
  | copy
  | toSympy
  | toStr
  | toSympyInplace
  | toStrInplace
  | step (f : StepFn)
  | updateDict (o : SDict V)
  | updatePlain (o : List (Key × V))

def DOp.apply (h : Heap) (d : SDict V) : DOp V → Except PyErr (SDict V × Heap)
  | .setItem k v => d.setItem h k v
  | .or o => SDict.or h d o
  | .copy => d.copy.map fun c => (c, h)
  | .toSympy => d.toSympy h
  | .toStr => d.toStr h
  | .toSympyInplace => d.toSympyInplace h
  | .toStrInplace => d.toStrInplace h
  | .step f => d.stepKeys h f
  | .updateDict o => .ok (d.updateDict h o)
  | .updatePlain o => .ok (d.updatePlain o, h)

/-- A history: each operation continues with its result; an operation that raises leaves the dictionary as
it was (the caller caught the exception). -/
def runOps (st : SDict V × Heap) : List (DOp V) → SDict V × Heap
  | [] => st
  | op :: ops =>
    match op.apply st.2 st.1 with
    | .ok st' => runOps st' ops
    | .error _ => runOps st ops

/-- Restriction on operands: the dictionaries merged in are themselves of one kind (with unique keys), and
the two `update` forms, which do not check, only add keys of the dictionary's kind. -/
def DOp.wellTyped (d : SDict V) : DOp V → Prop
  | .or o => OneKind o ∧ (dkeys o.items).Nodup
  | .updateDict o => OneKind o ∧ (dkeys o.items).Nodup ∧ (d.items = [] ∨ o.isSympy = d.isSympy)
  | .updatePlain o => ∀ p ∈ o, p.1.isSym = d.isSympy
  | _ => True

/-- every operation of a history is well typed at the state where it is applied -/
def WellTypedHistory (st : SDict V × Heap) : List (DOp V) → Prop
  | [] => True
  | op :: ops => op.wellTyped st.1 ∧
    match op.apply st.2 st.1 with
    | .ok st' => WellTypedHistory st' ops
    | .error _ => WellTypedHistory st ops

def Good (d : SDict V) : Prop := OneKind d ∧ (dkeys d.items).Nodup

theorem dupdate_mem (d e : List (Key × V)) (p : Key × V) (h : p ∈ dupdate d e) :
    p.1 ∈ dkeys d ∨ p.1 ∈ dkeys e :=
  (mem_dkeys_dupdate d e p.1).mp (List.mem_map.mpr ⟨p, h, rfl⟩)

theorem kind_of_key {l : List (Key × V)} {b : Bool} (h : ∀ p ∈ l, p.1.isSym = b) {k : Key} (hk : k ∈ dkeys l) :
    k.isSym = b := by
  obtain ⟨p, hp, rfl⟩ := List.mem_map.mp hk; exact h p hp

theorem good_new (h : Heap) (items : List (Key × V)) (hn : (dkeys items).Nodup) (r : SDict V × Heap)
    (hr : SDict.new h items = .ok r) : Good r.1 := by
  unfold SDict.new at hr
  split at hr
  · cases hr; exact ⟨by simp [OneKind], by simp [dkeys]⟩
  · rename_i p l
    simp only at hr
    split at hr
    · cases hr
    · rename_i hany
      simp only [Bool.not_eq_true, List.any_eq_false, decide_eq_true_eq, ne_eq, Decidable.not_not] at hany
      split at hr
      · rename_i hp; cases hr; exact ⟨fun q hq => by rw [hany q hq, hp], hn⟩
      · rename_i hp; cases hr; exact ⟨fun q hq => by rw [hany q hq]; simpa using hp, hn⟩

theorem good_updateDict (h : Heap) (d o : SDict V) (hd : Good d) (ho : Good o)
    (hc : d.items = [] ∨ o.isSympy = d.isSympy) : Good (d.updateDict h o).1 := by
  refine ⟨?_, dupdate_nodup _ _ hd.2⟩
  intro p hp
  simp only [SDict.updateDict] at hp ⊢
  rcases hc with he | hm
  · rw [he, dupdate_nil_of_nodup _ ho.2] at hp ⊢
    simp only [true_or, if_true]
    exact ho.1 p hp
  · have hmode : (if (dupdate d.items o.items).length = o.items.length ∨ d.isSympy = false then o.isSympy
        else d.isSympy) = d.isSympy := by split <;> simp [hm]
    rw [hmode]
    rcases dupdate_mem _ _ _ hp with h1 | h1
    · exact kind_of_key hd.1 h1
    · rw [← hm]; exact kind_of_key ho.1 h1

theorem good_cleanUpdate (h : Heap) (d o : SDict V) (ho : Good o) : Good (d.cleanUpdate h o).1 :=
  good_updateDict _ _ _ ⟨by simp [OneKind], by simp [dkeys]⟩ ho (Or.inl rfl)

theorem good_copy (d c : SDict V) (h : d.copy = .ok c) : c = d := by
  unfold SDict.copy at h
  split at h
  · cases h; rfl
  · split at h <;> cases h; rfl

theorem good_toSympy (h : Heap) (d : SDict V) (r : SDict V × Heap) (hr : d.toSympy h = .ok r) : Good r.1 :=
  good_new _ _ (dupdate_nodup [] _ (by simp [dkeys])) _ hr

theorem good_toStr (h : Heap) (d : SDict V) (r : SDict V × Heap) (hr : d.toStr h = .ok r) : Good r.1 := by
  unfold SDict.toStr at hr
  simp only [bind, Except.bind] at hr
  split at hr
  · cases hr
  · split at hr
    · cases hr
    · rename_i x hx
      simp only [pure, Except.pure] at hr
      cases hr
      exact good_new _ _ (dupdate_nodup [] _ (by simp [dkeys])) x hx

theorem good_toSympyInplace (h : Heap) (d : SDict V) (r : SDict V × Heap) (hr : d.toSympyInplace h = .ok r) :
    Good r.1 := by
  unfold SDict.toSympyInplace at hr
  simp only [bind, Except.bind] at hr
  split at hr
  · cases hr
  · rename_i x hx
    simp only [pure, Except.pure] at hr
    cases hr
    exact good_cleanUpdate _ _ _ (good_toSympy _ _ _ hx)

theorem good_toStrInplace (h : Heap) (d : SDict V) (r : SDict V × Heap) (hr : d.toStrInplace h = .ok r) :
    Good r.1 := by
  unfold SDict.toStrInplace at hr
  simp only [bind, Except.bind] at hr
  split at hr
  · cases hr
  · rename_i x hx
    simp only [pure, Except.pure] at hr
    cases hr
    exact good_cleanUpdate _ _ _ (good_toStr _ _ _ hx)

theorem stepItems_nodup (f : StepFn) (acc l r : List (Key × V)) (ha : (dkeys acc).Nodup)
    (h : stepItems f acc l = .ok r) : (dkeys r).Nodup := by
  induction l generalizing acc with
  | nil => simp only [stepItems] at h; cases h; exact ha
  | cons p l ih =>
    obtain ⟨k, v⟩ := p
    simp only [stepItems, bind, Except.bind] at h
    split at h
    · cases h
    · exact ih _ (dset_nodup _ _ _ ha) h

theorem good_stepKeys (h : Heap) (d : SDict V) (f : StepFn) (r : SDict V × Heap)
    (hr : d.stepKeys h f = .ok r) : Good r.1 := by
  unfold SDict.stepKeys at hr
  simp only [bind, Except.bind] at hr
  split at hr
  · cases hr
  · cases hm : d.isSympy
    · simp only [hm, Bool.false_eq_true, if_false] at hr
      split at hr
      · cases hr
      · split at hr
        · cases hr
        · split at hr
          · cases hr
          · exact good_toStrInplace _ _ _ hr
    · simp only [hm, if_true, pure, Except.pure] at hr
      split at hr
      · cases hr
      · rename_i its hits
        split at hr
        · cases hr
        · rename_i x hx
          cases hr
          exact good_new _ _ (stepItems_nodup f [] _ _ (by simp [dkeys]) hits) _ hx

theorem good_setItem (h : Heap) (d : SDict V) (k : Key) (v : V) (hd : Good d) (r : SDict V × Heap)
    (hr : d.setItem h k v = .ok r) : Good r.1 := by
  unfold SDict.setItem at hr
  by_cases he : d.items.isEmpty = true
  · simp only [he, if_true, ne_eq, not_true_eq_false, if_false] at hr
    cases hr
    rw [List.isEmpty_iff] at he
    exact ⟨by simp [OneKind, he, dset], by simp [he, dset, dkeys]⟩
  · simp only [he, Bool.false_eq_true, if_false] at hr
    by_cases hk : d.isSympy = k.isSym
    · rw [if_neg (by simpa using hk)] at hr
      cases hr
      refine ⟨?_, dset_nodup _ _ _ hd.2⟩
      intro p hp
      rcases (mem_dkeys_dset d.items k p.1 v).mp (List.mem_map.mpr ⟨p, hp, rfl⟩) with h1 | h1
      · simp [h1, hk]
      · exact kind_of_key hd.1 h1
    · simp [hk] at hr

theorem good_or (h : Heap) (d o : SDict V) (hd : Good d) (ho : Good o) (r : SDict V × Heap)
    (hr : SDict.or h d o = .ok r) : Good r.1 := by
  unfold SDict.or at hr
  simp only [bind, Except.bind] at hr
  rw [copy_ok d d.isSympy hd.1] at hr
  simp only at hr
  split at hr
  · rw [copy_ok o o.isSympy ho.1] at hr
    cases hr; exact ho
  · split at hr
    · cases hr; exact hd
    · split at hr
      · cases hr
      · rename_i hm
        simp only [ne_eq, Decidable.not_not] at hm
        cases hr
        exact good_updateDict h d o hd ho (Or.inr hm)

/-- **C04 (partial: the two unchecked `update` forms restricted to matching keys)** After every history of
operations the dictionary's keys are all of one kind and `is_sympy` says which; a mixing `d[k] = v` or
`d | e` raises and leaves it unchanged.  Missing: unrestricted `update`, for which the claim is false
(`C04_update_plain_mixes`, `C04_update_dict_mixes`). -/
theorem C04_one_kind_partial (st : SDict V × Heap) (ops : List (DOp V)) (h0 : Good st.1)
    (hw : WellTypedHistory st ops) : OneKind (runOps st ops).1 := by
  suffices ∀ (ops : List (DOp V)) (st : SDict V × Heap), Good st.1 → WellTypedHistory st ops →
      Good (runOps st ops).1 from (this ops st h0 hw).1
  clear h0 hw st ops
  intro ops
  induction ops with
  | nil => intro st h _; exact h
  | cons op ops ih =>
    intro st hg hw
    obtain ⟨hop, hrest⟩ := hw
    simp only [runOps]
    cases ha : op.apply st.2 st.1 with
    | error e => rw [ha] at hrest; exact ih st hg hrest
    | ok st' =>
      rw [ha] at hrest
      refine ih st' ?_ hrest
      cases op with
      | setItem k v => exact good_setItem _ _ _ _ hg _ ha
      | or o => exact good_or _ _ _ hg hop _ ha
      | copy =>
        simp only [DOp.apply, Except.map] at ha
        split at ha
        · cases ha
        · rename_i c hc
          cases ha
          have := good_copy _ _ hc
          simp only [this]; exact hg
      | toSympy => exact good_toSympy _ _ _ ha
      | toStr => exact good_toStr _ _ _ ha
      | toSympyInplace => exact good_toSympyInplace _ _ _ ha
      | toStrInplace => exact good_toStrInplace _ _ _ ha
      | step f => exact good_stepKeys _ _ _ _ ha
      | updateDict o =>
        simp only [DOp.apply] at ha
        cases ha
        exact good_updateDict _ _ _ hg ⟨hop.1, hop.2.1⟩ hop.2.2
      | updatePlain o =>
        simp only [DOp.apply] at ha
        cases ha
        refine ⟨?_, dupdate_nodup _ _ hg.2⟩
        intro p hp
        rcases dupdate_mem _ _ _ hp with h1 | h1
        · exact kind_of_key hg.1 h1
        · exact kind_of_key hop h1

/-- **C04** the constructor itself enforces the invariant: it either raises or yields a one-kind dictionary. -/
theorem C04_constructor (h : Heap) (items : List (Key × V)) (hn : (dkeys items).Nodup) :
    (∃ p ∈ items, ∃ q ∈ items, p.1.isSym ≠ q.1.isSym) ∧ SDict.new h items = .error .keyError ∨
    ∃ r, SDict.new h items = .ok r ∧ Good r.1 ∧ r.1.items = items := by
  cases hr : SDict.new h items with
  | ok r =>
    right; refine ⟨r, rfl, good_new h items hn r hr, ?_⟩
    unfold SDict.new at hr
    split at hr
    · cases hr; rfl
    · simp only at hr; split at hr
      · cases hr
      · split at hr <;> cases hr <;> rfl
  | error e =>
    left
    unfold SDict.new at hr
    split at hr
    · cases hr
    · rename_i p l
      simp only at hr
      split at hr
      · rename_i hany
        cases hr
        obtain ⟨q, hq, hne⟩ := List.any_eq_true.mp hany
        exact ⟨⟨q, hq, p, by simp, by simpa using hne⟩, rfl⟩
      · split at hr <;> cases hr

/-- **C04 is false** for the inherited plain-dict `update`: it mixes key kinds without any error. -/
theorem C04_update_plain_mixes :
    ∃ (d : SDict Int) (h : Heap) (o : List (Key × Int)), Good d ∧
      ¬ OneKind (runOps (d, h) [.updatePlain o]).1 :=
  ⟨⟨[(.str ['a'], 1)], false, 0⟩, [{}], [(.par ['b'] [], 2)], ⟨by unfold OneKind; decide, by decide⟩,
    by unfold OneKind; decide⟩

/-- **C04 is false** for `update` with another `SymbolDictionary` of the other kind. -/
theorem C04_update_dict_mixes :
    ∃ (d o : SDict Int) (h : Heap), Good d ∧ Good o ∧ ¬ OneKind (runOps (d, h) [.updateDict o]).1 :=
  ⟨⟨[(.str ['a'], 1)], false, 0⟩, ⟨[(.par ['b'] [], 2)], true, 1⟩, [{}, {}],
    ⟨by unfold OneKind; decide, by decide⟩, ⟨by unfold OneKind; decide, by decide⟩, by unfold OneKind; decide⟩

-- non-vacuity: a well-typed history that goes through both modes and through a caught exception
example : WellTypedHistory ((⟨[], false, 0⟩, [{}]) : SDict Int × Heap)
    [.setItem (.var ⟨['x'], .t 1, []⟩) 3, .setItem (.str ['y']) 4, .toStrInplace, .setItem (.str ['y']) 5,
     .updatePlain [(.str ['z'], 6)], .step .ss] := by
  simp only [WellTypedHistory, DOp.apply]
  refine ⟨trivial, trivial, trivial, trivial, ?_, trivial, trivial⟩
  simp [DOp.wellTyped]; decide

/-! ## C05 -/

/-- what a user sees when converting the dictionary to symbols -/
def asSympy (h : Heap) (d : SDict V) : Except PyErr (List (Key × V)) := (d.toSympy h).map fun r => r.1.items

/-- what a user sees after `d.to_string().to_sympy()` -/
def viaString (h : Heap) (d : SDict V) : Except PyErr (List (Key × V)) :=
  (d.toStr h).bind fun r => asSympy r.2 r.1

/-- **C05 is false**: assigning to a *copy* changes how the original converts (here `x` of the original
silently takes over the assumptions of the symbol assigned in the copy). -/
theorem C05_copy_shares_metadata :
    ∃ (a c c' : SDict Int) (h h' : Heap) (k : Key),
      SDict.new [] [(.var ⟨['x'], .t 0, [(['p'], true)]⟩, 1)] = .ok (a, h) ∧ a.copy = .ok c ∧
      c.setItem h k 2 = .ok (c', h') ∧
      viaString h a = .ok a.items ∧ viaString h' a ≠ .ok a.items :=
  ⟨_, _, _, _, _, .var ⟨['x'], .ss, []⟩, rfl, rfl, rfl, by decide, by decide⟩

/-- **C05 is false**: `a | b` changes `a`: its variables take over the assumptions `b` has for them. -/
theorem C05_or_mutates_left :
    ∃ (a b r : SDict Int) (h1 h2 h3 : Heap),
      SDict.new [] [(.var ⟨['x'], .t 0, [(['p'], true)]⟩, 1)] = .ok (a, h1) ∧
      SDict.new h1 [(.var ⟨['x'], .ss, []⟩, 1)] = .ok (b, h2) ∧
      SDict.or h2 a b = .ok (r, h3) ∧ viaString h2 a = .ok a.items ∧ viaString h3 a ≠ .ok a.items :=
  ⟨_, _, _, _, _, _, rfl, rfl, rfl, by decide, by decide⟩

/-- **C05 is false**: the *non*-inplace `to_ss()` on a string-keyed dictionary clears the receiver's memory of
symbols it is not currently holding; adding such a symbol afterwards converts differently. -/
theorem C05_to_ss_mutates_receiver :
    ∃ (s r s1 s2 : SDict Int) (h h' g1 g2 : Heap), Good s ∧ s.stepKeys h .ss = .ok (r, h') ∧
      s.setItem h (.str ['y', '_', 't']) 3 = .ok (s1, g1) ∧
      s.setItem h' (.str ['y', '_', 't']) 3 = .ok (s2, g2) ∧ s1 = s2 ∧
      asSympy g1 s1 ≠ asSympy g2 s2 :=
  ⟨⟨[(.str ['x','_','t'], 1)], false, 0⟩, _, _, _,
    [⟨[(['x'], []), (['y'], [(['p'], true)])], [(['x'], true), (['y'], true)]⟩], _, _, _,
    ⟨by unfold OneKind; decide, by decide⟩, rfl, rfl, rfl, rfl, by decide⟩

/-- `h'` extends `h`: no existing metadata cell has changed -/
def Frame (h h' : Heap) : Prop := h.length ≤ h'.length ∧ ∀ r, r < h.length → h'.get r = h.get r

theorem new_frame (h : Heap) (items : List (Key × V)) (r : SDict V × Heap) (hr : SDict.new h items = .ok r) :
    Frame h r.2 ∧ r.1.ref = h.length ∧ r.2.length = h.length + 1 := by
  unfold SDict.new at hr
  split at hr
  · cases hr
    exact ⟨⟨by simp, fun x hx => heap_get_append_lt _ _ _ hx⟩, rfl, by simp⟩
  · simp only at hr; split at hr
    · cases hr
    · split at hr <;> cases hr <;>
        exact ⟨⟨by simp, fun x hx => heap_get_append_lt _ _ _ hx⟩, rfl, by simp⟩

/-- **C05 (partial)** the non-inplace conversions `to_sympy()` and `to_string()` in both modes, and
`to_ss()/step_*()` on a sympy-keyed dictionary, change no existing dictionary's metadata: every dictionary
`e` converts exactly as before.  Missing: the operations above, for which the claim is false. -/
theorem C05_conversions_frame_partial (h : Heap) (d e : SDict V) (f : StepFn) (r : SDict V × Heap)
    (he : e.ref < h.length)
    (hr : d.toSympy h = .ok r ∨ d.toStr h = .ok r ∨ (d.isSympy = true ∧ d.stepKeys h f = .ok r)) :
    asSympy h e = asSympy r.2 e ∨ (∃ x, asSympy h e = .error x) := by
  have hf : Frame h r.2 := by
    rcases hr with hr | hr | ⟨hm, hr⟩
    · exact (new_frame _ _ _ hr).1
    · unfold SDict.toStr at hr
      simp only [bind, Except.bind] at hr
      split at hr
      · cases hr
      · split at hr
        · cases hr
        · rename_i x hx
          simp only [pure, Except.pure] at hr
          cases hr
          obtain ⟨⟨hl, hg⟩, hrf, hlen⟩ := new_frame _ _ _ hx
          refine ⟨by simpa using hl, fun q hq => ?_⟩
          rw [heap_get_put_ne _ _ _ _ (by omega)]
          exact hg q hq
    · unfold SDict.stepKeys at hr
      simp only [bind, Except.bind, hm, if_true, pure, Except.pure] at hr
      split at hr
      · cases hr
      · split at hr
        · cases hr
        · split at hr
          · cases hr
          · rename_i x hx
            cases hr
            exact (new_frame _ _ _ hx).1
  have hg := hf.2 e.ref he
  unfold asSympy SDict.toSympy
  rw [hg]
  rcases hn : SDict.new h (stringKeysToSympy (h.get e.ref) e.items) with x | x
  · right; exact ⟨x, rfl⟩
  · left
    have : ∃ y, SDict.new r.2 (stringKeysToSympy (h.get e.ref) e.items) = .ok y ∧ y.1.items = x.1.items := by
      unfold SDict.new at hn ⊢
      split at hn
      · cases hn; exact ⟨_, rfl, rfl⟩
      · simp only at hn ⊢
        split at hn
        · cases hn
        · rename_i hany
          rw [if_neg hany]
          split at hn <;> cases hn
          · rename_i hs; rw [if_pos hs]; exact ⟨_, rfl, rfl⟩
          · rename_i hs; rw [if_neg hs]; exact ⟨_, rfl, rfl⟩
    obtain ⟨y, hy, hyi⟩ := this
    rw [hy]; simp [Except.map, hyi]

/-! ## C06 -/

/-- the steady-state version of a key -/
def ssKey : Key → Key
  | .var s => .var { s with idx := .ss }
  | k => k

theorem stepItems_ss (acc l : List (Key × V)) :
    stepItems .ss acc l = .ok (dupdate acc (l.map fun p => (ssKey p.1, p.2))) := by
  induction l generalizing acc with
  | nil => rfl
  | cons p l ih =>
    obtain ⟨k, v⟩ := p
    have : stepKey .ss k = .ok (ssKey k) := by cases k <;> rfl
    simp only [stepItems, this, bind, Except.bind, ih]
    rfl

theorem isSym_ssKey (k : Key) : (ssKey k).isSym = k.isSym := by cases k <;> rfl

/-- **C06** On a sympy-keyed dictionary `to_ss()` succeeds; all variables of the result are steady-state
symbols; its keys are exactly the steady-state versions of the original keys (parameters unchanged); and each
holds the value of the last original entry that maps to it. -/
theorem C06_to_ss (h : Heap) (d : SDict V) (hs : d.isSympy = true) (hd : Good d) :
    ∃ r h', d.stepKeys h .ss = .ok (r, h') ∧
      (∀ p ∈ r.items, ∀ s, p.1 = .var s → s.idx = .ss) ∧
      (∀ k, k ∈ dkeys r.items ↔ ∃ p ∈ d.items, ssKey p.1 = k) ∧
      (∀ pre k v post, d.items = pre ++ (k, v) :: post → (∀ q ∈ post, ssKey q.1 ≠ ssKey k) →
        dget r.items (ssKey k) = some v) := by
  have hsym : ∀ p ∈ dupdate [] (d.items.map fun p => (ssKey p.1, p.2)), p.1.isSym = true := by
    intro p hp
    rcases dupdate_mem _ _ _ hp with h1 | h1
    · simp [dkeys] at h1
    · rw [dkeys_map] at h1
      obtain ⟨k, hk, he⟩ := List.mem_map.mp h1
      rw [← he, isSym_ssKey, kind_of_key hd.1 hk, hs]
  have hnew : ∃ r h', SDict.new h (dupdate [] (d.items.map fun p => (ssKey p.1, p.2))) = .ok (r, h') ∧
      r.items = dupdate [] (d.items.map fun p => (ssKey p.1, p.2)) := by
    by_cases hne : dupdate [] (d.items.map fun p => (ssKey p.1, p.2)) = []
    · rw [hne]; exact ⟨_, _, rfl, rfl⟩
    · exact ⟨_, _, new_sym h _ hsym hne, rfl⟩
  obtain ⟨r, h', hr, hri⟩ := hnew
  have hkeys : ∀ k, k ∈ dkeys r.items ↔ ∃ p ∈ d.items, ssKey p.1 = k := by
    intro k
    rw [hri, mem_dkeys_dupdate, dkeys_map]
    simp [dkeys]
  refine ⟨r, h', ?_, ?_, hkeys, ?_⟩
  · unfold SDict.stepKeys
    rw [copy_ok d true (by intro p hp; rw [hd.1 p hp, hs])]
    simp only [hs, if_true, bind, Except.bind, pure, Except.pure, stepItems_ss, hr]
  · intro p hp s hps
    obtain ⟨q, hq, he⟩ := (hkeys p.1).mp (List.mem_map.mpr ⟨p, hp, rfl⟩)
    rw [hps] at he
    rcases hk : q.1 with x | x | ⟨x, y⟩ <;> rw [hk] at he <;> simp only [ssKey] at he
    · cases he
    · cases he; rfl
    · cases he
  · intro pre k v post hit hpost
    rw [hri, dget_dupdate, hit]
    simp only [List.map_append, List.map_cons, List.reverse_append, List.reverse_cons]
    have happ : ∀ (l₁ l₂ : List (Key × V)) k, dget (l₁ ++ l₂) k = (dget l₁ k).or (dget l₂ k) := by
      intro l₁ l₂ k
      induction l₁ with
      | nil => simp [dget]
      | cons q l ihl => simp only [List.cons_append, dget, ihl]; split <;> simp
    rw [happ, happ]
    have hnone : dget (post.map fun p => (ssKey p.1, p.2)).reverse (ssKey k) = none := by
      rw [dget_eq_none]
      simp only [dkeys, List.map_reverse, List.map_map, List.mem_reverse]
      intro hm
      obtain ⟨q, hq, he⟩ := List.mem_map.mp hm
      exact hpost q hq he
    rw [hnone]
    simp [dget]

-- non-vacuity: two dates of the same variable, last value wins
example : ∃ r h', (⟨[(.var ⟨['x'], .t 0, []⟩, (1 : Int)), (.var ⟨['x'], .t 1, []⟩, 2), (.par ['a'] [], 3)], true, 0⟩
    : SDict Int).stepKeys [{}] .ss = .ok (r, h') ∧ r.items = [(.var ⟨['x'], .ss, []⟩, 2), (.par ['a'] [], 3)] :=
  ⟨_, _, rfl, by decide⟩

end GE
