import Verif.Model.ContainerValues
import Verif.Props.Containers2
import Verif.Props.Validate
import Verif.Props.Sym
/-!
# C131 — numeric values, sorting and pickling of a `SymbolDictionary`
-/

namespace GE

namespace CVal

variable {F N V A : Type}

/-- The metadata `m` records the kind and the assumptions of every symbol of the dictionary, as the constructor and `d[k] = v` leave it. -/
def Recorded (m : Meta) (items : List (Key × V)) : Prop :=
  ∀ p ∈ items, p.1.isSym = true → dget m.asm (metaName p.1) = some (keyAsm p.1) ∧ dget m.isVar (metaName p.1) = some (keyIsVar p.1)

theorem dset_same {κ ν : Type} [DecidableEq κ] (d : List (κ × ν)) (k : κ) (v : ν) (h : dget d k = some v) : dset d k v = d := by
  induction d with
  | nil => simp [dget] at h
  | cons p d ih =>
    obtain ⟨k', v'⟩ := p
    simp only [dget] at h
    simp only [dset]
    split
    · rename_i hk
      rw [if_pos hk] at h
      cases h; rfl
    · rename_i hk
      rw [if_neg hk] at h
      rw [ih h]

theorem dset_append {κ ν : Type} [DecidableEq κ] (d e : List (κ × ν)) (k : κ) (v w : ν) (h : k ∉ dkeys d) :
    dset (d ++ (k, v) :: e) k w = d ++ (k, w) :: e := by
  induction d with
  | nil => simp [dset]
  | cons p d ih =>
    obtain ⟨k', v'⟩ := p
    simp only [dkeys, List.map_cons, List.mem_cons, not_or] at h
    simp only [List.cons_append, dset]
    rw [if_neg (fun he => h.1 he.symm), ih (by simpa [dkeys] using h.2)]

theorem saveKey_same (m : Meta) (k : Key)
    (h : k.isSym = true → dget m.asm (metaName k) = some (keyAsm k) ∧ dget m.isVar (metaName k) = some (keyIsVar k)) : saveKey m k = m := by
  cases k with
  | str s => rfl
  | var s =>
    obtain ⟨h1, h2⟩ := h rfl
    simp only [metaName, keyAsm, keyIsVar] at h1 h2
    simp only [saveKey, dset_same _ _ _ h1, dset_same _ _ _ h2]
  | par n a =>
    obtain ⟨h1, h2⟩ := h rfl
    simp only [metaName, keyAsm, keyIsVar] at h1 h2
    simp only [saveKey, dset_same _ _ _ h1, dset_same _ _ _ h2]

theorem put_same (h : Heap) (r : Nat) (hr : r < h.length) : h.put r (h.get r) = h := by
  simp only [Heap.put, Heap.get, List.getElem?_eq_getElem hr, Option.getD_some, List.set_getElem_self]

/-- what the loop stores -/
def upd (f : V → Option V) (v : V) : V := (f v).getD v

/-- the loop: after the entries `pre` (already converted) -/
theorem loop_eq (f : V → Option V) (h : Heap) (b : Bool) (r : Nat) (hr : r < h.length) (pre rest : List (Key × V))
    (hk : ∀ p ∈ pre ++ rest, p.1.isSym = b) (hn : (dkeys (pre ++ rest)).Nodup) (hm : Recorded (h.get r) rest) :
    valuesLoop f h ⟨pre ++ rest, b, r⟩ rest = .ok (⟨pre ++ rest.map fun p => (p.1, upd f p.2), b, r⟩, h) := by
  induction rest generalizing pre with
  | nil => simp [valuesLoop]
  | cons p rest ih =>
    obtain ⟨k, v⟩ := p
    have hkb : k.isSym = b := hk (k, v) (by simp)
    have hnot : k ∉ dkeys pre := by
      intro hm'
      simp only [dkeys, List.map_append, List.map_cons] at hn hm'
      rw [List.nodup_append] at hn
      exact hn.2.2 k hm' k (by simp) rfl
    have step : ∀ v', valuesLoop f h ⟨(pre ++ [(k, v')]) ++ rest, b, r⟩ rest =
        .ok (⟨(pre ++ [(k, v')]) ++ rest.map fun p => (p.1, upd f p.2), b, r⟩, h) := by
      intro v'
      apply ih
      · intro q hq
        simp only [List.append_assoc, List.cons_append, List.nil_append, List.mem_append, List.mem_cons] at hq
        rcases hq with hq | rfl | hq
        · exact hk q (by simp [hq])
        · exact hkb
        · exact hk q (by simp [hq])
      · have : dkeys ((pre ++ [(k, v')]) ++ rest) = dkeys (pre ++ (k, v) :: rest) := by simp [dkeys]
        rw [this]; exact hn
      · exact fun q hq => hm q (by simp [hq])
    simp only [valuesLoop]
    cases hf : f v with
    | none =>
      simp only
      have := step v
      simp only [List.append_assoc, List.cons_append, List.nil_append] at this
      rw [this]
      simp [upd, hf]
    | some v' =>
      simp only
      have hset : SDict.setItem h ⟨pre ++ (k, v) :: rest, b, r⟩ k v' = .ok (⟨pre ++ (k, v') :: rest, b, r⟩, h) := by
        unfold SDict.setItem
        have he : (pre ++ (k, v) :: rest).isEmpty = false := by simp
        simp only [he, Bool.false_eq_true, if_false, hkb, ne_eq, not_true_eq_false, dset_append _ _ _ _ _ hnot]
        cases b with
        | false => simp
        | true =>
          simp only [if_true, saveKey_same _ _ (hm (k, v) (by simp)), put_same _ _ hr]
      rw [hset]
      have := step v'
      simp only [List.append_assoc, List.cons_append, List.nil_append] at this
      simp only
      rw [this]
      simp [upd, hf]

theorem mapValues_eq (f : V → Option V) (h : Heap) (d : SDict V) (hg : Good d) (hr : d.ref < h.length) (hm : Recorded (h.get d.ref) d.items) :
    d.mapValues f h = .ok (⟨d.items.map fun p => (p.1, upd f p.2), d.isSympy, h.length⟩, h ++ [h.get d.ref]) := by
  obtain ⟨items, b, r⟩ := d
  unfold SDict.mapValues
  rw [copy_ok _ b (by exact hg.1)]
  have := loop_eq f h b r hr [] items hg.1 hg.2 hm
  simp only [List.nil_append] at this
  simp only [this]

theorem fold_has (items : List (Key × V)) (m : Meta) (hs : ∀ p ∈ items, p.1.isSym = true)
    (ha : ∀ p ∈ items, ∀ q ∈ items, metaName p.1 = metaName q.1 → keyAsm p.1 = keyAsm q.1 ∧ keyIsVar p.1 = keyIsVar q.1) :
    Recorded (items.foldl (fun m q => saveKey m q.1) m) items := by
  intro p hp _
  have := foldSave items hs m (metaName p.1)
  exact ⟨this.1 _ (fun q hq hn => (ha q hq p hp hn).1) (Or.inl ⟨p, hp, rfl⟩), this.2.1 _ (fun q hq hn => (ha q hq p hp hn).2) (Or.inl ⟨p, hp, rfl⟩)⟩

end CVal

open CVal

section
variable {F N V A : Type}

/-- The English reading of `values_to_float`: sympy numbers become floats, complex field elements become complex numbers, everything else stays. -/
def asFloat (ops : NumOps F N) : PVal F N → PVal F N
  | .num q => .flt (ops.toFloat q)
  | .cc a b => .cpx a b
  | .flt x => .flt x
  | .int n => .int n
  | .cpx a b => .cpx a b
  | .other t => .other t

/-- The English reading of `float_to_values`: Python numbers become sympy ones, everything else stays. -/
def asSympyNumber (ops : NumOps F N) : PVal F N → PVal F N
  | .flt x => .num (ops.ofFloat x)
  | .int n => .num (ops.ofInt n)
  | .cpx a b => .cc a b
  | .num q => .num q
  | .cc a b => .cc a b
  | .other t => .other t

theorem CVal.upd_float (ops : NumOps F N) (v : PVal F N) : upd (floatBranch ops) v = asFloat ops v := by cases v <;> rfl
theorem CVal.upd_sympy (ops : NumOps F N) (v : PVal F N) : upd (sympyBranch ops) v = asSympyNumber ops v := by cases v <;> rfl

/-- **C131** The metadata condition used below is what building a dictionary gives, provided no two of its symbols share a name while differing in
kind or assumptions; a string-keyed dictionary always meets it. -/
theorem C131_recorded (h0 : Heap) (items : List (Key × V)) (d : SDict V) (h1 : Heap) (hd : SDict.new h0 items = .ok (d, h1))
    (ha : ∀ p ∈ items, ∀ q ∈ items, metaName p.1 = metaName q.1 → keyAsm p.1 = keyAsm q.1 ∧ keyIsVar p.1 = keyIsVar q.1) :
    d.ref < h1.length ∧ Recorded (h1.get d.ref) d.items := by
  obtain ⟨⟨_, _⟩, hrf, hlen⟩ := new_frame _ _ _ hd
  refine ⟨by simp only at hrf hlen; omega, ?_⟩
  by_cases hs : ∀ p ∈ items, p.1.isSym = true
  · by_cases hne : items = []
    · subst hne
      have : d.items = [] := by simp [SDict.new] at hd; rw [← hd.1]
      rw [this]; intro p hp; cases hp
    · rw [new_sym _ _ hs hne] at hd
      cases hd
      rw [heap_get_append]
      exact fold_has items {} hs ha
  · have hstr : ∀ p ∈ d.items, p.1.isSym = false := by
      unfold SDict.new at hd
      cases items with
      | nil => exact absurd (by simp) hs
      | cons q l =>
        simp only at hd
        split at hd
        · cases hd
        · rename_i hany
          rw [Bool.not_eq_true, List.any_eq_false] at hany
          have hq : q.1.isSym = false := by
            cases hc : q.1.isSym with
            | false => rfl
            | true => exact absurd (fun p hp => by have := hany p hp; simpa [hc] using this) hs
          simp only [hq, Bool.false_eq_true, if_false] at hd
          cases hd
          intro p hp
          have := hany p hp
          simpa [hq] using this
    intro p hp hps
    rw [hstr p hp] at hps; cases hps

/-- **C131** `values_to_float()`: the same keys in the same order, in the same mode; each value is the float (complex number) of the sympy number
(complex field element) it was and any other value — a symbolic constant such as `pi` included — is untouched; the result owns a copy of the
receiver's metadata; and no existing dictionary, the receiver included, changes. -/
theorem C131_values_to_float (ops : NumOps F N) (h : Heap) (d : SDict (PVal F N)) (hg : Good d) (hr : d.ref < h.length)
    (hm : Recorded (h.get d.ref) d.items) :
    ∃ r h', d.valuesToFloat ops h = .ok (r, h') ∧ r.items = d.items.map (fun p => (p.1, asFloat ops p.2)) ∧ r.isSympy = d.isSympy ∧
      h'.get r.ref = h.get d.ref ∧ h.length ≤ r.ref ∧ Frame h h' := by
  refine ⟨_, _, mapValues_eq _ h d hg hr hm, ?_, rfl, heap_get_append _ _, Nat.le_refl _, by simp, fun r hr => heap_get_append_lt _ _ _ hr⟩
  simp only [upd_float]

/-- **C131** `float_to_values()`, likewise -/
theorem C131_float_to_values (ops : NumOps F N) (h : Heap) (d : SDict (PVal F N)) (hg : Good d) (hr : d.ref < h.length)
    (hm : Recorded (h.get d.ref) d.items) :
    ∃ r h', d.floatToValues ops h = .ok (r, h') ∧ r.items = d.items.map (fun p => (p.1, asSympyNumber ops p.2)) ∧ r.isSympy = d.isSympy ∧
      h'.get r.ref = h.get d.ref ∧ h.length ≤ r.ref ∧ Frame h h' := by
  refine ⟨_, _, mapValues_eq _ h d hg hr hm, ?_, rfl, heap_get_append _ _, Nat.le_refl _, by simp, fun r hr => heap_get_append_lt _ _ _ hr⟩
  simp only [upd_sympy]

/-- **C131** Going to sympy numbers and back restores a dictionary of floats, complex numbers and symbolic values exactly — keys, order, mode,
values and metadata — given that `float(sp.Float(x))` is `x`. -/
theorem C131_float_roundtrip (ops : NumOps F N) (hops : ∀ x, ops.toFloat (ops.ofFloat x) = x) (h : Heap) (d : SDict (PVal F N)) (hg : Good d)
    (hr : d.ref < h.length) (hm : Recorded (h.get d.ref) d.items)
    (hv : ∀ p ∈ d.items, (∃ x, p.2 = .flt x) ∨ (∃ a b, p.2 = .cpx a b) ∨ ∃ t, p.2 = .other t) :
    ∃ s h' r h'', d.floatToValues ops h = .ok (s, h') ∧ s.valuesToFloat ops h' = .ok (r, h'') ∧
      r.items = d.items ∧ r.isSympy = d.isSympy ∧ h''.get r.ref = h.get d.ref ∧ h''.get d.ref = h.get d.ref := by
  obtain ⟨s, h', h1, h2, h3, h4, h5, h6⟩ := C131_float_to_values ops h d hg hr hm
  have hkeys : dkeys s.items = dkeys d.items := by rw [h2]; simp [dkeys]
  have hsg : Good s := by
    refine ⟨fun p hp => ?_, by rw [hkeys]; exact hg.2⟩
    rw [h2] at hp
    obtain ⟨q, hq, rfl⟩ := List.mem_map.mp hp
    rw [h3]; exact hg.1 q hq
  have hsr : s.ref < h'.length := by
    have := mapValues_eq (sympyBranch ops) h d hg hr hm
    unfold SDict.floatToValues at h1
    rw [this] at h1; cases h1; simp
  have hsm : Recorded (h'.get s.ref) s.items := by
    rw [h4, h2]
    intro p hp
    obtain ⟨q, hq, rfl⟩ := List.mem_map.mp hp
    exact hm q hq
  obtain ⟨r, h'', g1, g2, g3, g4, g5, g6⟩ := C131_values_to_float ops h' s hsg hsr hsm
  refine ⟨s, h', r, h'', h1, g1, ?_, by rw [g3, h3], by rw [g4, h4], ?_⟩
  · rw [g2, h2, List.map_map]
    conv => rhs; rw [← List.map_id d.items]
    apply List.map_congr_left
    rintro ⟨k, v⟩ hp
    rcases hv _ hp with ⟨x, hx⟩ | ⟨a, b, hx⟩ | ⟨t, hx⟩ <;> simp only at hx <;> subst hx <;> simp [asSympyNumber, asFloat, hops]
  · rw [g6.2 _ (by have := h6.1; omega), h6.2 _ hr]

/-- **C131** `values_to_float(inplace=True)` leaves the receiver — same object, same metadata cell — with exactly the entries, mode and metadata
`values_to_float()` returns, and changes no other dictionary. -/
theorem C131_values_inplace (ops : NumOps F N) (h : Heap) (d : SDict (PVal F N)) (hg : Good d) (hr : d.ref < h.length)
    (hm : Recorded (h.get d.ref) d.items) (hnd : (dkeys (h.get d.ref).asm).Nodup ∧ (dkeys (h.get d.ref).isVar).Nodup) :
    ∃ r h', d.valuesToFloatInplace ops h = .ok (r, h') ∧ r.ref = d.ref ∧ r.items = d.items.map (fun p => (p.1, asFloat ops p.2)) ∧
      r.isSympy = d.isSympy ∧ h'.get d.ref = h.get d.ref ∧ Frame h h' := by
  have hkeys : dkeys (d.items.map fun p => (p.1, upd (floatBranch ops) p.2)) = dkeys d.items := by simp [dkeys]
  unfold SDict.valuesToFloatInplace SDict.valuesToFloat
  rw [mapValues_eq _ h d hg hr hm]
  simp only
  rw [Cont2.cleanUpdate_eq _ _ _ (by simp; omega) (by simp; omega) (by rw [hkeys]; exact hg.2) (by simp only [heap_get_append]; exact hnd.1)
    (by simp only [heap_get_append]; exact hnd.2)]
  simp only [heap_get_append]
  refine ⟨_, _, rfl, rfl, by simp only [upd_float], rfl, heap_get_put _ _ _ (by simp; omega), by simp, fun r hr' => ?_⟩
  by_cases hrr : d.ref = r
  · subst hrr; exact heap_get_put _ _ _ (by simp; omega)
  · rw [heap_get_put_ne _ _ _ _ hrr, heap_get_put_ne _ _ _ _ hrr, heap_get_append_lt _ _ _ hr']

end

namespace CVal

variable {V : Type}

theorem sortDict_perm (d : List (Key × V)) : (sortDictionary d).Perm d := Ldr.sortBy_perm _ _

theorem sortDict_sorted (d : List (Key × V)) : (sortDictionary d).Pairwise fun a b => strLe (symbolToString a.1) (symbolToString b.1) = true :=
  Ldr.sortBy_sorted (fun a b : Key × V => strLe (symbolToString a.1) (symbolToString b.1)) (fun _ _ _ h1 h2 => Vld.strLe_trans _ _ _ h1 h2) (fun _ _ => Vld.strLe_total _ _) d

/-- `sort_keys` of a string-keyed dictionary -/
theorem sort_str (h : Heap) (d : SDict V) (hg : Good d) (hs : d.isSympy = false) (hr : d.ref < h.length) :
    ∃ h', SDict.sortKeys h d = .ok (⟨sortDictionary d.items, false, h.length + 1⟩, h') ∧ Frame h h' ∧ h'.get (h.length + 1) = h.get d.ref ∧
      h'.length = h.length + 2 := by
  have hk : ∀ p ∈ d.items, p.1.isSym = false := fun p hp => by rw [hg.1 p hp, hs]
  have hid : sympyKeysToStrings d.items = d.items := by
    unfold sympyKeysToStrings
    have : d.items.map (fun p => (Key.str (symbolToString p.1), p.2)) = d.items := by
      conv => rhs; rw [← List.map_id d.items]
      apply List.map_congr_left
      rintro ⟨k, v⟩ hp
      have := hk _ hp
      cases k with
      | str s => rfl
      | var s => simp [Key.isSym] at this
      | par n a => simp [Key.isSym] at this
    rw [this]; exact dupdate_nil_of_nodup _ hg.2
  have hto : SDict.toStr h d = .ok (⟨d.items, false, h.length⟩, (h ++ [({} : Meta)]).put h.length (h.get d.ref)) := by
    unfold SDict.toStr
    rw [copy_ok _ false hk]
    simp only [bind, Except.bind, hid, new_str h d.items hk, pure, Except.pure, heap_get_append_lt _ _ _ hr]
  have hnew := new_str ((h ++ [({} : Meta)]).put h.length (h.get d.ref)) (sortDictionary d.items)
    (fun p hp => hk p ((sortDict_perm d.items).mem_iff.mp hp))
  have hlen : ((h ++ [({} : Meta)]).put h.length (h.get d.ref)).length = h.length + 1 := by simp
  rw [hlen] at hnew
  refine ⟨(((h ++ [({} : Meta)]).put h.length (h.get d.ref)) ++ [({} : Meta)]).put (h.length + 1) (h.get d.ref), ?_, ?_, ?_, by simp⟩
  · unfold SDict.sortKeys
    rw [copy_ok _ false hk]
    simp only [bind, Except.bind, hto, hnew, hs, Bool.false_eq_true, if_false, pure, Except.pure]
    congr 3
    rw [heap_get_append_lt _ _ _ (by simp; omega), heap_get_put_ne _ _ _ _ (by omega), heap_get_append_lt _ _ _ hr]
  · refine ⟨by simp; omega, fun r hr' => ?_⟩
    rw [heap_get_put_ne _ _ _ _ (by omega), heap_get_append_lt _ _ _ (by simp; omega), heap_get_put_ne _ _ _ _ (by omega), heap_get_append_lt _ _ _ hr']
  · exact heap_get_put _ _ _ (by simp)

end CVal

section
variable {F N V A : Type}

/-- **C131** `sort_keys()` of a string-keyed dictionary: the same entries, sorted by key, with a copy of the metadata; no existing dictionary changes -/
theorem C131_sort_strings (h : Heap) (d : SDict V) (hg : Good d) (hs : d.isSympy = false) (hr : d.ref < h.length) :
    ∃ r h', SDict.sortKeys h d = .ok (r, h') ∧ r.items.Perm d.items ∧
      (r.items.Pairwise fun a b => symbolToString a.1 ≤ symbolToString b.1) ∧ r.isSympy = false ∧ h'.get r.ref = h.get d.ref ∧ Frame h h' := by
  obtain ⟨h', h1, h2, h3, _⟩ := sort_str h d hg hs hr
  refine ⟨_, h', h1, sortDict_perm _, (sortDict_sorted _).imp fun hab => by simpa [strLe] using hab, rfl, h3, h2⟩

/-- **C131** `sort_keys(inplace=True)` on a string-keyed dictionary: the receiver itself now holds its entries sorted by key, with its metadata and its
mode; no other dictionary changes -/
theorem C131_sort_inplace (h : Heap) (d : SDict V) (hg : Good d) (hs : d.isSympy = false) (hr : d.ref < h.length)
    (hnd : (dkeys (h.get d.ref).asm).Nodup ∧ (dkeys (h.get d.ref).isVar).Nodup) :
    ∃ r h', SDict.sortKeysInplace h d = .ok (r, h') ∧ r.ref = d.ref ∧ r.items.Perm d.items ∧
      (r.items.Pairwise fun a b => symbolToString a.1 ≤ symbolToString b.1) ∧ r.isSympy = false ∧ Frame h h' := by
  obtain ⟨h', h1, h2, h3, h4⟩ := sort_str h d hg hs hr
  have hk : (dkeys (sortDictionary d.items)).Nodup := ((sortDict_perm d.items).map Prod.fst).nodup_iff.mpr hg.2
  refine ⟨⟨sortDictionary d.items, false, d.ref⟩, (h'.put d.ref {}).put d.ref (h.get d.ref), ?_, rfl, sortDict_perm _,
    (sortDict_sorted _).imp fun hab => by simpa [strLe] using hab, rfl, ?_⟩
  · unfold SDict.sortKeysInplace
    simp only [h1, bind, Except.bind, pure, Except.pure]
    rw [Cont2.cleanUpdate_eq _ _ _ (by omega) (by simp only; omega) hk (by rw [h3]; exact hnd.1) (by rw [h3]; exact hnd.2)]
    simp only [h3]
  · refine ⟨by simp; omega, fun r hr' => ?_⟩
    by_cases hrr : d.ref = r
    · subst hrr; exact heap_get_put _ _ _ (by simp; omega)
    · rw [heap_get_put_ne _ _ _ _ hrr, heap_get_put_ne _ _ _ _ hrr, h2.2 r hr']

/-- **C131 (dates t-1, t, t+1, ss)** `sort_keys()` of a dictionary of symbols: exactly the same entries — symbols with their dates, kinds and
assumptions, and values — sorted by the string of the key; the receiver is unchanged. -/
theorem C131_sort_partial (h0 : Heap) (items : List (Key × V)) (hne : items ≠ []) (h : Representable items) :
    ∃ d h1 r h2, SDict.new h0 items = .ok (d, h1) ∧ SDict.sortKeys h1 d = .ok (r, h2) ∧ r.items.Perm items ∧
      (r.items.Pairwise fun a b => symbolToString a.1 ≤ symbolToString b.1) ∧ r.isSympy = true ∧ Frame h1 h2 := by
  have hnew := new_sym h0 items h.sym hne
  refine ⟨⟨items, true, h0.length⟩, h0 ++ [savedMeta items], ?_⟩
  have hstr : sympyKeysToStrings items = items.map fun p => (Key.str (symbolToString p.1), p.2) := by
    unfold sympyKeysToStrings
    apply dupdate_nil_of_nodup
    rw [dkeys_map items (fun k => Key.str (symbolToString k))]
    apply nodup_map_of_inj _ _ h.nodup
    intro a ha b hb hab
    exact symbolToString_inj items h a ha b hb (by simpa using hab)
  have hnosym : ∀ p ∈ sympyKeysToStrings items, p.1.isSym = false := by
    rw [hstr]; intro p hp
    obtain ⟨q, _, rfl⟩ := List.mem_map.mp hp; rfl
  generalize hG : h0 ++ [savedMeta items] = G at *
  have hGr : h0.length < G.length := by rw [← hG]; simp
  have hGc : G.get h0.length = savedMeta items := by rw [← hG]; exact heap_get_append _ _
  have hto : SDict.toStr G ⟨items, true, h0.length⟩ = .ok (⟨sympyKeysToStrings items, false, G.length⟩, (G ++ [({} : Meta)]).put G.length (savedMeta items)) := by
    unfold SDict.toStr
    rw [copy_ok _ true (by exact h.sym)]
    simp only [bind, Except.bind, new_str G _ hnosym, pure, Except.pure, heap_get_append_lt _ _ _ hGr, hGc]
  generalize hH : (G ++ [({} : Meta)]).put G.length (savedMeta items) = H at hto
  have hHl : H.length = G.length + 1 := by rw [← hH]; simp
  have hHf : ∀ r, r < G.length → H.get r = G.get r := by
    intro r hr; rw [← hH, heap_get_put_ne _ _ _ _ (by omega), heap_get_append_lt _ _ _ hr]
  have hnew2 := new_str H (sortDictionary (sympyKeysToStrings items)) (fun p hp => hnosym p ((sortDict_perm _).mem_iff.mp hp))
  have hcell : (H ++ [({} : Meta)]).get h0.length = savedMeta items := by
    rw [heap_get_append_lt _ _ _ (by omega), hHf _ hGr, hGc]
  generalize hK : (H ++ [({} : Meta)]).put H.length (savedMeta items) = K
  have hKf : ∀ r, r < G.length → K.get r = G.get r := by
    intro r hr; rw [← hK, heap_get_put_ne _ _ _ _ (by omega), heap_get_append_lt _ _ _ (by omega), hHf _ hr]
  have hKl : K.length = G.length + 2 := by rw [← hK]; simp [hHl]
  have hKc : K.get H.length = savedMeta items := by rw [← hK]; exact heap_get_put _ _ _ (by simp)
  -- the sorted entries, as symbols again
  let back := fun p : Key × V => (keyToSympy (savedMeta items) p.1, p.2)
  have hback : ((sympyKeysToStrings items).map back) = items := by
    rw [hstr, List.map_map]
    conv => rhs; rw [← List.map_id items]
    apply List.map_congr_left
    intro p hp
    simp [back, keyToSympy_roundtrip items h p hp]
  have hperm : ((sortDictionary (sympyKeysToStrings items)).map back).Perm items := by
    have := (sortDict_perm (sympyKeysToStrings items)).map back
    rwa [hback] at this
  have hnd : (dkeys ((sortDictionary (sympyKeysToStrings items)).map back)).Nodup := by
    have := hperm.map Prod.fst
    exact this.nodup_iff.mpr h.nodup
  have hconv : stringKeysToSympy (savedMeta items) (sortDictionary (sympyKeysToStrings items)) = (sortDictionary (sympyKeysToStrings items)).map back :=
    dupdate_nil_of_nodup _ hnd
  have hsym : ∀ p ∈ (sortDictionary (sympyKeysToStrings items)).map back, p.1.isSym = true := fun p hp => h.sym p (hperm.mem_iff.mp hp)
  have hne2 : (sortDictionary (sympyKeysToStrings items)).map back ≠ [] := by
    intro he; rw [he] at hperm; exact hne hperm.nil_eq.symm
  have hsame : ∀ p ∈ sympyKeysToStrings items, symbolToString (back p).1 = symbolToString p.1 := by
    rw [hstr]
    intro p hp
    obtain ⟨q, hq, rfl⟩ := List.mem_map.mp hp
    simp only [back, keyToSympy_roundtrip items h q hq]
    rfl
  refine ⟨⟨(sortDictionary (sympyKeysToStrings items)).map back, true, K.length⟩, K ++ [savedMeta ((sortDictionary (sympyKeysToStrings items)).map back)], hnew, ?_, hperm, ?_, rfl, ?_⟩
  · unfold SDict.sortKeys
    rw [copy_ok _ true (by exact h.sym)]
    simp only [bind, Except.bind, hto, hnew2, if_true, hcell, hK]
    unfold SDict.toSympy
    simp only [hKc, hconv]
    exact new_sym _ _ hsym hne2
  · rw [List.pairwise_map]
    have hs := sortDict_sorted (sympyKeysToStrings items)
    rw [List.pairwise_iff_getElem] at hs ⊢
    intro i j hi hj hij
    rw [hsame _ ((sortDict_perm _).mem_iff.mp (List.getElem_mem hi)), hsame _ ((sortDict_perm _).mem_iff.mp (List.getElem_mem hj))]
    simpa [strLe] using hs i j hi hj hij
  · refine ⟨by simp [hKl]; omega, fun r hr => ?_⟩
    rw [heap_get_append_lt _ _ _ (by omega), hKf r hr]

/-- **C131 is false of deeper dates**: sorting a dictionary that holds `x[-2]` turns that variable into a parameter (cf. C03) -/
theorem C131_sort_deep_violated (v : V) :
    ∃ d h1 r h2 n a, SDict.new [] [(.var ⟨['x'], .t (-2), []⟩, v)] = .ok (d, h1) ∧ SDict.sortKeys h1 d = .ok (r, h2) ∧ r.items = [(.par n a, v)] :=
  ⟨_, _, _, _, _, _, rfl, rfl, rfl⟩

/-- **C131** Pickling and unpickling, in any process: the same class, the same entries in the same order, the same mode, the same metadata (in a
cell of its own) and every extra attribute — `success` — with its value. -/
theorem C131_pickle (h H : Heap) (o : SDObj V A) (hn : (dkeys o.dict.items).Nodup) (ha : (dkeys o.attrs).Nodup)
    (hb : ∀ p ∈ o.attrs, p.1 ∉ baseAttrs) :
    ∃ o' H', (o.reduce h).load H = (o', H') ∧ o'.cls = o.cls ∧ o'.dict.items = o.dict.items ∧ o'.dict.isSympy = o.dict.isSympy ∧
      H'.get o'.dict.ref = h.get o.dict.ref ∧ o'.attrs = o.attrs ∧ H.length ≤ o'.dict.ref ∧ Frame H H' := by
  have hf : o.attrs.filter (fun p => p.1 ∉ baseAttrs) = o.attrs := List.filter_eq_self.mpr fun p hp => by simpa using hb p hp
  refine ⟨_, _, rfl, rfl, dupdate_nil_of_nodup _ hn, rfl, heap_get_append _ _, ?_, Nat.le_refl _, by simp [SDObj.reduce], fun r hr => heap_get_append_lt _ _ _ hr⟩
  show dupdate [] (o.attrs.filter fun p => p.1 ∉ baseAttrs) = o.attrs
  rw [hf]
  exact dupdate_nil_of_nodup _ ha

/-- **C131** An unpickled dictionary converts to symbols exactly as the original did: the assumptions travel with it -/
theorem C131_pickle_converts (h H : Heap) (o : SDObj V A) (hn : (dkeys o.dict.items).Nodup) :
    ((((o.reduce h).load H).1.dict.toSympy ((o.reduce h).load H).2).map fun r => (r.1.items, r.1.isSympy)) =
      ((o.dict.toSympy h).map fun r => (r.1.items, r.1.isSympy)) := by
  have hi : ((o.reduce h).load H).1.dict.items = o.dict.items := dupdate_nil_of_nodup _ hn
  have hm : ((o.reduce h).load H).2.get ((o.reduce h).load H).1.dict.ref = h.get o.dict.ref := heap_get_append _ _
  unfold SDict.toSympy
  rw [hi, hm]
  generalize stringKeysToSympy (h.get o.dict.ref) o.dict.items = its
  generalize ((o.reduce h).load H).2 = H'
  cases its with
  | nil => rfl
  | cons p l =>
    simp only [SDict.new]
    split
    · rfl
    · split <;> rfl

/-- **C131 is false of `copy()` and `to_string()`**: whatever a steady-state result holds, its copy and its string-keyed form are plain
dictionaries that have lost the `success` flag -/
theorem C131_success_lost_violated (h0 : Heap) (items : List (Key × V)) (o : SDObj V Bool) (h1 : Heap)
    (ho : SDObj.newResults h0 items = .ok (o, h1)) :
    dget o.attrs ['s','u','c','c','e','s','s'] = some false ∧
    (∀ c, o.copy = .ok c → c.cls = .symbolDictionary ∧ dget c.attrs ['s','u','c','c','e','s','s'] = none) ∧
    (∀ c, o.toStr h1 = .ok c → c.1.cls = .symbolDictionary ∧ dget c.1.attrs ['s','u','c','c','e','s','s'] = none) := by
  unfold SDObj.newResults at ho
  split at ho
  · cases ho
  · cases ho
    refine ⟨rfl, fun c hc => ?_, fun c hc => ?_⟩
    · unfold SDObj.copy at hc
      split at hc
      · cases hc
      · cases hc; exact ⟨rfl, rfl⟩
    · unfold SDObj.toStr at hc
      split at hc
      · cases hc
      · cases hc; exact ⟨rfl, rfl⟩

end

/-! ## non-vacuity -/

namespace CVal

/-- numbers in quarters, floats in halves: enough to tell the two conversions apart -/
def exOps : NumOps Int Int := ⟨fun q => q / 2, fun x => 2 * x, fun n => 8 * n⟩

def exVals : List (Key × PVal Int Int) :=
  [(.var ⟨['Y'], .ss, []⟩, .num 6), (.par ['b'] [(['p'], true)], .flt 1), (.par ['a'] [], .other 0), (.par ['c'] [], .cpx 1 2), (.par ['d'] [], .cc 3 4)]

example : ∃ d h1 r h2, SDict.new [] exVals = .ok (d, h1) ∧ Good d ∧ d.ref < h1.length ∧ Recorded (h1.get d.ref) d.items ∧
    d.valuesToFloat exOps h1 = .ok (r, h2) ∧
    r.items.map Prod.snd = [.flt 3, .flt 1, .other 0, .cpx 1 2, .cpx 3 4] := by
  refine ⟨_, _, _, _, rfl, ⟨by unfold OneKind; decide, by decide⟩, by decide, ?_, rfl, by decide⟩
  unfold Recorded; decide

example : ∀ x, exOps.toFloat (exOps.ofFloat x) = x := by intro x; simp only [exOps]; omega

example : ∃ d h1 r h2, SDict.new [] exItems = .ok (d, h1) ∧ SDict.sortKeys h1 d = .ok (r, h2) ∧ r.items.map Prod.snd = [4, 3, 9, 7] :=
  ⟨_, _, _, _, rfl, rfl, by decide⟩

example : ∃ o h1, SDObj.newResults [] exItems = .ok (o, h1) ∧ (dkeys o.attrs).Nodup ∧ ∀ p ∈ o.attrs, p.1 ∉ baseAttrs := by
  refine ⟨_, _, rfl, by decide, by decide⟩

end CVal

end GE
