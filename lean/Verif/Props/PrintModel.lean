import Verif.Props.PrintText
/-! # C108, lines and phrases -/

namespace GE.Prt
open Gcn

/-- lines that spell tokens, one after the other -/
inductive LP : List Str → List Tok → Prop
  | nil : LP [] []
  | cons {l ls ts us} : Prints l ts → LP ls us → LP (l :: ls) (ts ++ us)

theorem LP.append {a b ts us} (ha : LP a ts) (hb : LP b us) : LP (a ++ b) (ts ++ us) := by
  induction ha with
  | nil => exact hb
  | cons h _ ih => rw [List.cons_append, List.append_assoc]; exact .cons h ih

theorem LP.one {l ts} (h : Prints l ts) : LP [l] ts := by
  have := LP.cons h .nil
  simpa using this

theorem LP.join {sep ls ts} (h : LP ls ts) (hl : Layout sep) (hs : SepHead sep) : Prints (joinText sep ls) ts := by
  induction h with
  | nil => exact p_nil.weak
  | @cons l ls ts us hp h2 ih =>
    cases ls with
    | nil =>
      cases h2
      simpa [joinText, List.intercalate] using hp
    | cons l2 ls =>
      have e : joinText sep (l :: l2 :: ls) = l ++ (sep ++ joinText sep (l2 :: ls)) := by
        simp [joinText, List.intercalate]
      rw [e]
      obtain ⟨c, cs, rfl, hc⟩ := hs
      have := comp hp (comp0 (p_layout hl) ih) (sepc c hc _)
      simpa using this

/-- lists of tokens with commas between them -/
def commaToks : List (List Tok) → List Tok
  | [] => []
  | [t] => t
  | t :: ts => t ++ .comma :: commaToks ts

theorem comma_prints {α} (f : α → Str) (g : α → List Tok) : ∀ (l : List α), (∀ a ∈ l, Prints (f a) (g a)) →
    Prints (joinText ", ".toList (l.map f)) (commaToks (l.map g))
  | [], _ => p_nil.weak
  | [a], h => by
    have := h a (by simp)
    simpa [joinText, List.intercalate, commaToks] using this
  | a :: b :: l, h => by
    have h1 := h a (by simp)
    have h2 := comma_prints f g (b :: l) (fun x hx => h x (by simp [List.mem_cons] at hx ⊢; exact .inr hx))
    have e : joinText ", ".toList ((a :: b :: l).map f) = f a ++ ([','] ++ [' '] ++ joinText ", ".toList ((b :: l).map f)) := by
      simp [joinText, List.intercalate]
    rw [e]
    exact comp h1 (comp0 (comp00 p_comma p_space) h2) (sepc ',' (by decide) _)

theorem comma_listed {α β} (P : List Tok → β → Prop) (g : α → List Tok) (v : α → β) : ∀ (l : List α), l ≠ [] → (∀ a ∈ l, P (g a) (v a)) →
    Listed P (commaToks (l.map g)) (l.map v)
  | [], h, _ => absurd rfl h
  | [a], _, h => .one (h a (by simp))
  | a :: b :: l, _, h => .cons (h a (by simp)) (comma_listed P g v (b :: l) (by simp) (fun x hx => h x (by simp [List.mem_cons] at hx ⊢; exact .inr hx)))

/-- phrases after another -/
theorem seq_map {α β} (P : List Tok → β → Prop) (g : α → List Tok) (v : α → β) : ∀ (l : List α), (∀ a ∈ l, P (g a) (v a)) →
    Seq P ((l.map g).flatten) (l.map v)
  | [], _ => .nil
  | a :: l, h => .cons (h a (by simp)) (seq_map P g v l fun x hx => h x (by simp [hx]))

theorem Seq.append {α} {P : List Tok → α → Prop} {ts us as bs} (h : Seq P ts as) (h' : Seq P us bs) : Seq P (ts ++ us) (as ++ bs) := by
  induction h with
  | nil => exact h'
  | cons h1 _ ih => rw [List.append_assoc, List.cons_append]; exact .cons h1 ih

/-! ### equations -/

theorem stable_sum {e : Expr} (h : e.Stable) : IsSum (e.toks 0) e := (C107_expressions _ _).1 (C11_same_tree_partial e h)

theorem eqn_is (num : Rat → Str) {e : Eqn} (h : EqnOk num e) : IsEqn e.toks (bare e) := by
  obtain ⟨hl, hr, hm, hc⟩ := h
  obtain ⟨l, r, lag, cal, tags⟩ := e
  simp only at hl hr hm hc
  have hM : ∀ (o : Option Str), (∀ n, o = some n → IsWord n) →
      ∃ m, (match o with | some (c :: cs) => [Tok.colon, .id (c :: cs), .tix (.t 0)] | _ => []) = m ∧ IsMultiplier m o := by
    intro o ho
    match o with
    | none => exact ⟨_, rfl, .none⟩
    | some [] => obtain ⟨c, cs, e, _⟩ := ho [] rfl; simp at e
    | some (c :: cs) => exact ⟨_, rfl, .some⟩
  have hC : ∀ (o : Option Str), (∀ n, o = some n → IsWord n) →
      ∃ m, (match o with | some (c :: cs) => [Tok.arrow, .id (c :: cs)] | _ => []) = m ∧ IsTarget m o := by
    intro o ho
    match o with
    | none => exact ⟨_, rfl, .none⟩
    | some [] => obtain ⟨c, cs, e, _⟩ := ho [] rfl; simp at e
    | some (c :: cs) => exact ⟨_, rfl, .some⟩
  replace hM := hM _ hm
  replace hC := hC _ hc
  obtain ⟨m, e1, hM⟩ := hM
  obtain ⟨c, e2, hC⟩ := hC
  have := IsEqn.mk (tags := []) (stable_sum hl.1) (stable_sum hr.1) hM hC
  rw [← e1, ← e2] at this
  simp only [List.map_nil, List.nil_append] at this
  unfold Eqn.toks bare
  simp only [List.append_assoc]
  exact this

/-! ### priors -/

/-- tokens of an argument -/
def valToks : NTree → List Tok
  | .none => [.id "None".toList]
  | .str s => [.id s]
  | .num q => if q < 0 then [.op .sub, .num (-q)] else [.num q]
  | .list _ => []

theorem num_prints {num : Rat → Str} {q} (h : NumOk num q) : Prints (num q) (valToks (.num q)) := by
  rcases h with ⟨h1, h2⟩ | ⟨h1, w, e, h2⟩
  · simp only [valToks]; rw [if_neg (not_lt.2 h1)]; exact p_number h2
  · simp only [valToks]; rw [if_pos h1, e]; exact p_minus (p_number h2) (writes_noarrow h2)

theorem none_word : IsWord "None".toList := ⟨'N', _, rfl, .inl (by decide), by decide⟩

theorem val_prints {num : Rat → Str} {v} (h : ValOk num v) : Prints (valText num v) (valToks v) := by
  cases v with
  | none => exact p_word none_word
  | str s => exact p_word h.1
  | num q => exact num_prints h
  | list l => exact h.elim

theorem evaluates_num (q : Rat) : Evaluates (.one (.num q)) := ⟨_, rfl⟩

theorem chain_num {num : Rat → Str} {q} (h : NumOk num q) : ∃ c, IsChain (valToks (.num q)) c ∧ Evaluates c ∧ c.value = q := by
  refine ⟨.one (.num q), ?_, evaluates_num q, by simp [NChain.value, NChain.read, NAtom.value]⟩
  simp only [valToks]
  split
  · have := IsOperand.minus (v := -q)
    rw [neg_neg] at this
    exact .one this
  · exact .one .num

theorem val_is {num : Rat → Str} {v} (h : ValOk num v) : IsPriorVal (valToks v) v := by
  cases v with
  | none => exact .none
  | str s => exact .name h.2
  | num q =>
    obtain ⟨c, h1, h2, h3⟩ := chain_num h
    have := IsPriorVal.number h1 h2
    rw [h3] at this
    exact this
  | list l => exact h.elim

/-- tokens of `k=v` -/
def kwToks (p : Str × NTree) : List Tok := .id p.1 :: .eq :: valToks p.2

theorem kw_prints {num : Rat → Str} {l} (h : KwOk num l) : Prints (kwText num l) (commaToks (l.map kwToks)) := by
  refine comma_prints _ _ l fun p hp => ?_
  exact comp (p_word (h.2 p hp).1) (comp0 p_eq (val_prints (h.2 p hp).2)) (sepc '=' (by decide) _)

theorem kw_listed {num : Rat → Str} {l} (h : KwOk num l) (hne : l ≠ []) : Listed (IsArg IsPriorVal) (commaToks (l.map kwToks)) l := by
  have := comma_listed (IsArg IsPriorVal) kwToks id l hne fun p hp => .mk (val_is (h.2 p hp).2)
  simpa using this

theorem kw_empty {num : Rat → Str} {l} (h : KwOk num l) : kwText num l = [] ↔ l = [] := by
  constructor
  · intro e
    cases l with
    | nil => rfl
    | cons p l =>
      exfalso
      obtain ⟨c, cs, e2, _⟩ := (h.2 p (by simp)).1
      cases l <;> simp [kwText, joinText, List.intercalate, e2] at e
  · rintro rfl; rfl

theorem firstOcc_id : ∀ (l : List Str), l.Nodup → firstOcc l = l
  | [], _ => rfl
  | k :: l, h => by
    rw [List.nodup_cons] at h
    rw [firstOcc, firstOcc_id l h.2, List.filter_eq_self.2]
    intro a ha
    simp only [ne_eq, decide_not, Bool.not_eq_eq_eq_not, Bool.not_true, decide_eq_false_iff_not]
    rintro rfl; exact h.1 ha

theorem dict_self {α} (l : List (Str × α)) (h : (l.map Prod.fst).Nodup) : IsDict l l := by
  refine ⟨(firstOcc_id _ h).symm, fun k => ?_⟩
  induction l with
  | nil => rfl
  | cons p l ih =>
    obtain ⟨a, b⟩ := p
    simp only [List.map_cons, List.nodup_cons] at h
    simp only [dget, lastFor, List.filter_cons]
    by_cases hk : a = k
    · subst hk
      have : l.filter (fun p => p.1 = a) = [] := by
        rw [List.filter_eq_nil_iff]
        intro q hq
        simp only [decide_eq_true_eq]
        rintro rfl
        exact h.1 (List.mem_map.2 ⟨q, hq, rfl⟩)
      simp [this]
    · have := ih h.2
      simp only [lastFor] at this
      simp [hk, this]

/-- tokens of a distribution -/
def innerToks (d : GDist) : List Tok := .id d.dist :: .lpar :: (commaToks (d.kwargs.map kwToks) ++ [.rpar])

def fullToks (d : GDist) : List Tok :=
  match d.wrapper with
  | some w => .id w :: .lpar :: (innerToks d ++ ((if d.wrapperKwargs = [] then [] else .comma :: commaToks (d.wrapperKwargs.map kwToks)) ++ [.rpar]))
  | none => innerToks d

def distToks (d : GDist) : List Tok :=
  .id d.param :: .tilde :: (fullToks d ++ ((match d.initial with | some q => .eq :: valToks (.num q) | none => []) ++ [.semi]))

theorem dists_words : ∀ d ∈ dists, IsWord d := by
  have : ∀ d ∈ dists, ∃ c cs, d = c :: cs ∧ (c.isAlpha = true) ∧ ∀ x ∈ cs, x.isAlphanum = true := by
    intro d hd
    have h : dists.all (fun d => match d with | c :: cs => c.isAlpha && cs.all (·.isAlphanum) | [] => false) = true := by decide +kernel
    rw [List.all_eq_true] at h
    have := h d hd
    cases d with
    | nil => simp at this
    | cons c cs =>
      simp only [Bool.and_eq_true, List.all_eq_true] at this
      exact ⟨c, cs, rfl, this.1, this.2⟩
  intro d hd
  obtain ⟨c, cs, e, h1, h2⟩ := this d hd
  exact ⟨c, cs, e, .inl h1, fun x hx => .inl (h2 x hx)⟩

theorem wrappers_words : ∀ d ∈ wrappers, IsWord d := by
  have : ∀ d ∈ wrappers, ∃ c cs, d = c :: cs ∧ (c.isAlpha = true) ∧ ∀ x ∈ cs, x.isAlphanum = true := by
    intro d hd
    have h : wrappers.all (fun d => match d with | c :: cs => c.isAlpha && cs.all (·.isAlphanum) | [] => false) = true := by decide +kernel
    rw [List.all_eq_true] at h
    have := h d hd
    cases d with
    | nil => simp at this
    | cons c cs =>
      simp only [Bool.and_eq_true, List.all_eq_true] at this
      exact ⟨c, cs, rfl, this.1, this.2⟩
  intro d hd
  obtain ⟨c, cs, e, h1, h2⟩ := this d hd
  exact ⟨c, cs, e, .inl h1, fun x hx => .inl (h2 x hx)⟩

theorem inner_prints {num : Rat → Str} {d} (h : DistOk num d) : Prints0 (d.dist ++ '(' :: (kwText num d.kwargs ++ [')'])) (innerToks d) :=
  compA (p_word (dists_words _ h.dist)) (comp00 p_lpar (compA (kw_prints h.kwargs) p_rpar (sepc ')' (by decide) _))) (sepc '(' (by decide) _)

theorem dist_prints {num : Rat → Str} {d} (h : DistOk num d) : Prints0 (distText num d ++ [';']) (distToks d) := by
  have hin := inner_prints h
  have hfull : Prints0 (match d.wrapper with
    | some (c :: w) =>
      if kwText num d.wrapperKwargs = [] then c :: w ++ '(' :: (d.dist ++ '(' :: (kwText num d.kwargs ++ [')']) ++ [')'])
      else c :: w ++ '(' :: (d.dist ++ '(' :: (kwText num d.kwargs ++ [')']) ++ ", ".toList ++ kwText num d.wrapperKwargs ++ [')'])
    | _ => d.dist ++ '(' :: (kwText num d.kwargs ++ [')'])) (fullToks d) := by
    unfold fullToks
    cases hw : d.wrapper with
    | none => exact hin
    | some w =>
      have hww := wrappers_words w (h.wrapper w hw)
      match w, hww with
      | [], hww => obtain ⟨c, cs, e, _⟩ := hww; simp at e
      | c :: w, hww =>
        simp only [kw_empty h.wrapperKwargs]
        split
        · exact compA (p_word hww) (comp00 p_lpar (comp00 hin p_rpar)) (sepc '(' (by decide) _)
        · have h2 := compA (comp0 (comp00 p_comma p_space) (kw_prints h.wrapperKwargs)) p_rpar (sepc ')' (by decide) _)
          have h3 := compA (p_word hww) (comp00 p_lpar (comp00 hin h2)) (sepc '(' (by decide) _)
          simpa using h3
  have htil : Prints0 " ~ ".toList [.tilde] := comp00 p_space (comp00 p_tilde p_space)
  have hinit : Prints0 ((match d.initial with | some v => " = ".toList ++ num v | none => []) ++ [';'])
      ((match d.initial with | some q => .eq :: valToks (.num q) | none => []) ++ [.semi]) := by
    cases hi : d.initial with
    | none => exact p_semi
    | some q =>
      exact compA (comp0 p_eq_spaced (num_prints (h.initial q hi))) p_semi (sepc ';' (by decide) _)
  have h1 := compA (p_word h.param) (comp00 htil (comp00 hfull hinit)) (sepc ' ' (by decide) _)
  unfold distText distToks
  simp only [List.append_assoc, List.cons_append, List.nil_append] at h1 ⊢
  exact h1

theorem dist_is {num : Rat → Str} {d} (h : DistOk num d) : IsPrior (distToks d) d := by
  have hargs : IsOptArgs IsPriorVal (commaToks (d.kwargs.map kwToks)) d.kwargs := by
    by_cases hk : d.kwargs = []
    · rw [hk]; exact .none
    · exact .some (kw_listed h.kwargs hk)
  have hd : IsDist IsPriorVal (fullToks d) { dist := d.dist, args := d.kwargs, wrapper := d.wrapper, wargs := d.wrapperKwargs } := by
    unfold fullToks innerToks
    cases hw : d.wrapper with
    | none =>
      rw [h.plain hw]
      exact .plain h.dist hargs
    | some w =>
      have hwr : IsWrapArgs IsPriorVal (if d.wrapperKwargs = [] then [] else .comma :: commaToks (d.wrapperKwargs.map kwToks)) d.wrapperKwargs := by
        split
        · rename_i hk; rw [hk]; exact .none
        · rename_i hk; exact .some (kw_listed h.wrapperKwargs hk)
      have := IsDist.wrapped (h.wrapper w hw) h.dist hargs hwr
      simpa using this
  have hi : IsInitial (match d.initial with | some q => .eq :: valToks (.num q) | none => []) d.initial := by
    cases hi : d.initial with
    | none => exact .none
    | some q =>
      obtain ⟨c, h1, h2, h3⟩ := chain_num (h.initial q hi)
      have := IsInitial.some h1 h2
      rw [h3] at this
      exact this
  exact .mk hd hi ⟨rfl, rfl, rfl, rfl, dict_self _ h.kwargs.1, dict_self _ h.wrapperKwargs.1⟩

end GE.Prt
