import Verif.Props.PrintModel
import Verif.Props.Loader
import Verif.Props.Lagrangian
/-! # C108: a printed model can be read, and what is read is the model -/

namespace GE.Prt
open Gcn

instance (k : Str) (w : String) : Decidable (Keyword k w) := by unfold Keyword; infer_instance

/-! ### components -/

theorem p_line {ind s ts} (hi : Layout ind) (h : Prints s ts) : Prints (ind ++ s) ts := comp0 (p_layout hi) h

theorem lp_map {α} (f : α → Str) (g : α → List Tok) : ∀ (l : List α), (∀ a ∈ l, Prints (f a) (g a)) → LP (l.map f) ((l.map g).flatten)
  | [], _ => .nil
  | a :: l, h => .cons (h a (by simp)) (lp_map f g l fun x hx => h x (by simp [hx]))

/-- tokens of a component -/
def compToks (key : String) (ts : List Tok) : List Tok := .id key.toList :: .lbrace :: (ts ++ [.rbrace, .semi])

theorem close_prints : Prints0 ['}', ';'] [.rbrace, .semi] := comp00 p_rbrace p_semi

theorem compLines_prints {α} {ind : Str} {key : String} (hi : Layout ind) (hk : IsWord key.toList) (f : α → Str) (g : α → List Tok) (l : List α)
    (h : ∀ a ∈ l, Prints0 (f a ++ [';']) (g a)) : LP (compLines ind key (l.map f)) (compToks key ((l.map g).flatten)) := by
  have h1 : LP [ind ++ key.toList, ind ++ ['{']] [.id key.toList, .lbrace] :=
    .cons (ts := [_]) (us := [_]) (p_line hi (p_word hk)) (.one (p_line hi p_lbrace.weak))
  have h2 : LP ((l.map f).map fun s => ind ++ ind ++ s ++ [';']) ((l.map g).flatten) := by
    rw [List.map_map]
    refine lp_map _ _ _ fun a ha => ?_
    have := p_line hi (p_line hi (h a ha).weak)
    simpa using this
  have h3 : LP [ind ++ ['}', ';'], []] [.rbrace, .semi] :=
    .cons (ts := [_, _]) (us := []) (p_line hi close_prints.weak) (.one p_nil.weak)
  exact (h1.append h2).append h3

/-- lines that hold components -/
def Part (ls : List Str) (cs : List GComp) : Prop := ∃ ts, LP ls ts ∧ Seq IsComp ts cs

theorem Part.append {a b cs ds} (h : Part a cs) (h' : Part b ds) : Part (a ++ b) (cs ++ ds) := by
  obtain ⟨ts, h1, h2⟩ := h
  obtain ⟨us, h3, h4⟩ := h'
  exact ⟨_, h1.append h3, Seq.append h2 h4⟩

theorem seq_one {α} {P : List Tok → α → Prop} {ts a} (h : P ts a) : Seq P ts [a] := by
  have := Seq.cons h .nil
  simpa using this

theorem Part.none : Part [] [] := ⟨[], .nil, .nil⟩

theorem eqns_part (num : Rat → Str) {ind : Str} {key : String} (hi : Layout ind) (hk : IsWord key.toList) (con : List Eqn → GComp)
    (hcon : ∀ ts es, Braced IsEqn ts es → IsComp (.id key.toList :: ts) (con es)) (es : List Eqn) (h : ∀ e ∈ es, EqnOk num e) :
    Part (eqnComp num ind key es) (if es.isEmpty then [] else [con (es.map bare)]) := by
  unfold eqnComp
  split
  · exact .none
  · exact ⟨_, compLines_prints hi hk (eqnText num) Eqn.toks es (fun e he => eqn_prints num (h e he)),
      seq_one (hcon _ _ (.mk (seq_map IsEqn Eqn.toks bare es fun e he => eqn_is num (h e he))))⟩

/-- tokens of a variable -/
def varToks (v : VarRef) : List Tok := [.id v.name, .tix v.t]

theorem vars_prints (vs : List VarRef) (h : ∀ v ∈ vs, IsWord v.name) :
    Prints0 (joinText ", ".toList (vs.map varText) ++ [';']) (commaToks (vs.map varToks) ++ [.semi]) :=
  compA (comma_prints varText varToks vs fun v hv => p_var (h v hv)) p_semi (sepc ';' (by decide) _)

theorem vars_listed (vs : List VarRef) (hne : vs ≠ []) : Listed IsVarRef (commaToks (vs.map varToks)) vs := by
  have := comma_listed IsVarRef varToks id vs hne fun v _ => .mk
  simpa using this

theorem vars_part {ind : Str} {key : String} (hi : Layout ind) (hk : IsWord key.toList) (con : List VarRef → GComp)
    (hcon : ∀ ts vs, Listed IsVarRef ts vs → IsComp (compToks key (ts ++ [.semi])) (con vs)) (vs : List VarRef) (h : ∀ v ∈ vs, IsWord v.name) :
    Part (varComp ind key vs) (if vs.isEmpty then [] else [con vs]) := by
  unfold varComp
  split
  · exact .none
  · rename_i hne
    have h1 := compLines_prints hi hk (fun vs : List VarRef => joinText ", ".toList (vs.map varText)) (fun vs => commaToks (vs.map varToks) ++ [.semi])
      [vs] (by simpa using vars_prints vs h)
    simp only [List.map_cons, List.map_nil, List.flatten_cons, List.flatten_nil, List.append_nil] at h1
    exact ⟨_, h1, seq_one (hcon _ _ (vars_listed vs (by simpa using hne)))⟩

/-- tokens of a calibration entry -/
def calToks : GCal → List Tok
  | .eq e => e.toks
  | .prior d => distToks d

/-- a calibration entry without tags -/
def bareCal : GCal → GCal
  | .eq e => .eq (bare e)
  | .prior d => .prior d

theorem cal_prints {num : Rat → Str} {c} (h : CalOk num c) : Prints0 (calText num c ++ [';']) (calToks c) := by
  cases c with
  | eq e => exact eqn_prints num h.1
  | prior d => exact dist_prints h

mutual
theorem toks_ne : ∀ (e : Expr) (p : Nat), e.toks p ≠ [] ∧ Tok.eq ∉ e.toks p
  | .num v, p => by simp only [Expr.toks]; split <;> simp
  | .par n, p => by simp [Expr.toks]
  | .var n t, p => by simp [Expr.toks]
  | .neg e, p => by simp [Expr.toks, (toks_ne e _).2]
  | .bin o l r, p => by
    have h1 := toks_ne l (prec o)
    have h2 := toks_ne r (rightPrec o)
    simp only [Expr.toks]
    split <;> simp [h1.2, h2.2]
  | .call f as, p => by simp [Expr.toks, args_ne as]
  | .expect e, p => by simp [Expr.toks, (toks_ne e _).2]
theorem args_ne : ∀ (as : List Expr), Tok.eq ∉ Expr.toksArgs as
  | [] => by simp [Expr.toksArgs]
  | [a] => by simp [Expr.toksArgs, (toks_ne a _).2]
  | a :: b :: as => by simp [Expr.toksArgs, (toks_ne a _).2, args_ne (b :: as)]
end

theorem cal_is {num : Rat → Str} {c} (h : CalOk num c) : IsCal (calToks c) (bareCal c) := by
  cases c with
  | prior d => exact .prior (dist_is h)
  | eq e =>
    refine .eq (eqn_is num h.1) fun p n r he => ?_
    simp only [calToks, Eqn.toks] at he
    simp only [List.append_assoc, List.cons_append] at he
    have hl := toks_ne e.lhs 0
    have hr := toks_ne e.rhs 0
    have key := h.2
    generalize e.lhs.toks 0 = l at *
    generalize e.rhs.toks 0 = r' at *
    match l, hl with
    | [], hl => exact absurd rfl hl.1
    | [a], _ =>
      simp only [List.cons_append, List.nil_append, List.cons.injEq] at he
      match r', hr with
      | [], hr => exact absurd rfl hr.1
      | b :: r', _ =>
        simp only [List.cons_append, List.cons.injEq] at he
        rw [he.2.2.1] at key
        exact key n r' rfl
    | a :: b :: l, hl =>
      simp only [List.cons_append, List.cons.injEq] at he
      exact absurd (by simp [he.2.1]) hl.2

theorem cals_part {num : Rat → Str} {ind : Str} (hi : Layout ind) (cs : List GCal) (h : ∀ c ∈ cs, CalOk num c) :
    Part (if cs.isEmpty then [] else compLines ind "calibration" (cs.map (calText num))) (if cs.isEmpty then [] else [.calibration (cs.map bareCal)]) := by
  split
  · exact .none
  · exact ⟨_, compLines_prints hi ⟨'c', _, rfl, .inl (by decide), by decide⟩ (calText num) calToks cs (fun c hc => cal_prints (h c hc)),
      seq_one (.calibration (by decide) (.mk (seq_map IsCal calToks bareCal cs fun c hc => cal_is (h c hc))))⟩

/-! ### blocks -/

/-- the components that are printed -/
def comps (b : GBlock) : List GComp :=
  (if b.definitions.isEmpty then [] else [.definitions (b.definitions.map bare)])
  ++ (if b.controls.isEmpty then [] else [.controls b.controls])
  ++ (if b.objective.isEmpty then [] else [.objective (b.objective.map bare)])
  ++ (if b.constraints.isEmpty then [] else [.constraints (b.constraints.map bare)])
  ++ (if b.identities.isEmpty then [] else [.identities (b.identities.map bare)])
  ++ (if b.shocks.isEmpty then [] else [.shocks b.shocks []])
  ++ (if b.calibration.isEmpty then [] else [.calibration (b.calibration.map bareCal)])

theorem comps_fold (b : GBlock) : (comps b).foldl GBlock.addComp { name := b.name } = bareBlock b := by
  obtain ⟨n, d, c, o, k, i, s, sd, cal⟩ := b
  unfold comps bareBlock
  have e : (fun c : GCal => bareCal c) = (fun | .eq e => .eq (bare e) | .prior d => .prior d) := by
    funext c; cases c <;> rfl
  rcases d with _ | ⟨d0, d⟩ <;> rcases c with _ | ⟨c0, c⟩ <;> rcases o with _ | ⟨o0, o⟩ <;> rcases k with _ | ⟨k0, k⟩ <;>
    rcases i with _ | ⟨i0, i⟩ <;> rcases s with _ | ⟨s0, s⟩ <;> rcases cal with _ | ⟨l0, cal⟩ <;> rfl

theorem word_of (c : Char) (cs : List Char) (h : c.isAlpha = true) (h2 : ∀ d ∈ cs, d.isAlphanum = true ∨ d = '_') : IsWord (c :: cs) :=
  ⟨c, cs, rfl, .inl h, h2⟩

theorem block_prints {num : Rat → Str} {ind : Str} (hi : Layout ind) {b : GBlock} (h : BlockOk num b) :
    ∃ ts, Prints (blockText num ind b) ts ∧ IsBlock ts (bareBlock b) := by
  have hd := eqns_part num (key := "definitions") hi (word_of 'd' _ (by decide) (by decide)) .definitions
    (fun ts es hb => .definitions (by decide) hb) b.definitions h.definitions
  have hc := vars_part (key := "controls") hi (word_of 'c' _ (by decide) (by decide)) .controls
    (fun ts es hb => .controls (by decide) (by simpa using IsVarBlock.some hb)) b.controls h.controls
  have ho := eqns_part num (key := "objective") hi (word_of 'o' _ (by decide) (by decide)) .objective
    (fun ts es hb => .objective (by decide) hb) b.objective h.objective
  have hk := eqns_part num (key := "constraints") hi (word_of 'c' _ (by decide) (by decide)) .constraints
    (fun ts es hb => .constraints (by decide) hb) b.constraints h.constraints
  have hid := eqns_part num (key := "identities") hi (word_of 'i' _ (by decide) (by decide)) .identities
    (fun ts es hb => .identities (by decide) hb) b.identities h.identities
  have hs := vars_part (key := "shocks") hi (word_of 's' _ (by decide) (by decide)) (fun vs => .shocks vs [])
    (fun ts vs hb => by
      have := IsComp.shocks (k := "shocks".toList) (by decide) (.mk (seq_one (IsShock.vars hb)))
      simpa [declared, declaredDists, compToks] using this) b.shocks h.shocks
  have hcal := cals_part (num := num) hi b.calibration h.calibration
  obtain ⟨ts, h1, h2⟩ := (((((hd.append hc).append ho).append hk).append hid).append hs).append hcal
  have hfirst : LP ["block ".toList ++ b.name, ['{']] [.id "block".toList, .id b.name, .lbrace] := by
    refine .cons (ts := [_, _]) (us := [_]) ?_ (.one p_lbrace.weak)
    have := comp (p_word (n := "block".toList) (word_of 'b' _ (by decide) (by decide))) (comp0 p_space (p_word h.name)) (sepc ' ' (by decide) _)
    simpa using this
  have hp := ((hfirst.append h1).append (.one close_prints.weak)).join line_layout (sepc '\n' (by decide) _)
  refine ⟨.id "block".toList :: .id b.name :: .lbrace :: (ts ++ [.rbrace, .semi]), ?_, ?_⟩
  · simpa [blockText] using hp
  · refine .mk (by decide) (.mk h2) ?_
    have := gathers_fold b.name (comps b)
    rw [comps_fold] at this
    exact this

/-! ### options -/

theorem words_prints : ∀ (ks : List Str), (∀ k ∈ ks, IsWord k) → LP ks (ks.map Tok.id)
  | [], _ => .nil
  | k :: ks, h => .cons (ts := [_]) (p_word (h k (by simp))) (words_prints ks fun x hx => h x (by simp [hx]))

theorem optVal_is (v : OptVal) (h : ∀ w, v = .word w → IsWord w ∧ ¬ Keyword w "true" ∧ ¬ Keyword w "false") :
    IsWord (optText v) ∧ IsOptVal (optText v) v := by
  match v, h with
  | .bool true, _ => exact ⟨word_of 'T' _ (by decide) (by decide), .yes (by decide)⟩
  | .bool false, _ => exact ⟨word_of 'F' _ (by decide) (by decide), .no (by decide)⟩
  | .word w, h => exact ⟨(h w rfl).1, .word (h w rfl).2.1 (h w rfl).2.2⟩

theorem option_line {ind : Str} (hi : Layout ind) {p : Str × OptVal} (h : OptOk p) :
    ∃ ts, Prints (ind ++ p.1 ++ " = ".toList ++ optText p.2 ++ [';']) ts ∧ IsOption ts p := by
  obtain ⟨key, v⟩ := p
  obtain ⟨⟨ks, hne, hw, e⟩, hv⟩ := h
  simp only at e hv
  subst e
  obtain ⟨h1, h2⟩ := optVal_is v hv
  refine ⟨ks.map Tok.id ++ [.eq, .id (optText v), .semi], ?_, .mk hne h2⟩
  have hk := (words_prints ks hw).join space_layout (sepc ' ' (by decide) _)
  have := p_line hi (comp hk (comp0 p_eq_spaced (comp (p_word h1) p_semi.weak (sepc ';' (by decide) _))) (sepc ' ' (by decide) _))
  simpa [joinText] using this

theorem options_lines {ind : Str} (hi : Layout ind) : ∀ (l : List (Str × OptVal)), (∀ p ∈ l, OptOk p) →
    ∃ ts, LP (l.map fun p => ind ++ p.1 ++ " = ".toList ++ optText p.2 ++ [';']) ts ∧ Seq IsOption ts l
  | [], _ => ⟨[], .nil, .nil⟩
  | p :: l, h => by
    obtain ⟨ts, h1, h2⟩ := option_line hi (h p (by simp))
    obtain ⟨us, h3, h4⟩ := options_lines hi l fun x hx => h x (by simp [hx])
    exact ⟨_, .cons h1 h3, .cons h2 h4⟩

theorem options_print {ind : Str} (hi : Layout ind) (l : List (Str × OptVal)) (h : ∀ p ∈ l, OptOk p) (hd : (l.map Prod.fst).Nodup) :
    ∃ ts, Prints (optionsText ind l) ts ∧ IsSpecial ts (.options l) := by
  obtain ⟨ts, h1, h2⟩ := options_lines hi l h
  have hfirst : LP ["options".toList, ['{']] [.id "options".toList, .lbrace] :=
    .cons (ts := [_]) (us := [_]) (p_word (word_of 'o' _ (by decide) (by decide))) (.one p_lbrace.weak)
  have hp := ((hfirst.append h1).append (.one close_prints.weak)).join line_layout (sepc '\n' (by decide) _)
  refine ⟨.id "options".toList :: .lbrace :: (ts ++ [.rbrace, .semi]), by simpa [optionsText] using hp, ?_⟩
  exact .options (by decide) (.mk h2) (dict_self l hd)

/-! ### assumptions -/

/-- what the assumptions say, in order -/
def asmPairs (d : List (Str × Asm)) : List (Str × Str) :=
  d.flatMap fun va => (va.2.filter (·.2)).map fun kv => (kv.1, va.1)

def asmStep (g : List (Str × List Str)) (p : Str × Str) : List (Str × List Str) := dset g p.1 ((dget g p.1).getD [] ++ [p.2])

theorem asmGroups_eq (d : List (Str × Asm)) : asmGroups d = (asmPairs d).foldl asmStep [] := by
  unfold asmGroups asmPairs
  have inner : ∀ (v : Str) (a : Asm) (g : List (Str × List Str)),
      a.foldl (fun g kv => if kv.2 then dset g kv.1 ((dget g kv.1).getD [] ++ [v]) else g) g
        = ((a.filter (·.2)).map fun kv => (kv.1, v)).foldl asmStep g := by
    intro v a
    induction a with
    | nil => intro g; rfl
    | cons kv a ih =>
      intro g
      rw [List.foldl_cons, ih, List.filter_cons]
      split <;> simp [asmStep]
  generalize ([] : List (Str × List Str)) = g
  induction d generalizing g with
  | nil => rfl
  | cons va d ih => rw [List.foldl_cons, ih, inner, List.flatMap_cons, List.foldl_append]

structure GroupInv (L : List (Str × Str)) (g : List (Str × List Str)) : Prop where
  mem : ∀ k v, v ∈ (dget g k).getD [] ↔ (k, v) ∈ L
  ne : ∀ p ∈ g, p.2 ≠ []
  nodup : (dkeys g).Nodup

theorem group_inv : ∀ (M L : List (Str × Str)) (g : List (Str × List Str)), GroupInv L g → GroupInv (L ++ M) (M.foldl asmStep g)
  | [], L, g, h => by simpa using h
  | (k, v) :: M, L, g, h => by
    have h2 : GroupInv (L ++ [(k, v)]) (asmStep g (k, v)) := by
      refine ⟨fun k' v' => ?_, fun p hp => ?_, dset_nodup _ _ _ h.nodup⟩
      · simp only [asmStep, dget_dset]
        split
        · rename_i e; subst e
          simp [h.mem]
        · rename_i e
          rw [h.mem]
          simp only [List.mem_append, List.mem_singleton, Prod.mk.injEq]
          exact ⟨.inl, fun hh => hh.resolve_right fun ⟨e', _⟩ => e e'.symm⟩
      · rcases Lag.mem_dset _ _ _ _ hp with hp | rfl
        · exact h.ne p hp
        · simp
    have := group_inv M _ _ h2
    rw [List.append_assoc] at this
    exact this

theorem asmGroups_inv (d : List (Str × Asm)) : GroupInv (asmPairs d) (asmGroups d) := by
  rw [asmGroups_eq]
  have := group_inv (asmPairs d) [] [] ⟨by simp [dget], by simp, by simp [dkeys]⟩
  simpa using this

/-- membership in the groups -/
theorem group_mem (d : List (Str × Asm)) (k v : Str) : (∃ p ∈ asmGroups d, p.1 = k ∧ v ∈ p.2) ↔ (k, v) ∈ asmPairs d := by
  have h := asmGroups_inv d
  rw [← h.mem]
  constructor
  · rintro ⟨⟨k', vs⟩, hp, rfl, hv⟩
    rw [dget_of_mem _ h.nodup _ _ hp]
    exact hv
  · intro hv
    cases hg : dget (asmGroups d) k with
    | none => rw [hg] at hv; simp at hv
    | some vs => rw [hg] at hv; exact ⟨(k, vs), mem_of_dget _ _ _ hg, rfl, hv⟩

theorem pair_mem {d : List (Str × Asm)} (k v : Str) : (k, v) ∈ asmPairs d ↔ ∃ a, (v, a) ∈ d ∧ (k, true) ∈ a := by
  simp only [asmPairs, List.mem_flatMap, List.mem_map, List.mem_filter, Prod.mk.injEq, Prod.exists]
  constructor
  · rintro ⟨v', a, h, k', b, ⟨h1, h2⟩, rfl, rfl⟩
    exact ⟨a, h, by rw [← h2]; exact h1⟩
  · rintro ⟨a, h, h1⟩
    exact ⟨v, a, h, k, true, ⟨h1, rfl⟩, rfl, rfl⟩

/-- what the printed block says -/
def asmSubs (d : List (Str × Asm)) : List (Str × List Str) := (asmGroups d).map fun p => (p.1, sortBy strLe p.2)

theorem names_lower : ∀ k ∈ assumptionNames, lowerStr k = k ∧ IsWord k := by
  have h : ∀ k ∈ assumptionNames, lowerStr k = k := by decide
  have h2 : ∀ k ∈ assumptionNames, ∃ c cs, k = c :: cs ∧ (c.isAlpha = true) ∧ ∀ x ∈ cs, (x.isAlphanum = true ∨ x = '_') := by
    intro d hd
    have h : assumptionNames.all (fun d => match d with | c :: cs => c.isAlpha && cs.all (fun x => x.isAlphanum || x == '_') | [] => false) = true := by
      decide +kernel
    rw [List.all_eq_true] at h
    have := h d hd
    cases d with
    | nil => simp at this
    | cons c cs =>
      simp only [Bool.and_eq_true, List.all_eq_true, Bool.or_eq_true, beq_iff_eq] at this
      exact ⟨c, cs, rfl, this.1, this.2⟩
  intro k hk
  obtain ⟨c, cs, e, h3, h4⟩ := h2 k hk
  exact ⟨h k hk, c, cs, e, .inl h3, h4⟩

theorem group_ok {d : List (Str × Asm)} (h : ∀ p ∈ d, AsmOk p) {p} (hp : p ∈ asmGroups d) :
    p.1 ∈ assumptionNames ∧ p.2 ≠ [] ∧ ∀ v ∈ p.2, IsWord v := by
  have hne := (asmGroups_inv d).ne p hp
  have hv : ∀ v ∈ p.2, ∃ a, (v, a) ∈ d ∧ (p.1, true) ∈ a := fun v hv => (pair_mem _ _).1 ((group_mem d p.1 v).1 ⟨p, hp, rfl, hv⟩)
  refine ⟨?_, hne, fun v h2 => ?_⟩
  · obtain ⟨v, h2⟩ := List.exists_mem_of_ne_nil _ hne
    obtain ⟨a, h3, h4⟩ := hv v h2
    exact ((h _ h3).known _ _ h4).2
  · obtain ⟨a, h3, h4⟩ := hv v h2
    exact (h _ h3).name

theorem sub_lines {ind : Str} (hi : Layout ind) (p : Str × List Str) (hk : p.1 ∈ assumptionNames) (hne : p.2 ≠ []) (hw : ∀ v ∈ p.2, IsWord v) :
    ∃ ts, LP [ind ++ p.1, ind ++ ['{'], ind ++ ind ++ joinText ", ".toList (sortBy strLe p.2) ++ [';'], ind ++ ['}', ';']] ts ∧
      IsAsmSub ts (p.1, sortBy strLe p.2) := by
  have hperm := Ldr.sortBy_perm strLe p.2
  have hw' : ∀ v ∈ sortBy strLe p.2, IsWord v := fun v hv => hw v (hperm.mem_iff.1 hv)
  have hne' : sortBy strLe p.2 ≠ [] := by
    intro e; rw [e] at hperm; exact hne (List.nil_perm.1 hperm)
  have hl : Listed IsAsmItem (commaToks ((sortBy strLe p.2).map fun v => [Tok.id v])) (sortBy strLe p.2) := by
    have := comma_listed IsAsmItem (fun v => [Tok.id v]) id (sortBy strLe p.2) hne' fun v _ => .bare
    simpa using this
  have hc := comma_prints (fun v : Str => v) (fun v => [Tok.id v]) (sortBy strLe p.2) fun v hv => p_word (hw' v hv)
  simp only [List.map_id'] at hc
  have h1 : LP [ind ++ p.1, ind ++ ['{']] [.id p.1, .lbrace] :=
    .cons (ts := [_]) (us := [_]) (p_line hi (p_word (names_lower _ hk).2)) (.one (p_line hi p_lbrace.weak))
  have h2 : LP [ind ++ ind ++ joinText ", ".toList (sortBy strLe p.2) ++ [';']] (commaToks ((sortBy strLe p.2).map fun v => [Tok.id v]) ++ [.semi]) := by
    have := p_line hi (p_line hi (compA hc p_semi (sepc ';' (by decide) _)).weak)
    exact .one (by simpa using this)
  have h3 : LP [ind ++ ['}', ';']] [.rbrace, .semi] := .one (p_line hi close_prints.weak)
  refine ⟨.id p.1 :: .lbrace :: (commaToks ((sortBy strLe p.2).map fun v => [Tok.id v]) ++ [.semi, .rbrace, .semi]), ?_, .mk ?_ hl⟩
  · have := (h1.append h2).append h3
    simpa using this
  · have := (names_lower _ hk).1
    unfold lowerStr at this
    rw [this]; exact hk

theorem subs_lines {ind : Str} (hi : Layout ind) : ∀ (g : List (Str × List Str)),
    (∀ p ∈ g, p.1 ∈ assumptionNames ∧ p.2 ≠ [] ∧ ∀ v ∈ p.2, IsWord v) →
    ∃ ts, LP (g.flatMap fun p => [ind ++ p.1, ind ++ ['{'], ind ++ ind ++ joinText ", ".toList (sortBy strLe p.2) ++ [';'], ind ++ ['}', ';']]) ts ∧
      Seq IsAsmSub ts (g.map fun p => (p.1, sortBy strLe p.2))
  | [], _ => ⟨[], .nil, .nil⟩
  | p :: g, h => by
    obtain ⟨ts, h1, h2⟩ := sub_lines hi p (h p (by simp)).1 (h p (by simp)).2.1 (h p (by simp)).2.2
    obtain ⟨us, h3, h4⟩ := subs_lines hi g fun x hx => h x (by simp [hx])
    exact ⟨_, h1.append h3, .cons h2 h4⟩

theorem assumptions_print {ind : Str} (hi : Layout ind) (d : List (Str × Asm)) (h : ∀ p ∈ d, AsmOk p) :
    ∃ ts, Prints (assumptionsText ind (asmGroups d)) ts ∧ IsSpecial ts (.assumptions (buildAssumptions (asmSubs d))) := by
  obtain ⟨ts, h1, h2⟩ := subs_lines hi (asmGroups d) fun p hp => group_ok h hp
  have hfirst : LP ["assumptions".toList, ['{']] [.id "assumptions".toList, .lbrace] :=
    .cons (ts := [_]) (us := [_]) (p_word (word_of 'a' _ (by decide) (by decide))) (.one p_lbrace.weak)
  have hp := ((hfirst.append h1).append (.one close_prints.weak)).join line_layout (sepc '\n' (by decide) _)
  exact ⟨.id "assumptions".toList :: .lbrace :: (ts ++ [.rbrace, .semi]), by simpa [assumptionsText] using hp, .assumptions (by decide) (.mk h2)⟩

theorem subs_mem (d : List (Str × Asm)) (v : Str) (P : Str → Prop) :
    (∃ b ∈ asmSubs d, v ∈ b.2 ∧ P b.1) ↔ ∃ k, (k, v) ∈ asmPairs d ∧ P k := by
  constructor
  · rintro ⟨b, hb, hv, hP⟩
    obtain ⟨p, hp, rfl⟩ := List.mem_map.1 hb
    exact ⟨p.1, (group_mem d p.1 v).1 ⟨p, hp, rfl, (Ldr.sortBy_perm strLe p.2).mem_iff.1 hv⟩, hP⟩
  · rintro ⟨k, hk, hP⟩
    obtain ⟨p, hp, rfl, hv⟩ := (group_mem d k v).2 hk
    exact ⟨_, List.mem_map.2 ⟨p, hp, rfl⟩, (Ldr.sortBy_perm strLe p.2).mem_iff.2 hv, hP⟩

theorem asm_same (d : List (Str × Asm)) (h : ∀ p ∈ d, AsmOk p) (hd : (d.map Prod.fst).Nodup) : SameAsm (buildAssumptions (asmSubs d)) d := by
  intro v
  obtain ⟨h1, h2⟩ := C44_assumptions (asmSubs d) v
  have hmem := subs_mem d v (fun _ => True)
  simp only [and_true] at hmem
  rw [hmem] at h1
  cases hg : dget d v with
  | none =>
    have hnone : dget (buildAssumptions (asmSubs d)) v = none := by
      rw [← Option.not_isSome_iff_eq_none, h1]
      rintro ⟨k, hk⟩
      obtain ⟨a, ha, _⟩ := (pair_mem k v).1 hk
      rw [dget_of_mem _ hd _ _ ha] at hg
      simp at hg
    rw [hnone]
    exact ⟨rfl, fun _ => rfl⟩
  | some a =>
    have ha := mem_of_dget _ _ _ hg
    have hok := h _ ha
    have hs := h1.2 ⟨_, (pair_mem _ v).2 ⟨a, ha, hok.real⟩⟩
    obtain ⟨a', ha'⟩ := Option.isSome_iff_exists.1 hs
    rw [ha']
    refine ⟨rfl, fun k => ?_⟩
    have h3 := h2 a' ha' k
    simp only [Option.bind_some]
    have same : ∀ b, (b, v) ∈ asmPairs d ↔ (b, true) ∈ a := by
      intro b
      rw [pair_mem]
      constructor
      · rintro ⟨a2, h4, h5⟩
        have := dget_of_mem _ hd _ _ h4
        rw [hg] at this
        cases this; exact h5
      · intro h5; exact ⟨a, ha, h5⟩
    refine Option.ext fun value => ?_
    rw [h3]
    have hs2 := subs_mem d v (fun b => k = lowerStr b ∨ (lowerStr b = ['u','n','i','t','_','i','n','t','e','r','v','a','l'] ∧ k = ['p','o','s','i','t','i','v','e']))
    rw [hs2]
    have key : (k = ['r','e','a','l'] ∨ ∃ b, (b, v) ∈ asmPairs d ∧ (k = lowerStr b ∨ (lowerStr b = ['u','n','i','t','_','i','n','t','e','r','v','a','l'] ∧ k = ['p','o','s','i','t','i','v','e'])))
        ↔ (k, true) ∈ a := by
      constructor
      · rintro (rfl | ⟨b, hb, hkb⟩)
        · exact hok.real
        · rw [same] at hb
          have hl := (names_lower b (hok.known _ _ hb).2).1
          rw [hl] at hkb
          rcases hkb with rfl | ⟨rfl, rfl⟩
          · exact hb
          · exact hok.unit hb
      · intro hk
        exact .inr ⟨k, (same k).2 hk, .inl (names_lower k (hok.known _ _ hk).2).1.symm⟩
    rw [key]
    constructor
    · rintro ⟨rfl, hk⟩
      exact dget_of_mem _ hok.nodup _ _ hk
    · intro hk
      have := mem_of_dget _ _ _ hk
      have hv := (hok.known _ _ this).1
      subst hv
      exact ⟨rfl, this⟩

/-! ### files -/

theorem blocks_lines {num : Rat → Str} {ind : Str} (hi : Layout ind) : ∀ (l : List GBlock), (∀ b ∈ l, BlockOk num b) →
    ∃ ts, LP (l.map (blockText num ind)) ts ∧ Seq IsBlock ts (l.map bareBlock)
  | [], _ => ⟨[], .nil, .nil⟩
  | b :: l, h => by
    obtain ⟨ts, h1, h2⟩ := block_prints hi (h b (by simp))
    obtain ⟨us, h3, h4⟩ := blocks_lines hi l fun x hx => h x (by simp [hx])
    exact ⟨_, .cons h1 h3, .cons h2 h4⟩

theorem file_of_lines {text sp : List Str} {ts us : List Tok} (h1 : LP sp ts) (h2 : LP text us) :
    SpellsToks (joinText ['\n', '\n'] (sp ++ text)) (ts ++ us) := by
  have := (h1.append h2).join (.white (by simp) line_layout) (sepc '\n' (by decide) _)
  have := this [] [] (by intro c cs e; simp at e) (.nil .nil)
  simpa using this

end GE.Prt

namespace GE
open Gcn Prt

/-- **C108 (partial)**: the text a printable model is printed as, with any indent of white space, is read as a model with the
same blocks (less the tags of equations and the distributions of shocks), options and assumptions; what is missing: models
with a `tryreduce` list (`C108_tryreduce_violated`), and expressions outside `Expr.Stable` (see C11). -/
theorem C108_print_parse_partial (num : Rat → Str) (ind : Str) (m : GFile) (hi : Layout ind) (hm : Printable num m) (ht : m.tryreduce = []) :
    ∃ m', ParseGcn (modelText num ind m) m' ∧ m'.blocks = m.blocks.map bareBlock ∧ m'.options = m.options ∧ m'.tryreduce = [] ∧
      SameAsm m'.assumptions m.assumptions := by
  obtain ⟨bt, hb1, hb2⟩ := blocks_lines (num := num) hi m.blocks hm.blocks
  have hO : ∃ ts ss, LP (if m.options.isEmpty then [] else [optionsText ind m.options]) ts ∧ Seq IsSpecial ts ss ∧
      ss = (if m.options.isEmpty then [] else [.options m.options]) := by
    split
    · exact ⟨[], [], .nil, .nil, rfl⟩
    · obtain ⟨ts, h1, h2⟩ := options_print hi m.options hm.options hm.options_dict
      exact ⟨ts, _, .one h1, seq_one h2, rfl⟩
  have hne : ∀ p ∈ m.assumptions, asmGroups m.assumptions ≠ [] := by
    intro p hp e
    obtain ⟨q, hq, _⟩ := (group_mem m.assumptions "real".toList p.1).2 ((pair_mem _ _).2 ⟨p.2, hp, (hm.assumptions p hp).real⟩)
    rw [e] at hq; simp at hq
  have hA : ∃ ts ss, LP (if m.assumptions.isEmpty then [] else if (asmGroups m.assumptions).isEmpty then [] else [assumptionsText ind (asmGroups m.assumptions)]) ts ∧
      Seq IsSpecial ts ss ∧ ss = (if m.assumptions.isEmpty then [] else [.assumptions (buildAssumptions (asmSubs m.assumptions))]) := by
    split
    · exact ⟨[], [], .nil, .nil, rfl⟩
    · rename_i he
      cases ha : m.assumptions with
      | nil => rw [ha] at he; simp at he
      | cons p l =>
        have := hne p (by rw [ha]; simp)
        rw [← ha, if_neg (by simpa using this)]
        obtain ⟨ts, h1, h2⟩ := assumptions_print hi m.assumptions hm.assumptions
        exact ⟨ts, _, .one h1, seq_one h2, rfl⟩
  obtain ⟨ot, os, ho1, ho2, ho3⟩ := hO
  obtain ⟨at', as, ha1, ha2, ha3⟩ := hA
  have htext := file_of_lines (ho1.append ha1) hb1
  let m' : GFile := { blocks := m.blocks.map bareBlock, options := m.options, tryreduce := [],
                      assumptions := if m.assumptions.isEmpty then [] else buildAssumptions (asmSubs m.assumptions) }
  refine ⟨m', (C107_parse _ _).2 ⟨ot ++ at' ++ bt, ?_, ?_⟩, rfl, rfl, rfl, ?_⟩
  · rw [modelText, ht]
    simpa using htext
  · refine .mk (Seq.append ho2 ha2) hb2 (by simpa using hm.some_block) rfl ?_ ?_ ?_ <;> rw [ho3, ha3]
    · show m.options = _
      rcases m.options with _ | ⟨o, os⟩ <;> rcases m.assumptions with _ | ⟨a, as⟩ <;> rfl
    · show [] = _
      rcases m.options with _ | ⟨o, os⟩ <;> rcases m.assumptions with _ | ⟨a, as⟩ <;> rfl
    · show (if m.assumptions.isEmpty then [] else buildAssumptions (asmSubs m.assumptions)) = _
      rcases m.options with _ | ⟨o, os⟩ <;> rcases m.assumptions with _ | ⟨a, as⟩ <;> rfl
  · show SameAsm (if m.assumptions.isEmpty then [] else buildAssumptions (asmSubs m.assumptions)) m.assumptions
    split
    · rename_i he
      have : m.assumptions = [] := by simpa using he
      rw [this]; exact fun _ => ⟨rfl, fun _ => rfl⟩
    · exact asm_same _ hm.assumptions hm.assumptions_dict

end GE

namespace GE.Prt
open Gcn

/-- after a special block has been read, the rest must be readable -/
theorem specials_cut {w s R} (h : IsSpecial w s) {f x} (hx : pSpecials f (w ++ R) = some x) : ∃ f y, pSpecials f R = some y := by
  obtain ⟨k, w', rfl, hk⟩ := special_head h
  match f with
  | 0 => simp [pSpecials] at hx
  | f + 1 =>
    rw [List.cons_append, pSpecials, if_pos hk] at hx
    split at hx
    · rename_i s2 r2 hs2
      obtain ⟨w2, hw2, hs3⟩ := special_sound _ _ _ _ hs2
      have e1 := special_full _ _ R h trivial
      have e2 := special_full _ _ r2 hs3 trivial
      simp only [List.cons_append] at e1
      rw [← hw2] at e2
      have := e1.eq e2
      simp only [Prod.mk.injEq] at this
      obtain ⟨rfl, rfl⟩ := this
      split at hx
      · rename_i hq; exact ⟨_, _, hq⟩
      · simp at hx
    · simp at hx

/-- tokens of the printed `tryreduce` section -/
def tryToks (l : List Str) : List Tok := .id "tryreduce".toList :: .lbrace :: (commaToks (l.map fun v => [Tok.id v]) ++ [.semi, .rbrace, .semi])

theorem try_prints {ind : Str} (hi : Layout ind) (l : List Str) (h : ∀ v ∈ l, IsWord v) : Prints (tryreduceText ind l) (tryToks l) := by
  have hc := comma_prints (fun v : Str => v) (fun v => [Tok.id v]) l fun v hv => p_word (h v hv)
  simp only [List.map_id'] at hc
  have h1 : LP ["tryreduce".toList, ['{']] [.id "tryreduce".toList, .lbrace] :=
    .cons (ts := [_]) (us := [_]) (p_word (word_of 't' _ (by decide) (by decide))) (.one p_lbrace.weak)
  have h2 := LP.one (p_line hi (compA hc p_semi (sepc ';' (by decide) _)).weak)
  have hp := ((h1.append h2).append (.one close_prints.weak)).join line_layout (sepc '\n' (by decide) _)
  simpa [tryreduceText, tryToks] using hp

theorem try_unreadable (l : List Str) (hne : l ≠ []) (R : List Tok) (f : Nat) : pSpecials f (tryToks l ++ R) = none := by
  have hv : pVarBlock (.lbrace :: (commaToks (l.map fun v => [Tok.id v]) ++ [.semi, .rbrace, .semi]) ++ R) = none := by
    match l, hne with
    | [n], _ => rfl
    | n :: m :: l, _ => rfl
  match f with
  | 0 => rfl
  | f + 1 =>
    have h1 : pSpecial f (tryToks l ++ R) = none := by
      have e : lowerStr "tryreduce".toList = "tryreduce".toList := by decide
      unfold tryToks
      rw [List.cons_append, pSpecial, e, if_neg (by decide), if_pos rfl, hv]
      rfl
    unfold tryToks at h1 ⊢
    rw [List.cons_append] at h1 ⊢
    rw [pSpecials, if_pos (by decide), h1]

end GE.Prt

namespace GE
open Gcn Prt

/-- **C108 is false for models with a `tryreduce` list**: the printed text of such a model is never readable -/
theorem C108_tryreduce_violated (num : Rat → Str) (ind : Str) (m : GFile) (hi : Layout ind) (hm : Printable num m)
    (ht : m.tryreduce ≠ []) (hw : ∀ v ∈ m.tryreduce, IsWord v) : ¬ ∃ m', ParseGcn (modelText num ind m) m' := by
  rintro ⟨m', ts, hlex, f, hf⟩
  obtain ⟨bt, hb1, _⟩ := blocks_lines (num := num) hi m.blocks hm.blocks
  have hA : ∃ ts, LP (if m.assumptions.isEmpty then [] else if (asmGroups m.assumptions).isEmpty then [] else [assumptionsText ind (asmGroups m.assumptions)]) ts := by
    split
    · exact ⟨_, .nil⟩
    · split
      · exact ⟨_, .nil⟩
      · obtain ⟨ts, h1, _⟩ := assumptions_print hi m.assumptions hm.assumptions
        exact ⟨_, .one h1⟩
  obtain ⟨at', ha⟩ := hA
  have htr := LP.one (try_prints hi m.tryreduce hw)
  have read : ∀ ts', SpellsToks (modelText num ind m) ts' → ∃ x, pSpecials f ts' = some x := by
    intro ts' h
    have := C106_unique _ _ _ ((C106_reading _ _).1 hlex) h
    subst this
    unfold pFile at hf
    split at hf
    · rename_i hs; exact ⟨_, hs⟩
    · simp at hf
  by_cases ho : m.options = []
  · have := file_of_lines (htr.append ha) hb1
    obtain ⟨x, hx⟩ := read (tryToks m.tryreduce ++ at' ++ bt) (by
      rw [modelText, if_neg (by simpa using ht : ¬ m.tryreduce.isEmpty = true), ho]; simpa using this)
    rw [List.append_assoc, try_unreadable _ ht] at hx
    simp at hx
  · obtain ⟨ot, h1, h2⟩ := options_print hi m.options hm.options hm.options_dict
    have := file_of_lines ((LP.one h1).append (htr.append ha)) hb1
    obtain ⟨x, hx⟩ := read (ot ++ (tryToks m.tryreduce ++ at') ++ bt) (by
      rw [modelText, if_neg (by simpa using ht : ¬ m.tryreduce.isEmpty = true), if_neg (by simpa using ho : ¬ m.options.isEmpty = true)]
      simpa using this)
    rw [List.append_assoc] at hx
    obtain ⟨f', y, hy⟩ := specials_cut h2 hx
    rw [List.append_assoc, try_unreadable _ ht] at hy
    simp at hy

/-! ### a model -/

namespace Prt

/-- Python's `str` of the one number of the example that is not whole -/
def exNum (q : Rat) : Str := if q < 0 then "-0.25".toList else "0.33".toList

def exModel : GFile where
  options := [("output logfile".toList, .bool true), ("language".toList, .word "ENG".toList)]
  assumptions := [("C".toList, [("real".toList, true), ("positive".toList, true)]), ("K".toList, [("real".toList, true)])]
  blocks := [{
    name := "FIRM".toList
    controls := [⟨"C".toList, .t 0⟩, ⟨"K".toList, .t 0⟩]
    objective := [{ lhs := .var "U".toList (.t 0), rhs := .bin .add (.par "u".toList) (.expect (.var "U".toList (.t 1))), lagrange := none, calibrating := none, tags := [] }]
    constraints := [{ lhs := .var "C".toList (.t 0), rhs := .bin .mul (.var "K".toList (.t (-1))) (.bin .sub (.num 1) (.par "delta".toList)), lagrange := some "lambda".toList, calibrating := none, tags := [.exclude] }]
    shocks := [⟨"epsilon".toList, .t 0⟩]
    calibration := [.eq { lhs := .par "alpha".toList, rhs := .num (33 / 100), lagrange := none, calibrating := none, tags := [] },
      .prior { param := "delta".toList, dist := "Normal".toList, kwargs := [("mu".toList, .num (-1 / 4)), ("sigma".toList, .str "s".toList)],
               wrapper := some "maxent".toList, wrapperKwargs := [("upper".toList, .none)], initial := some (33 / 100) }] }]

theorem ex_text : modelText exNum [' ', ' '] exModel =
"options
{
  output logfile = TRUE;
  language = ENG;
};

assumptions
{
  real
  {
    C, K;
  };
  positive
  {
    C;
  };
};

block FIRM
{
  controls
  {
    C[], K[];
  };

  objective
  {
    U[] = u + E[][U[1]];
  };

  constraints
  {
    C[] = K[-1] * (1 - delta) : lambda[];
  };

  shocks
  {
    epsilon[];
  };

  calibration
  {
    alpha = 0.33;
    delta ~ maxent(Normal(mu=-0.25, sigma=s), upper=None) = 0.33;
  };

};".toList := by decide +kernel

theorem ex_pos : Writes "0.33".toList (.num (33 / 100)) := by
  have := Writes.number (.dec (i := ['0']) (f := ['3', '3']) (by unfold IsDigits; decide) (by unfold IsDigits; decide) (.inl (by simp))) .none
  have e : ((decimal ['0'] : Nat) + (decimal ['3', '3'] : Nat) / 10 ^ (['3', '3'] : List Char).length : Rat) * (10 : Rat) ^ (0 : Int) = 33 / 100 := by decide +kernel
  rw [e] at this
  exact this

theorem ex_neg : Writes "0.25".toList (.num (1 / 4)) := by
  have := Writes.number (.dec (i := ['0']) (f := ['2', '5']) (by unfold IsDigits; decide) (by unfold IsDigits; decide) (.inl (by simp))) .none
  have e : ((decimal ['0'] : Nat) + (decimal ['2', '5'] : Nat) / 10 ^ (['2', '5'] : List Char).length : Rat) * (10 : Rat) ^ (0 : Int) = 1 / 4 := by decide +kernel
  rw [e] at this
  exact this

/-- a word, decidably -/
def isWordB : Str → Bool
  | c :: cs => (c.isAlpha || c == '_') && cs.all fun d => d.isAlphanum || d == '_'
  | [] => false

theorem isWordB_ok {n} (h : isWordB n = true) : IsWord n := by
  cases n with
  | nil => simp [isWordB] at h
  | cons c cs => simpa [isWordB, IsWord] using h

theorem ex_ok : Printable exNum exModel where
  blocks := by
    intro b hb
    simp only [exModel, List.mem_singleton] at hb
    subst hb
    refine ⟨isWordB_ok (by decide), by simp, ?_, ?_, ?_, by simp, ?_, ?_⟩
    · intro v hv
      simp only [List.mem_cons, List.not_mem_nil, or_false] at hv
      rcases hv with rfl | rfl <;> exact isWordB_ok (by decide)
    · intro e he
      simp only [List.mem_cons, List.not_mem_nil, or_false] at he
      subst he
      exact ⟨⟨by simp [Expr.Stable], by simp only [ExprOk]; exact isWordB_ok (by decide)⟩,
        ⟨by simp [Expr.Stable, Expr.rootPrec, prec], by simp only [ExprOk]; exact ⟨isWordB_ok (by decide), isWordB_ok (by decide)⟩⟩, by simp, by simp⟩
    · intro e he
      simp only [List.mem_cons, List.not_mem_nil, or_false] at he
      subst he
      exact ⟨⟨by simp [Expr.Stable], by simp only [ExprOk]; exact isWordB_ok (by decide)⟩,
        ⟨by simp [Expr.Stable, Expr.rootPrec, prec], by simp only [ExprOk]; exact ⟨isWordB_ok (by decide), .inl rfl, isWordB_ok (by decide)⟩⟩,
        by intro n hn; cases hn; exact isWordB_ok (by decide), by simp⟩
    · intro v hv
      simp only [List.mem_cons, List.not_mem_nil, or_false] at hv
      subst hv; exact isWordB_ok (by decide)
    · intro c hc
      simp only [List.mem_cons, List.not_mem_nil, or_false] at hc
      have e1 : exNum (33 / 100) = "0.33".toList := by decide +kernel
      have e2 : exNum (-1 / 4) = '-' :: "0.25".toList := by decide +kernel
      have hp : NumOk exNum (33 / 100) := .inl ⟨by decide +kernel, by rw [e1]; exact ex_pos⟩
      have hn : NumOk exNum (-1 / 4) := .inr ⟨by decide +kernel, _, e2, by
        have e : (-(-1 / 4) : Rat) = 1 / 4 := by decide +kernel
        rw [e]; exact ex_neg⟩
      rcases hc with rfl | rfl
      · refine ⟨⟨⟨by simp [Expr.Stable], by simp only [ExprOk]; exact isWordB_ok (by decide)⟩, ⟨?_, ?_⟩, by simp, by simp⟩, ?_⟩
        · simp only [Expr.Stable]; decide +kernel
        · simp only [ExprOk]; rw [e1]; exact .inr ex_pos
        · intro n r h
          have : (Expr.num (33 / 100)).toks 0 = [.num (33 / 100)] := by
            simp only [Expr.toks]; rw [if_neg (by decide +kernel)]
          simp only at h
          rw [this] at h
          simp at h
      · exact {
          param := isWordB_ok (by decide)
          dist := by decide
          kwargs := ⟨by decide, by
            intro p hp'
            simp only [List.mem_cons, List.not_mem_nil, or_false] at hp'
            rcases hp' with rfl | rfl
            · exact ⟨isWordB_ok (by decide), hn⟩
            · exact ⟨isWordB_ok (by decide), isWordB_ok (by decide), by decide⟩⟩
          wrapper := by intro w hw; cases hw; decide
          wrapperKwargs := ⟨by decide, by
            intro p hp'
            simp only [List.mem_cons, List.not_mem_nil, or_false] at hp'
            subst hp'
            exact ⟨isWordB_ok (by decide), trivial⟩⟩
          plain := by intro h; cases h
          initial := by intro q hq; cases hq; exact hp }
  some_block := by simp [exModel]
  options := by
    intro p hp
    simp only [exModel, List.mem_cons, List.not_mem_nil, or_false] at hp
    rcases hp with rfl | rfl
    · exact ⟨⟨["output".toList, "logfile".toList], by simp, by
        intro k hk
        simp only [List.mem_cons, List.not_mem_nil, or_false] at hk
        rcases hk with rfl | rfl <;> exact isWordB_ok (by decide), rfl⟩, by intro w h; cases h⟩
    · exact ⟨⟨["language".toList], by simp, by
        intro k hk
        simp only [List.mem_cons, List.not_mem_nil, or_false] at hk
        subst hk; exact isWordB_ok (by decide), rfl⟩, by intro w h; cases h; exact ⟨isWordB_ok (by decide), by decide, by decide⟩⟩
  options_dict := by decide
  assumptions := by
    intro p hp
    simp only [exModel, List.mem_cons, List.not_mem_nil, or_false] at hp
    rcases hp with rfl | rfl
    · exact ⟨isWordB_ok (by decide), by
        intro k v h
        simp only [List.mem_cons, Prod.mk.injEq, List.not_mem_nil, or_false] at h
        rcases h with ⟨rfl, rfl⟩ | ⟨rfl, rfl⟩ <;> exact ⟨rfl, by decide⟩, by decide, by simp, by simp⟩
    · exact ⟨isWordB_ok (by decide), by
        intro k v h
        simp only [List.mem_cons, Prod.mk.injEq, List.not_mem_nil, or_false] at h
        obtain ⟨rfl, rfl⟩ := h; exact ⟨rfl, by decide⟩, by decide, by simp, by simp⟩
  assumptions_dict := by decide

end Prt

/-- the hypotheses of C108 are met; with a `tryreduce` list the text is lost -/
example : ∃ m', ParseGcn (modelText exNum [' ', ' '] exModel) m' :=
  let ⟨m', h, _⟩ := C108_print_parse_partial exNum [' ', ' '] exModel (.white (by simp) (.white (by simp) .nil)) ex_ok rfl
  ⟨m', h⟩
example : ¬ ∃ m', ParseGcn (modelText exNum [' ', ' '] { exModel with tryreduce := ["U".toList] }) m' :=
  C108_tryreduce_violated _ _ _ (.white (by simp) (.white (by simp) .nil)) ⟨ex_ok.1, ex_ok.2, ex_ok.3, ex_ok.4, ex_ok.5, ex_ok.6⟩ (by simp)
    (by intro v hv; simp only [List.mem_singleton] at hv; subst hv; exact isWordB_ok (by decide))

end GE
