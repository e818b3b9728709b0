import Verif.Model.NodeText
import Verif.Props.PrintFile
import Verif.Props.ObsEq
/-! # C147: asking a parsed model what it contains, and `str()` of its parts -/

namespace GE
open Gcn Prt NTx

/-! ## specification -/

/-- the node is the expression or somewhere inside it -/
inductive Within (x : Expr) : Expr → Prop
  | self : Within x x
  | left {o l r} : Within x l → Within x (.bin o l r)
  | right {o l r} : Within x r → Within x (.bin o l r)
  | neg {e} : Within x e → Within x (.neg e)
  | arg {f as a} : a ∈ as → Within x a → Within x (.call f as)
  | expect {e} : Within x e → Within x (.expect e)

/-- the equation is stated by the model: a definition, an objective, a constraint or an identity of one of its blocks -/
def StatedBy (f : GFile) (e : Eqn) : Prop :=
  ∃ b ∈ f.blocks, e ∈ b.definitions ∨ e ∈ b.objective ∨ e ∈ b.constraints ∨ e ∈ b.identities

/-- the tokens a file is made of: names are words, numbers have no sign -/
def TokSound : Tok → Prop
  | .id n => IsWord n
  | .num v => 0 ≤ v
  | _ => True

mutual
/-- an expression as the grammar makes them: names are words, numbers have no sign, every call has an argument -/
def Written : Expr → Prop
  | .num v => 0 ≤ v
  | .par n => IsWord n
  | .var n _ => IsWord n
  | .neg e => Written e
  | .bin _ l r => Written l ∧ Written r
  | .call f as => IsWord f ∧ as ≠ [] ∧ WrittenArgs as
  | .expect e => Written e
def WrittenArgs : List Expr → Prop
  | [] => True
  | a :: as => Written a ∧ WrittenArgs as
end

/-- the numbers of the expression that are not whole have a text that stands for them -/
def NumsOk (num : Rat → Str) (e : Expr) : Prop := ∀ q, Within (.num q) e → q.den ≠ 1 → Writes (num q) (.num q)

namespace NTx

/-! ## reading `str()` back -/

mutual
/-- the tokens of `str(node)` -/
def strToks : Expr → List Tok
  | .num v => [.num v]
  | .par n => [.id n]
  | .var n t => [.id n, .tix t]
  | .bin o l r => .lpar :: ((strToks l ++ .op o :: strToks r) ++ [.rpar])
  | .neg e => .lpar :: ((.op .sub :: strToks e) ++ [.rpar])
  | .call f as => .id f :: .lpar :: (strArgToks as ++ [.rpar])
  | .expect e => .expectOpen :: (strToks e ++ [.rbr])
def strArgToks : List Expr → List Tok
  | [] => []
  | [a] => strToks a
  | a :: as => strToks a ++ .comma :: strArgToks as
end

theorem sum_atom {ts e} (h : IsAtom ts e) : IsSum ts e := .one (.one (.base (.atom h)))

theorem sum_bin {ts us a b} (o : BinOp) (ha : IsAtom ts a) (hb : IsAtom us b) : IsSum (ts ++ .op o :: us) (.bin o a b) := by
  cases o with
  | add => exact .add (sum_atom ha) (.one (.base (.atom hb)))
  | sub => exact .sub (sum_atom ha) (.one (.base (.atom hb)))
  | mul => exact .one (.mul (.one (.base (.atom ha))) (.base (.atom hb)))
  | div => exact .one (.div (.one (.base (.atom ha))) (.base (.atom hb)))
  | pow => exact .one (.one (.pow (.atom ha) (.base (.atom hb))))

mutual
theorem atom : ∀ (e : Expr), Written e → IsAtom (strToks e) e
  | .num v, _ => .num
  | .par n, _ => .par
  | .var n t, _ => .var
  | .bin o l r, h => by
    simp only [Written] at h
    exact .paren (sum_bin o (atom l h.1) (atom r h.2))
  | .neg e, h => by
    simp only [Written] at h
    exact .paren (.one (.one (.base (.neg (.atom (atom e h))))))
  | .call f as, h => by
    simp only [Written] at h
    exact .call (args as h.2.2 h.2.1)
  | .expect e, h => by
    simp only [Written] at h
    exact .expect (sum_atom (atom e h))
theorem args : ∀ (as : List Expr), WrittenArgs as → as ≠ [] → IsArgs (strArgToks as) as
  | [], _, h => absurd rfl h
  | [a], h, _ => by
    simp only [WrittenArgs] at h
    exact .one (sum_atom (atom a h.1))
  | a :: b :: as, h, _ => by
    simp only [WrittenArgs] at h
    exact .cons (sum_atom (atom a h.1)) (args (b :: as) (by simpa [WrittenArgs] using h.2) (by simp))
end

mutual
theorem prints (num : Rat → Str) : ∀ (e : Expr), NumsOk num e → Written e →
    Prints (exprStr num e) (strToks e) ∧ NoArrow (exprStr num e)
  | .num v, hn, h => by
    simp only [Written] at h
    have hw : Writes (exprStr num (.num v)) (.num v) := by
      simp only [exprStr]
      split
      · rename_i h1; exact writes_int h h1
      · rename_i h1; exact hn v .self h1
    exact ⟨p_number hw, writes_noarrow hw⟩
  | .par n, hn, h => by
    simp only [Written] at h
    exact ⟨p_word h, writes_noarrow (.word h)⟩
  | .var n t, hn, h => by
    simp only [Written] at h
    exact ⟨p_var h, (writes_noarrow (.word h)).app⟩
  | .bin o l r, hn, h => by
    simp only [Written] at h
    have h1 := (prints num l (fun q hq => hn q (.left hq)) h.1).1
    have h2 := (prints num r (fun q hq => hn q (.right hq)) h.2).1
    simp only [exprStr, strToks]
    refine ⟨?_, ⟨_, _, rfl, by decide⟩⟩
    have hb := comp h1 (comp0 (p_op o) h2) (sepc ' ' (by decide) _)
    exact (comp00 p_lpar (compA (by simpa using hb) p_rpar (sepc ')' (by decide) _))).weak
  | .neg e, hn, h => by
    simp only [Written] at h
    obtain ⟨h1, h2⟩ := prints num e (fun q hq => hn q (.neg hq)) h
    simp only [exprStr, strToks]
    refine ⟨?_, ⟨_, _, rfl, by decide⟩⟩
    exact (comp00 p_lpar (compA (p_minus h1 h2) p_rpar (sepc ')' (by decide) _))).weak
  | .call f as, hn, h => by
    simp only [Written] at h
    simp only [exprStr, strToks]
    refine ⟨?_, (writes_noarrow (.word h.1)).app⟩
    have h1 := printsArgs num as (fun a ha q hq => hn q (.arg ha hq)) h.2.2
    exact comp (p_word h.1) (comp00 p_lpar (compA h1 p_rpar (sepc ')' (by decide) _))).weak (sepc '(' (by decide) _)
  | .expect e, hn, h => by
    simp only [Written] at h
    obtain ⟨h1, _⟩ := prints num e (fun q hq => hn q (.expect hq)) h
    simp only [exprStr, strToks]
    exact ⟨(comp00 p_expect (compA h1 p_rbr (sepc ']' (by decide) _))).weak, ⟨_, _, rfl, by decide⟩⟩
theorem printsArgs (num : Rat → Str) : ∀ (as : List Expr), (∀ a ∈ as, NumsOk num a) → WrittenArgs as →
    Prints (argsStr num as) (strArgToks as)
  | [], hn, _ => by simp only [argsStr, strArgToks]; exact p_nil.weak
  | [a], hn, h => by
    simp only [WrittenArgs] at h
    simp only [argsStr, strArgToks]
    exact (prints num a (hn a (by simp)) h.1).1
  | a :: b :: as, hn, h => by
    simp only [WrittenArgs] at h
    have h1 := (prints num a (hn a (by simp)) h.1).1
    have h2 := printsArgs num (b :: as) (fun c hc => hn c (List.mem_cons_of_mem _ hc)) (by simpa [WrittenArgs] using h.2)
    simp only [argsStr, strArgToks]
    exact comp h1 (comp0 (comp00 p_comma p_space) h2) (sepc ',' (by decide) _)
end

/-! ## what the grammar makes -/

theorem mant_nonneg {m v} (h : MantText m v) : 0 ≤ v := by
  cases h with
  | int => exact Nat.cast_nonneg _
  | dec => positivity

theorem writes_sound {w t} (h : Writes w t) : TokSound t := by
  cases h with
  | fixed h =>
    simp only [fixedToks, List.mem_cons, Prod.mk.injEq, List.not_mem_nil, or_false] at h
    rcases h with h | h | h | h | h | h | h | h | h | h | h | h | h | h | h <;> rw [h.2] <;> trivial
  | power => trivial
  | arrow => trivial
  | word h => exact h
  | number h _ => exact mul_nonneg (mant_nonneg h) (zpow_nonneg (by norm_num) _)
  | index _ _ _ => trivial
  | tag _ _ => trivial
  | expect => trivial

theorem spells_sound {s ts} (h : SpellsToks s ts) : ∀ t ∈ ts, TokSound t := by
  induction h with
  | nil => simp
  | last => simp
  | cons _ hw _ _ ih =>
    intro t ht
    rcases List.mem_cons.1 ht with rfl | ht
    · exact writes_sound hw
    · exact ih t ht

mutual
theorem wAtom : ∀ {ts e}, IsAtom ts e → (∀ t ∈ ts, TokSound t) → Written e
  | _, _, .num, h => by simpa [Written, TokSound] using h
  | _, _, .par, h => by simpa [Written, TokSound] using h
  | _, _, .var, h => by simpa [Written, TokSound] using h
  | _, _, .call ha, h => by
    simp only [Written]
    exact ⟨h (.id _) (by simp), (wArgs ha fun t ht => h t (by simp [ht])).2, (wArgs ha fun t ht => h t (by simp [ht])).1⟩
  | _, _, .expect hs, h => by
    simp only [Written]
    exact wSum hs fun t ht => h t (by simp [ht])
  | _, _, .paren hs, h => wSum hs fun t ht => h t (by simp [ht])
theorem wSigned : ∀ {ts e}, IsSigned ts e → (∀ t ∈ ts, TokSound t) → Written e
  | _, _, .atom ha, h => wAtom ha h
  | _, _, .neg hs, h => by
    simp only [Written]
    exact wSigned hs fun t ht => h t (by simp [ht])
theorem wPower : ∀ {ts e}, IsPower ts e → (∀ t ∈ ts, TokSound t) → Written e
  | _, _, .base hs, h => wSigned hs h
  | _, _, .pow ha hb, h => by
    simp only [Written]
    exact ⟨wSigned ha fun t ht => h t (by simp [ht]), wPower hb fun t ht => h t (by simp [ht])⟩
theorem wProduct : ∀ {ts e}, IsProduct ts e → (∀ t ∈ ts, TokSound t) → Written e
  | _, _, .one hp, h => wPower hp h
  | _, _, .mul ha hb, h => by
    simp only [Written]
    exact ⟨wProduct ha fun t ht => h t (by simp [ht]), wPower hb fun t ht => h t (by simp [ht])⟩
  | _, _, .div ha hb, h => by
    simp only [Written]
    exact ⟨wProduct ha fun t ht => h t (by simp [ht]), wPower hb fun t ht => h t (by simp [ht])⟩
theorem wSum : ∀ {ts e}, IsSum ts e → (∀ t ∈ ts, TokSound t) → Written e
  | _, _, .one hp, h => wProduct hp h
  | _, _, .add ha hb, h => by
    simp only [Written]
    exact ⟨wSum ha fun t ht => h t (by simp [ht]), wProduct hb fun t ht => h t (by simp [ht])⟩
  | _, _, .sub ha hb, h => by
    simp only [Written]
    exact ⟨wSum ha fun t ht => h t (by simp [ht]), wProduct hb fun t ht => h t (by simp [ht])⟩
theorem wArgs : ∀ {ts as}, IsArgs ts as → (∀ t ∈ ts, TokSound t) → WrittenArgs as ∧ as ≠ []
  | _, _, .one hs, h => by
    simp only [WrittenArgs]
    exact ⟨⟨wSum hs h, trivial⟩, by simp⟩
  | _, _, .cons hs ha, h => by
    simp only [WrittenArgs]
    exact ⟨⟨wSum hs fun t ht => h t (by simp [ht]), (wArgs ha fun t ht => h t (by simp [ht])).1⟩, by simp⟩
end

end NTx

/-- **C147**: every expression the parser makes is of this kind -/
theorem C147_parsed (s : List Char) (ts : List Tok) (e : Expr) (hs : SpellsToks s ts) (hp : ParsesAs ts e) : Written e :=
  wSum ((C107_expressions ts e).1 hp) (spells_sound hs)

/-- **C147**: `str()` of an expression is a text which is read as the same expression, whatever its shape -/
theorem C147_expression (num : Rat → Str) (e : Expr) (hn : NumsOk num e) (h : Written e) :
    ∃ ts, SpellsToks (exprStr num e) ts ∧ ParsesAs ts e := by
  refine ⟨strToks e, ?_, (C107_expressions _ _).2 (sum_atom (atom e h))⟩
  have := (prints num e hn h).1 [] [] (fun c cs hc => by cases hc) (.nil .nil)
  simpa using this

/-- **C147**: different expressions have different texts -/
theorem C147_distinct (num : Rat → Str) (e e' : Expr) (hn : NumsOk num e) (hn' : NumsOk num e') (h : Written e) (h' : Written e')
    (he : exprStr num e = exprStr num e') : e = e' := by
  obtain ⟨ts, h1, h2⟩ := C147_expression num e hn h
  obtain ⟨ts', h1', h2'⟩ := C147_expression num e' hn' h'
  rw [he] at h1
  have := C106_unique _ _ _ h1 h1'
  subst this
  exact parses_unique h2 h2'

namespace NTx

/-! ## equations -/

def lagToks : Option Str → List Tok
  | some n => [.colon, .id n]
  | none => []

def targetToks : Option Str → List Tok
  | some n => [.arrow, .id n]
  | none => []

def lagText (o : Option Str) : Str := match given o with | some n => " : ".toList ++ n | none => []

def targetText (o : Option Str) : Str := match given o with | some n => " -> ".toList ++ n | none => []

theorem eqnStr_eq (num : Rat → Str) (e : Eqn) : eqnStr num e =
    joinText ['\n'] ((sortedTags e.tags).map tagStr ++ [exprStr num e.lhs ++ " = ".toList ++ exprStr num e.rhs])
      ++ lagText e.lagrange ++ targetText e.calibrating := rfl

/-- the tokens of `str(equation)` with `;` -/
def eqnToks (e : Eqn) : List Tok :=
  (sortedTags e.tags).map Tok.tag ++ (strToks e.lhs ++ .eq :: (strToks e.rhs ++
    (lagToks e.lagrange ++
      (targetToks e.calibrating ++ [.semi]))))

theorem tag_writes (t : Tag) : Writes (tagStr t) (.tag t) := by
  cases t <;> exact .tag ⟨_, _, rfl, .inl (by decide), by decide⟩ (by decide)

theorem p_tag (t : Tag) {s ts} (h : Prints0 s ts) : Prints0 (tagStr t ++ '\n' :: s) (.tag t :: ts) := by
  intro r us hr
  have h1 := p_layout line_layout _ _ (h r us hr)
  rw [List.append_assoc]
  refine spells_one (tag_writes t) ?_ h1
  intro c cs hc
  simp only [List.cons_append, List.nil_append, List.cons.injEq] at hc
  rw [← hc.1]; exact ⟨by decide, by decide⟩

theorem tags_print {s ts} (h : Prints0 s ts) : ∀ (l : List Tag), Prints0 (joinText ['\n'] (l.map tagStr ++ [s])) (l.map Tok.tag ++ ts)
  | [] => by simpa [joinText, List.intercalate] using h
  | t :: l => by
    have h1 := p_tag t (tags_print h l)
    have e : joinText ['\n'] ((t :: l).map tagStr ++ [s]) = tagStr t ++ '\n' :: joinText ['\n'] (l.map tagStr ++ [s]) := by
      cases l <;> simp [joinText, List.intercalate]
    rw [e]
    exact h1

theorem join_end (l : List Str) (s u : Str) : joinText ['\n'] (l ++ [s]) ++ u = joinText ['\n'] (l ++ [s ++ u]) := by
  induction l with
  | nil => simp [joinText, List.intercalate]
  | cons a l ih =>
    have e : ∀ v : Str, joinText ['\n'] (a :: l ++ [v]) = a ++ '\n' :: joinText ['\n'] (l ++ [v]) := by
      intro v
      cases l <;> simp [joinText, List.intercalate]
    rw [e, e, List.append_assoc, List.cons_append, ih]

theorem eqn_str_prints (num : Rat → Str) (e : Eqn) (hnl : NumsOk num e.lhs) (hnr : NumsOk num e.rhs)
    (hl : Written e.lhs) (hr : Written e.rhs) (hm : ∀ n, e.lagrange = some n → IsWord n) (hc : ∀ n, e.calibrating = some n → IsWord n) :
    Prints0 (eqnStr num e ++ [';']) (eqnToks e) := by
  obtain ⟨l, r, lag, cal, tags⟩ := e
  simp only at hnl hnr hl hr hm hc
  have h1 := (prints num l hnl hl).1
  have h2 := (prints num r hnr hr).1
  have h12 := comp h1 (comp0 p_eq_spaced h2) (sepc ' ' (by decide) _)
  have hL : (lagText lag = ([] : Str) ∧
        lagToks lag = []) ∨
      (Prints (lagText lag)
        (lagToks lag) ∧
        SepHead (lagText lag)) := by
    match lag, hm with
    | none, _ => exact .inl ⟨rfl, rfl⟩
    | some [], hm => obtain ⟨c, cs, h, _⟩ := hm [] rfl; simp at h
    | some (c :: cs), hm =>
      right
      have h3 := comp0 (comp00 p_space (comp00 p_colon p_space)) (p_word (hm _ rfl))
      exact ⟨by simpa [given, lagText, targetText, lagToks, targetToks] using h3, sepc ' ' (by decide) _⟩
  have hC : (targetText cal = ([] : Str) ∧
        targetToks cal = []) ∨
      (Prints (targetText cal)
        (targetToks cal) ∧
        SepHead (targetText cal)) := by
    match cal, hc with
    | none, _ => exact .inl ⟨rfl, rfl⟩
    | some [], hc => obtain ⟨c, cs, h, _⟩ := hc [] rfl; simp at h
    | some (c :: cs), hc =>
      right
      have h3 := comp0 (comp00 p_space (comp00 p_arrow p_space)) (p_word (hc _ rfl))
      exact ⟨by simpa [given, lagText, targetText, lagToks, targetToks] using h3, sepc ' ' (by decide) _⟩
  have h3 := tags_print (compA (compOpt (compOpt h12 hL) hC) p_semi (sepc ';' (by decide) _)) (sortedTags tags)
  rw [eqnStr_eq]
  unfold eqnToks
  simp only
  rw [List.append_assoc, List.append_assoc, join_end]
  simp only [List.append_assoc, List.cons_append, List.nil_append] at h3 ⊢
  exact h3

theorem mem_sorted (tags : List Tag) (t : Tag) : t ∈ sortedTags tags ↔ t ∈ tags := by
  unfold sortedTags
  rw [List.mem_filter, decide_eq_true_eq]
  refine ⟨fun h => h.2, fun h => ⟨?_, h⟩⟩
  cases t <;> simp

end NTx

/-- **C147**: `str()` of an equation without a multiplier, with the `;`, is read as the same equation with the same tags -/
theorem C147_equation (num : Rat → Str) (e : Eqn) (hnl : NumsOk num e.lhs) (hnr : NumsOk num e.rhs)
    (hl : Written e.lhs) (hr : Written e.rhs) (hm : e.lagrange = none) (hc : ∀ n, e.calibrating = some n → IsWord n) :
    ∃ ts tags, SpellsToks (eqnStr num e ++ [';']) ts ∧ IsEqn ts { e with tags := tags } ∧ ∀ t, t ∈ tags ↔ t ∈ e.tags := by
  have h := eqn_str_prints num e hnl hnr hl hr (by rw [hm]; simp) hc [] [] (.nil .nil)
  rw [List.append_nil, List.append_nil] at h
  refine ⟨_, _, h, ?_, mem_sorted e.tags⟩
  obtain ⟨l, r, lag, cal, tags⟩ := e
  simp only at hl hr hm hc
  subst hm
  unfold eqnToks
  simp only [List.nil_append]
  have hC : IsTarget (targetToks cal) cal := by
    cases cal with
    | none => exact .none
    | some n => exact .some
  exact IsEqn.mk (m := []) (sum_atom (atom l hl)) (sum_atom (atom r hr)) .none hC

/-- **C147**, what is missing: `str()` of an equation with a multiplier leaves out the `[]` after its name, and is not an equation -/
theorem C147_multiplier_violated (num : Rat → Str) (e : Eqn) (hnl : NumsOk num e.lhs) (hnr : NumsOk num e.rhs)
    (hl : Written e.lhs) (hr : Written e.rhs) (n : Str) (hn : IsWord n) (hm : e.lagrange = some n) (hc : ∀ n, e.calibrating = some n → IsWord n)
    (ts : List Tok) (hs : SpellsToks (eqnStr num e ++ [';']) ts) (e' : Eqn) : ¬ IsEqn ts e' := by
  intro he
  have h := eqn_str_prints num e hnl hnr hl hr (by rw [hm]; rintro _ ⟨⟩; exact hn) hc [] [] (.nil .nil)
  rw [List.append_nil, List.append_nil] at h
  have := C106_unique _ _ _ hs h
  subst this
  obtain ⟨F, hF⟩ := eqn_complete he []
  obtain ⟨l, r, lag, cal, tags⟩ := e
  simp only at hl hr hm hc
  subst hm
  have s1 := sum_atom (atom l hl)
  have s2 := sum_atom (atom r hr)
  generalize hrest : (targetToks cal ++ [Tok.semi]) = rest at *
  have h2 : Ev (fun f => pAdd f (strToks r ++ .colon :: .id n :: rest)) (r, .colon :: .id n :: rest) :=
    add_ev s2 (by simp [ok1, ok2, ok3, ok4])
  have h1 : Ev (fun f => pAdd f (strToks l ++ .eq :: (strToks r ++ .colon :: .id n :: rest))) (l, .eq :: (strToks r ++ .colon :: .id n :: rest)) :=
    add_ev s1 (by simp [ok1, ok2, ok3, ok4])
  obtain ⟨F1, h1⟩ := h1
  obtain ⟨F2, h2⟩ := h2
  have hf := hF (F + F1 + F2) (by omega)
  have e1 := h1 (F + F1 + F2) (by omega)
  have e2 := h2 (F + F1 + F2) (by omega)
  unfold pEqn eqnToks at hf
  dsimp only at hf e1 e2
  rw [hrest, List.append_nil] at hf
  rw [tags_complete _ (sum_starts s1).app] at hf
  dsimp only [lagToks, List.cons_append, List.nil_append] at hf
  rw [e1] at hf
  dsimp only at hf
  rw [e2] at hf
  dsimp only at hf
  cases cal with
  | none => subst hrest; simp [pLagrange, pCalibrating, targetToks] at hf
  | some c => subst hrest; simp [pLagrange, pCalibrating, targetToks] at hf

/-- **C147**: `str()` of a prior, with the `;`, is read as the same prior -/
theorem C147_distribution (num : Rat → Str) (d : GDist) (h : DistOk num d) :
    ∃ ts, SpellsToks (distStr num d ++ [';']) ts ∧ IsPrior ts d := by
  have h1 := dist_prints h [] [] (.nil .nil)
  rw [List.append_nil, List.append_nil] at h1
  exact ⟨_, h1, dist_is h⟩

namespace NTx

/-! ## queries -/

mutual
theorem visited_within (x : Expr) : ∀ (e : Expr), x ∈ visited e ↔ Within x e
  | .num v => by
    simp only [visited, List.mem_singleton]
    exact ⟨by rintro rfl; exact .self, fun h => by cases h; rfl⟩
  | .par n => by
    simp only [visited, List.mem_singleton]
    exact ⟨by rintro rfl; exact .self, fun h => by cases h; rfl⟩
  | .var n t => by
    simp only [visited, List.mem_singleton]
    exact ⟨by rintro rfl; exact .self, fun h => by cases h; rfl⟩
  | .bin o l r => by
    simp only [visited, List.mem_cons, List.mem_append, visited_within x l, visited_within x r]
    exact ⟨by rintro (rfl | h | h); exacts [.self, .left h, .right h], fun h => by cases h <;> simp [*]⟩
  | .neg e => by
    simp only [visited, List.mem_cons, visited_within x e]
    exact ⟨by rintro (rfl | h); exacts [.self, .neg h], fun h => by cases h <;> simp [*]⟩
  | .call f as => by
    simp only [visited, List.mem_cons, visitedArgs_within x as]
    refine ⟨by rintro (rfl | ⟨a, h1, h2⟩); exacts [.self, .arg h1 h2], fun h => ?_⟩
    cases h with
    | self => exact .inl rfl
    | arg h1 h2 => exact .inr ⟨_, h1, h2⟩
  | .expect e => by
    simp only [visited, List.mem_cons, visited_within x e]
    exact ⟨by rintro (rfl | h); exacts [.self, .expect h], fun h => by cases h <;> simp [*]⟩
theorem visitedArgs_within (x : Expr) : ∀ (as : List Expr), x ∈ visitedArgs as ↔ ∃ a ∈ as, Within x a
  | [] => by simp [visitedArgs]
  | a :: as => by simp [visitedArgs, visited_within x a, visitedArgs_within x as]
end

theorem mem_collectVariables (e : Expr) (n : Str) (t : TIdx) : (n, t) ∈ collectVariables e ↔ Within (.var n t) e := by
  unfold collectVariables
  rw [List.mem_eraseDups, List.mem_filterMap]
  constructor
  · rintro ⟨x, hx, h⟩
    cases x <;> simp [asVariable] at h
    obtain ⟨rfl, rfl⟩ := h
    exact (visited_within _ _).1 hx
  · intro h
    exact ⟨_, (visited_within _ _).2 h, rfl⟩

theorem mem_collectParameters (e : Expr) (n : Str) : n ∈ collectParameters e ↔ Within (.par n) e := by
  unfold collectParameters
  rw [List.mem_eraseDups, List.mem_filterMap]
  constructor
  · rintro ⟨x, hx, h⟩
    cases x <;> simp [asParameter] at h
    subst h
    exact (visited_within _ _).1 hx
  · intro h
    exact ⟨_, (visited_within _ _).2 h, rfl⟩

theorem mem_allEquations (f : GFile) (e : Eqn) : e ∈ allEquations f ↔ StatedBy f e := by
  simp [allEquations, StatedBy, or_assoc]

end NTx

/-- **C147**: the variables and parameters collected from an expression are those that occur in it, each once -/
theorem C147_collect (e : Expr) :
    (∀ n t, (n, t) ∈ collectVariables e ↔ Within (.var n t) e) ∧ (∀ n, n ∈ collectParameters e ↔ Within (.par n) e) ∧
    (collectVariables e).Nodup ∧ (collectParameters e).Nodup :=
  ⟨mem_collectVariables e, mem_collectParameters e, OEq.nodup_eraseDups _, OEq.nodup_eraseDups _⟩

/-- **C147**: `all_equations` are the definitions, objectives, constraints and identities, no others -/
theorem C147_equations (f : GFile) (e : Eqn) : e ∈ allEquations f ↔ StatedBy f e := mem_allEquations f e

/-- **C147**: `all_variables` are the variables, with their dates, on either side of these equations, each once -/
theorem C147_variables (f : GFile) :
    (∀ n t, (n, t) ∈ allVariables f ↔ ∃ e, StatedBy f e ∧ (Within (.var n t) e.lhs ∨ Within (.var n t) e.rhs)) ∧ (allVariables f).Nodup := by
  refine ⟨fun n t => ?_, OEq.nodup_eraseDups _⟩
  unfold allVariables
  simp only [List.mem_eraseDups, List.mem_flatMap, mem_allEquations, List.mem_append, mem_collectVariables]

/-- **C147**: `all_parameters` are the parameters on either side of these equations, each once -/
theorem C147_parameters (f : GFile) :
    (∀ n, n ∈ allParameters f ↔ ∃ e, StatedBy f e ∧ (Within (.par n) e.lhs ∨ Within (.par n) e.rhs)) ∧ (allParameters f).Nodup := by
  refine ⟨fun n => ?_, OEq.nodup_eraseDups _⟩
  unfold allParameters
  simp only [List.mem_eraseDups, List.mem_flatMap, mem_allEquations, List.mem_append, mem_collectParameters]

/-- **C147**, what is missing: a parameter that only the calibration mentions, a prior's or a calibrated one's, is not among them -/
theorem C147_calibration_violated : ∃ f : GFile, ∃ b ∈ f.blocks, ∃ e, GCal.eq e ∈ b.calibration ∧
    Within (.par "alpha".toList) e.lhs ∧ Within (.par "beta".toList) e.rhs ∧ allParameters f = [] :=
  ⟨{ blocks := [{ name := "B".toList, calibration := [.eq { lhs := .par "alpha".toList, rhs := .par "beta".toList }] }] },
    _, by simp; rfl, _, by simp; rfl, .self, .self, by simp [allParameters, allEquations]⟩

/-- **C147**: `get_block` returns the first block of that name, and `None` exactly when no block has it -/
theorem C147_get_block (f : GFile) (name : Str) :
    (∀ b, getBlock f name = some b ↔ b.name = name ∧ ∃ pre post, f.blocks = pre ++ b :: post ∧ ∀ c ∈ pre, c.name ≠ name) ∧
    (getBlock f name = none ↔ name ∉ blockNames f) ∧ blockNames f = f.blocks.map (·.name) := by
  refine ⟨fun b => ?_, ?_, rfl⟩
  · unfold getBlock
    rw [List.find?_eq_some_iff_append]
    simp
  · simp [getBlock, blockNames]

/-- **C147**: a block has an optimisation problem when it has a control and an objective -/
theorem C147_optimization (b : GBlock) : hasOptimization b = true ↔ b.controls ≠ [] ∧ b.objective ≠ [] := by
  simp [hasOptimization, List.length_pos_iff]

/-! ## the hypotheses are met -/

/-- one half in decimals, in an expression -/
example : NumsOk (fun _ => "0.5".toList) (.neg (.num (1/2))) := by
  intro q hq _
  have e : q = 1/2 := by
    cases hq with
    | neg h => cases h; rfl
  subst e
  have := Writes.number (.dec (i := ['0']) (f := ['5']) (by unfold IsDigits; decide) (by unfold IsDigits; decide) (.inl (by simp))) .none
  have e : ((decimal ['0'] : Nat) + (decimal ['5'] : Nat) / 10 ^ (['5'] : List Char).length : Rat) * (10 : Rat) ^ (0 : Int) = 1 / 2 := by decide +kernel
  rw [e] at this
  exact this

/-- `a[] - (b - c[-1])`, which the printer of gcn files prints as `a[] - b - c[-1]` -/
example : Written (.bin .sub (.var "a".toList (.t 0)) (.bin .sub (.par "b".toList) (.var "c".toList (.t (-1))))) ∧
    exprStr (fun _ => []) (.bin .sub (.var "a".toList (.t 0)) (.bin .sub (.par "b".toList) (.var "c".toList (.t (-1))))) =
      "(a[] - (b - c[-1]))".toList := by
  refine ⟨?_, by decide +kernel⟩
  simp only [Written]
  exact ⟨⟨_, _, rfl, .inl (by decide), by decide⟩, ⟨_, _, rfl, .inl (by decide), by decide⟩, ⟨_, _, rfl, .inl (by decide), by decide⟩⟩

/-- an equation with a tag and a calibrated parameter, and one with a multiplier -/
example :
    eqnStr (fun _ => []) { lhs := .var "y".toList (.t 0), rhs := .neg (.par "b".toList), calibrating := some "b".toList, tags := [.exclude] } =
      "@exclude\ny[] = (-b) -> b".toList ∧
    eqnStr (fun _ => []) { lhs := .var "y".toList (.t 0), rhs := .par "b".toList, lagrange := some "m".toList } = "y[] = b : m".toList := by
  decide +kernel

/-- a block of a small model -/
def askBlock : GBlock where
  name := "H".toList
  controls := [⟨"c".toList, .t 0⟩]
  objective := [{ lhs := .var "U".toList (.t 0), rhs := .call "log".toList [.var "c".toList (.t 0)] }]
  constraints := [{ lhs := .var "c".toList (.t 0), rhs := .bin .mul (.par "w".toList) (.var "n".toList (.t (-1))), lagrange := some "l".toList }]

/-- the multiplier is not a variable of the model, the dates count -/
example :
    allVariables { blocks := [askBlock] } = [("U".toList, .t 0), ("c".toList, .t 0), ("n".toList, .t (-1))] ∧
    allParameters { blocks := [askBlock] } = ["w".toList] ∧ hasOptimization askBlock = true ∧
    (getBlock { blocks := [askBlock] } "H".toList).map (·.name) = some "H".toList ∧ (getBlock { blocks := [askBlock] } "F".toList).isNone := by
  decide +kernel

end GE
