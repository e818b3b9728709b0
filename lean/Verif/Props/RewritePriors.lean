import Verif.Props.Rewrite
import Verif.Props.FileCalibration
/-! # C148: priors and shock distributions do not depend on the order of the blocks -/

namespace GE
namespace Lyt
open Gcn Pip Ldr FCal

/-- a dictionary filled on top of another -/
theorem prior_fold (ok : Dist → Bool) (n : Str) : ∀ (cs : List Calib) (ps qs : List (Str × Dist)),
    dget (cs.foldl (fun ps c => match c with | .dist d => if ok d then dset ps d.param d else ps | .eq _ => ps) ps) n =
      (dget (cs.foldl (fun ps c => match c with | .dist d => if ok d then dset ps d.param d else ps | .eq _ => ps) []) n).or (dget ps n) := by
  intro cs ps _
  induction cs using List.reverseRecOn with
  | nil => simp [dget]
  | append_singleton cs c ih =>
    rw [List.foldl_append, List.foldl_append]
    simp only [List.foldl_cons, List.foldl_nil]
    cases c with
    | eq e => exact ih
    | dist d =>
      simp only
      split
      · rw [dget_dset, dget_dset]
        split
        · rfl
        · exact ih
      · exact ih

theorem block_priors (ok : Dist → Bool) (b : Blk) (ps : List (Str × Dist)) (n : Str) :
    dget (blockPriors ok b ps) n = (dget (blockPriors ok b []) n).or (dget ps n) := prior_fold ok n _ _ []

theorem shock_fold (priors : List (Str × Dist)) (b : Blk) (sd : List (Str × ShockDist)) (n : Str) :
    dget (blockShockDists priors b sd) n = (dget (blockShockDists priors b []) n).or (dget sd n) := by
  unfold blockShockDists
  induction b.shockDists using List.reverseRecOn with
  | nil => simp [dget]
  | append_singleton cs c ih =>
    rw [List.foldl_append, List.foldl_append]
    simp only [List.foldl_cons, List.foldl_nil]
    split
    · rw [dget_dset, dget_dset]
      split
      · rfl
      · exact ih
    · exact ih

theorem shockLoop_congr {ps qs : List (Str × Dist)} : ∀ (kw : List (Str × (Rat ⊕ Str))) (s : ShockDist),
    (∀ k n, (k, .inr n) ∈ kw → dget ps n = dget qs n) → shockLoop ps kw s = shockLoop qs kw s
  | [], _, _ => rfl
  | (k, .inl q) :: rest, s, h => by
    simp only [shockLoop]
    exact shockLoop_congr rest _ fun k n hk => h k n (List.mem_cons_of_mem _ hk)
  | (k, .inr n) :: rest, s, h => by
    simp only [shockLoop]
    rw [h k n (by simp)]
    split <;> exact shockLoop_congr rest _ fun k n hk => h k n (List.mem_cons_of_mem _ hk)

theorem shockDists_congr {ps qs : List (Str × Dist)} (b : Blk) (sd : List (Str × ShockDist))
    (h : ∀ j ∈ b.shockDists, ∀ k n, (k, .inr n) ∈ j.kwargs → dget ps n = dget qs n) : blockShockDists ps b sd = blockShockDists qs b sd := by
  unfold blockShockDists
  revert h
  induction b.shockDists generalizing sd with
  | nil => intro _; rfl
  | cons j js ih =>
    intro h
    simp only [List.foldl_cons]
    have : createShockDist j ps = createShockDist j qs := by
      unfold createShockDist
      rw [shockLoop_congr j.kwargs _ (h j (by simp))]
    rw [this]
    exact ih _ fun j hj => h j (List.mem_cons_of_mem _ hj)

/-- the priors of a list of blocks -/
theorem priors_chain (ok : Dist → Bool) (n : Str) : ∀ (bs : List Blk) (ps : List (Str × Dist)) (sd : List (Str × ShockDist)),
    dget (loadDists ok bs ps sd).1 n = bs.foldl (fun o b => (dget (blockPriors ok b []) n).or o) (dget ps n)
  | [], _, _ => rfl
  | b :: bs, ps, sd => by
    simp only [loadDists, List.foldl_cons]
    rw [priors_chain ok n bs, block_priors]

/-- a block has a prior only for what it states one for -/
theorem prior_mem {ok : Dist → Bool} {b : Blk} {n : Str} (h : ∀ d, Calib.dist d ∈ b.calibration → d.param ≠ n) : dget (blockPriors ok b []) n = none := by
  unfold blockPriors
  exact (prior_other _ n _ _ h).trans rfl

theorem shock_mem {ps : List (Str × Dist)} {b : Blk} {n : Str} (h : ∀ d ∈ b.shockDists, d.param ≠ n) : dget (blockShockDists ps b []) n = none := by
  unfold blockShockDists
  exact (block_other _ n _ _ h).trans rfl

/-- the shock distributions of a list of blocks, if priors are at hand -/
theorem shocks_chain (ok : Dist → Bool) (n : Str) : ∀ (bs : List Blk) (ps : List (Str × Dist)) (sd : List (Str × ShockDist)),
    (∀ b ∈ bs, ∀ j ∈ b.shockDists, ∀ k x, (k, .inr x) ∈ j.kwargs → dget ps x = none) →
    (bs.Pairwise fun a b => ∀ j ∈ b.shockDists, ∀ k x, (k, .inr x) ∈ j.kwargs → ∀ d, Calib.dist d ∈ a.calibration → d.param ≠ x) →
    dget (loadDists ok bs ps sd).2 n = bs.foldl (fun o b => (dget (blockShockDists (blockPriors ok b []) b []) n).or o) (dget sd n)
  | [], _, _, _, _ => rfl
  | b :: bs, ps, sd, h, hw => by
    simp only [loadDists, List.foldl_cons]
    rw [shocks_chain ok n bs, shock_fold, shockDists_congr (qs := blockPriors ok b []) b]
    · intro j hj k x hx
      rw [block_priors, h b (by simp) j hj k x hx, Option.or_none]
    · intro c hc j hj k x hx
      rw [block_priors, h c (List.mem_cons_of_mem _ hc) j hj k x hx, Option.or_none]
      exact prior_mem ((List.pairwise_cons.1 hw).1 c hc j hj k x hx)
    · exact (List.pairwise_cons.1 hw).2

/-- a chain in which at most one block speaks does not depend on the order -/
theorem chain_perm {α} {bs cs : List Blk} (hp : bs.Perm cs) (f : Blk → Option α) (h : bs.Pairwise fun a b => f a = none ∨ f b = none) (o : Option α) :
    bs.foldl (fun o b => (f b).or o) o = cs.foldl (fun o b => (f b).or o) o := by
  refine hp.foldl_eq' (fun x hx y hy z => ?_) o
  by_cases e : x = y
  · rw [e]
  · have hs : Std.Symm fun a b => f a = none ∨ f b = none := ⟨fun a b h => h.symm⟩
    rcases h.forall hx hy e with e | e <;> rw [e] <;> simp

end Lyt
open Lyt Gcn Pip Ldr FCal

/-- **C148**: priors and shock distributions. Of files with the same blocks in another order, in which no parameter has priors in two blocks and no
shock has distributions in two blocks, the priors are the same; and so are the distributions of the shocks, if the priors they name stand in the
same block -/
theorem C148_priors (pz : PzCall → Bool) (text text' : List Char) (ts ts' : List Tok) (m m' : GFile) (r r' : List (Str × Dist) × List (Str × ShockDist))
    (hs : SpellsToks text ts) (hf : IsFile ts m) (hl : LoadGcnDists pz text r) (hs' : SpellsToks text' ts') (hf' : IsFile ts' m')
    (hl' : LoadGcnDists pz text' r') (hp : m.blocks.Perm m'.blocks) (hone : m.OnePrior) :
    (∀ n, dget r.1 n = dget r'.1 n) ∧ (m.OneShockDist → m.PriorsAtHand → ∀ n, dget r.2 n = dget r'.2 n) := by
  obtain ⟨m0, h0, rfl⟩ := hl
  cases C107_unique text m m0 ((C107_parse text m).2 ⟨ts, hs, hf⟩) h0
  obtain ⟨m1, h1, rfl⟩ := hl'
  cases C107_unique text' m' m1 ((C107_parse text' m').2 ⟨ts', hs', hf'⟩) h1
  have hpb : m.toMdl.blocks.Perm m'.toMdl.blocks := hp.map GBlock.toBlk
  constructor
  · intro n
    rw [priors_chain, priors_chain]
    refine chain_perm hpb _ ?_ _
    show (m.blocks.map GBlock.toBlk).Pairwise _
    rw [List.pairwise_map]
    refine hone.imp fun {a b} h => ?_
    by_cases ha : ∃ d, GCal.prior d ∈ a.calibration ∧ d.param = n
    · obtain ⟨d, hd, e⟩ := ha
      refine .inr (prior_mem fun d' hd' e' => ?_)
      obtain ⟨d0, h0, rfl⟩ := (mem_calib b d').1 hd'
      exact h d d0 hd h0 (e.trans e'.symm)
    · refine .inl (prior_mem fun d' hd' e' => ha ?_)
      obtain ⟨d0, h0, rfl⟩ := (mem_calib a d').1 hd'
      exact ⟨d0, h0, e'⟩
  · intro hsh hat n
    have hw : ∀ {l : List GBlock}, l.Pairwise (fun a b => ∀ d d', GCal.prior d ∈ a.calibration → GCal.prior d' ∈ b.calibration → d.param ≠ d'.param) →
        (∀ b ∈ l, b ∈ m.blocks) → (l.map GBlock.toBlk).Pairwise fun a b => ∀ j ∈ b.shockDists, ∀ k x, (k, .inr x) ∈ j.kwargs → ∀ d, Calib.dist d ∈ a.calibration → d.param ≠ x := by
      intro l hone hmem
      rw [List.pairwise_map]
      refine hone.imp_of_mem fun {a b} ha hb h j hj k x hx d hd e => ?_
      obtain ⟨j0, hj0, rfl⟩ := List.mem_map.1 hj
      obtain ⟨d0, hd0, rfl⟩ := (mem_calib a d).1 hd
      have hab := hat b (hmem b hb) j0 hj0 k x (((kw_mem j0 k).2 x).1 hx) a (hmem a ha) d0 hd0 e
      rw [hab] at hd0 h
      exact h d0 d0 hd0 hd0 rfl
    have hone' : m'.OnePrior := (hp.pairwise_iff (fun {a b} h d d' h1 h2 e => h d' d h2 h1 e.symm)).1 hone
    rw [shocks_chain _ n m.toMdl.blocks [] [] (fun _ _ _ _ _ _ _ => rfl) (hw hone fun b hb => hb),
      shocks_chain _ n m'.toMdl.blocks [] [] (fun _ _ _ _ _ _ _ => rfl) (hw hone' fun b hb => hp.mem_iff.2 hb)]
    refine chain_perm hpb _ ?_ _
    show (m.blocks.map GBlock.toBlk).Pairwise _
    rw [List.pairwise_map]
    refine hsh.imp fun {a b} h => ?_
    by_cases ha : ∃ d ∈ a.shockDists, d.param = n
    · obtain ⟨d, hd, e⟩ := ha
      refine .inr (shock_mem fun d' hd' e' => ?_)
      obtain ⟨d0, h0, rfl⟩ := List.mem_map.1 hd'
      exact h d hd d0 h0 (e.trans e'.symm)
    · refine .inl (shock_mem fun d' hd' e' => ha ?_)
      obtain ⟨d0, h0, rfl⟩ := List.mem_map.1 hd'
      exact ⟨d0, h0, e'⟩

/-! ## the hypotheses are met -/

namespace Lyt

/-- a block with a prior and a shock of its own -/
def ownText : List Char := "block B { shocks { f[] ~ Normal(mu=0, sigma=d); }; calibration { d ~ HalfNormal(sigma=1) = 2; }; };".toList
def ownToks : List Tok := [.id "block".toList, .id "B".toList, .lbrace, .id "shocks".toList, .lbrace, .id "f".toList, .tix (.t 0), .tilde,
  .id "Normal".toList, .lpar, .id "mu".toList, .eq, .num 0, .comma, .id "sigma".toList, .eq, .id "d".toList, .rpar, .semi, .rbrace, .semi,
  .id "calibration".toList, .lbrace, .id "d".toList, .tilde, .id "HalfNormal".toList, .lpar,
  .id "sigma".toList, .eq, .num 1, .rpar, .eq, .num 2, .semi, .rbrace, .semi, .rbrace, .semi]
def ownShock : GDist := ⟨"f".toList, "Normal".toList, [("mu".toList, .num 0), ("sigma".toList, .str "d".toList)], none, [], none⟩
def ownPrior : GDist := ⟨"d".toList, "HalfNormal".toList, [("sigma".toList, .num 1)], none, [], some 2⟩
def ownBlock : GBlock where
  name := "B".toList
  shocks := [⟨"f".toList, .t 0⟩]
  shockDists := [ownShock]
  calibration := [.prior ownPrior]
/-- with the file of `C120`, in both orders -/
def fcOwn : GFile := { blocks := [fcBlock, ownBlock] }
def ownFc : GFile := { blocks := [ownBlock, fcBlock] }

theorem fo_spells : SpellsToks (fcText ++ ' ' :: ownText) (fcToks ++ ownToks) := (C106_reading _ _).1 (by decide +kernel)
theorem of_spells : SpellsToks (ownText ++ '\n' :: fcText) (ownToks ++ fcToks) := (C106_reading _ _).1 (by decide +kernel)
theorem fo_file : IsFile (fcToks ++ ownToks) fcOwn := (C107_grammar _ _).1 ⟨60, rfl⟩
theorem of_file : IsFile (ownToks ++ fcToks) ownFc := (C107_grammar _ _).1 ⟨60, rfl⟩

theorem fo_prior : fcOwn.OnePrior := by
  simp only [GFile.OnePrior, fcOwn, List.pairwise_cons, List.mem_singleton, forall_eq, List.not_mem_nil, false_imp_iff, implies_true, List.Pairwise.nil, and_true]
  intro d d' hd hd'
  simp only [fcBlock, ownBlock, List.mem_cons, reduceCtorEq, GCal.prior.injEq, List.not_mem_nil, or_false, false_or] at hd hd'
  subst hd hd'
  decide

theorem fo_shock : fcOwn.OneShockDist := by
  simp only [GFile.OneShockDist, fcOwn, List.pairwise_cons, List.mem_singleton, forall_eq, List.not_mem_nil, false_imp_iff, implies_true, List.Pairwise.nil, and_true]
  simp only [fcBlock, ownBlock, List.mem_singleton, forall_eq]
  decide

theorem fo_hand : fcOwn.PriorsAtHand := by
  intro b hb j hj k n hk b' hb' d hd e
  simp only [fcOwn, List.mem_cons, List.not_mem_nil, or_false] at hb hb'
  rcases hb with rfl | rfl <;> rcases hb' with rfl | rfl
  · rfl
  · exfalso
    simp only [fcBlock, ownBlock, List.mem_singleton, GCal.prior.injEq] at hj hd
    subst hj hd
    simp only [fcShock, List.mem_cons, Prod.mk.injEq, reduceCtorEq, and_false, false_or, NTree.str.injEq, List.not_mem_nil, or_false] at hk
    rw [hk.2] at e
    revert e; decide
  · exfalso
    simp only [fcBlock, ownBlock, List.mem_cons, reduceCtorEq, List.not_mem_nil, or_false, false_or, GCal.prior.injEq] at hj hd
    subst hj hd
    simp only [ownShock, List.mem_cons, Prod.mk.injEq, reduceCtorEq, and_false, false_or, NTree.str.injEq, List.not_mem_nil, or_false] at hk
    rw [hk.2] at e
    revert e; decide
  · rfl

end Lyt

/-- two priors and two shocks linked to them, in two blocks in either order: the distribution of `e` and the prior of `s` are the same, and
there are such -/
example : ∃ r r', LoadGcnDists (fun _ => true) (fcText ++ ' ' :: ownText) r ∧ LoadGcnDists (fun _ => true) (ownText ++ '\n' :: fcText) r' ∧
    (∀ n, dget r.1 n = dget r'.1 n) ∧ (∀ n, dget r.2 n = dget r'.2 n) ∧ (dget r'.1 "s".toList).isSome ∧
    (∃ s, dget r'.2 "e".toList = some s ∧ s.hyper.length = 1) ∧ dkeys r.1 ≠ dkeys r'.1 := by
  refine ⟨_, _, ⟨fcOwn, (C107_parse _ _).2 ⟨_, fo_spells, fo_file⟩, rfl⟩, ⟨ownFc, (C107_parse _ _).2 ⟨_, of_spells, of_file⟩, rfl⟩, ?_⟩
  have h := C148_priors (fun _ => true) _ _ _ _ _ _ _ _ fo_spells fo_file ⟨fcOwn, (C107_parse _ _).2 ⟨_, fo_spells, fo_file⟩, rfl⟩ of_spells of_file
    ⟨ownFc, (C107_parse _ _).2 ⟨_, of_spells, of_file⟩, rfl⟩ (List.Perm.swap _ _ _) fo_prior
  refine ⟨h.1, h.2 fo_shock fo_hand, by decide +kernel, ?_, by decide +kernel⟩
  have : ((dget (loadDists (acceptsDist fun _ => true) ownFc.toMdl.blocks [] []).2 "e".toList).map fun s => s.hyper.length) = some 1 := by decide +kernel
  rw [Option.map_eq_some_iff] at this
  exact this

end GE
