import Verif.Model.ToSympy
import Verif.Model.ExpandTime
/-!
# `gEconpy/parser/transform/to_block.py` and `gEconpy/model/block/basic.py`

Error-reporting data (source, locations) is not modelled.
-/

namespace GE

/-- `_extract_flags` result (to_block.py:50-63) -/
structure Flags where
  exclude : Bool := false
  minimize : Bool := false
  maximize : Bool := false
  isCalibrating : Bool := false
  deriving DecidableEq, Repr

/-- `_extract_flags` (to_block.py:50-63) -/
def extractFlags (e : Eqn) : Flags :=
  { exclude := e.tags.contains .exclude
    minimize := e.tags.contains .minimize
    maximize := e.tags.contains .maximize
    isCalibrating := match e.calibrating with | some (_ :: _) => true | _ => false }

/-- `_extract_multiplier` (to_block.py:66-76) -/
def extractMultiplier (asm : List (Str × Asm)) (e : Eqn) : Option TSym :=
  match e.lagrange with
  | some (c :: n) => some (convVar asm (c :: n) (.t 0))
  | _ => none

/-- `Block` (model/block/basic.py:68-185): the attributes set from the constructor arguments -/
structure Block where
  name : Str
  definitions : Option (List (Nat × SEq)) := none
  controls : Option (List TSym) := none
  objective : Option (List (Nat × SEq)) := none
  constraints : Option (List (Nat × SEq)) := none
  identities : Option (List (Nat × SEq)) := none
  calibration : Option (List (Nat × SEq)) := none
  shocks : Option (List TSym) := none
  multipliers : List (Nat × Option TSym) := []
  flags : List (Nat × Flags) := []

/-- the running state of `ast_block_to_block` (to_block.py:122-124) -/
structure ConvSt where
  eqNum : Nat := 0
  flags : List (Nat × Flags) := []
  multipliers : List (Nat × Option TSym) := []

/-- `_convert_equation_list` (to_block.py:79-93) -/
def convertList (asm : List (Str × Asm)) : List Eqn → ConvSt → List (Nat × SEq) →
    Except ConvErr (List (Nat × SEq) × ConvSt)
  | [], st, acc => .ok (acc, st)
  | e :: es, st, acc =>
    match eqnToSympy asm e with
    | .error err => .error err
    | .ok s =>
      convertList asm es
        { eqNum := st.eqNum + 1
          flags := dset st.flags st.eqNum (extractFlags e)
          multipliers := dset st.multipliers st.eqNum (extractMultiplier asm e) }
        (dset acc st.eqNum s)

/-- one component: `None` when the list is empty (to_block.py:141-163) -/
def convertComponent (asm : List (Str × Asm)) (es : List Eqn) (st : ConvSt) :
    Except ConvErr (Option (List (Nat × SEq)) × ConvSt) :=
  match es with
  | [] => .ok (none, st)
  | es =>
    match convertList asm es st [] with
    | .error err => .error err
    | .ok (d, st') => .ok (some d, st')

/-- the items of `_convert_calibration` (to_block.py:211-228): equations, and distributions with an initial value -/
def calibItems (asm : List (Str × Asm)) : List Calib → Except ConvErr (List (Option Eqn × SEq))
  | [] => .ok []
  | .eq e :: cs =>
    match eqnToSympy asm e with
    | .error err => .error err
    | .ok s =>
      match calibItems asm cs with
      | .error err => .error err
      | .ok r => .ok ((some e, s) :: r)
  | .dist d :: cs =>
    match calibItems asm cs with
    | .error err => .error err
    | .ok r =>
      match d.initial with
      | some v => .ok ((none, ⟨.sym (.par d.param), .num v⟩) :: r)
      | none => .ok r

/-- the numbering loop of `_convert_calibration` (to_block.py:233-243) -/
def numberCalib (asm : List (Str × Asm)) : List (Option Eqn × SEq) → ConvSt → List (Nat × SEq) → List (Nat × SEq) × ConvSt
  | [], st, acc => (acc, st)
  | (a, s) :: cs, st, acc =>
    numberCalib asm cs
      { eqNum := st.eqNum + 1
        flags := dset st.flags st.eqNum (match a with | some e => extractFlags e | none => {})
        multipliers := dset st.multipliers st.eqNum (match a with | some e => extractMultiplier asm e | none => none) }
      (dset acc st.eqNum s)

/-- `_convert_calibration` (to_block.py:190-245) -/
def convertCalibration (asm : List (Str × Asm)) (cs : List Calib) (st : ConvSt) :
    Except ConvErr (Option (List (Nat × SEq)) × ConvSt) :=
  match calibItems asm cs with
  | .error err => .error err
  | .ok [] => .ok (none, st)
  | .ok (i :: is) => let r := numberCalib asm (i :: is) st []; .ok (some r.1, r.2)

/-- `[... for v in vs] if vs else None` (to_block.py:126-127) -/
def convertVars (asm : List (Str × Asm)) (vs : List VarRef) : Option (List TSym) :=
  match vs with
  | [] => none
  | vs => some (vs.map fun v => convVar asm v.name v.t)

/-- `ast_block_to_block` (to_block.py:96-187) up to the constructor call -/
def astBlockToBlock (asm : List (Str × Asm)) (b : Blk) : Except ConvErr Block :=
  match convertComponent asm b.definitions {} with
  | .error e => .error e
  | .ok (defs, s1) =>
  match convertComponent asm b.objective s1 with
  | .error e => .error e
  | .ok (obj, s2) =>
  match convertComponent asm b.constraints s2 with
  | .error e => .error e
  | .ok (cons, s3) =>
  match convertComponent asm b.identities s3 with
  | .error e => .error e
  | .ok (ids, s4) =>
  match convertCalibration asm b.calibration s4 with
  | .error e => .error e
  | .ok (cal, s5) =>
    .ok { name := b.name
          definitions := defs
          controls := convertVars asm b.controls
          objective := obj
          constraints := cons
          identities := ids
          calibration := cal
          shocks := convertVars asm b.shocks
          multipliers := s5.multipliers
          flags := s5.flags }

/-- exceptions of `Block` -/
inductive BErr where
  | typeError | attributeError | valueError | indexError | keyError | notImplemented | runtimeError
  | optimizationProblemNotDefined | multipleObjectives
  | controlNotFound (c : TSym)
  | dynamicCalibrating (p : Sym)
  | duplicateParameter (ps : List Sym)
  deriving DecidableEq

/-- `eq.atoms()` restricted to symbols -/
def SEq.syms (e : SEq) : List Sym := e.lhs.syms ++ e.rhs.syms

/-- `set_equality_equals_zero` (utilities.py:35-39) -/
def SEq.zero (e : SEq) : SExpr := e.rhs.sub e.lhs

/-- `eq.subs(d)` on both sides -/
def SEq.subsSeq (e : SEq) (d : List (Sym × SExpr)) : SEq := ⟨e.lhs.subsSeq d, e.rhs.subsSeq d⟩

/-- `list(d.values())` of an optional dictionary -/
def dvals {ν : Type} (d : Option (List (Nat × ν))) : List ν := (d.getD []).map Prod.snd

/-- the flag checks of `_validate_initialization` (basic.py:258-285) for one component -/
def flagsAllowed (mayExclude mayOptimise : Bool) (flags : List (Nat × Flags)) (d : Option (List (Nat × SEq))) : Except BErr Unit :=
  (d.getD []).forM fun p =>
    match dget flags p.1 with
    | none => .error .keyError
    | some f =>
      if f.isCalibrating then .error .valueError
      else if f.exclude && !mayExclude then .error .valueError
      else if f.minimize && !mayOptimise then .error .valueError
      else if f.maximize && !mayOptimise then .error .valueError
      else .ok ()

/-- `_validate_initialization` (basic.py:192-298) -/
def Block.validate (B : Block) : Except BErr Unit := do
  if B.objective.isSome && B.controls.isNone then throw .optimizationProblemNotDefined
  if B.objective.isNone && B.controls.isSome then throw .optimizationProblemNotDefined
  if (B.objective.getD []).length > 1 then throw .multipleObjectives
  (B.controls.getD []).forM fun c =>
    if (dvals B.definitions ++ dvals B.objective ++ dvals B.constraints).any fun e => e.syms.contains (.tv c) then .ok ()
    else throw (.controlNotFound c)
  flagsAllowed false false B.flags B.definitions
  flagsAllowed false true B.flags B.objective
  flagsAllowed true false B.flags B.constraints
  flagsAllowed false false B.flags B.identities
  (B.objective.getD []).forM fun p =>
    match dget B.flags p.1 with
    | none => .error .keyError
    | some f => if f.minimize && f.maximize then .error .valueError else .ok ()

/-- `{eq.lhs: eq.rhs for eq in definitions}` (basic.py:305, 315, 691): a dictionary. Definitions whose left-hand side is not a
single symbol are not modelled (left out). -/
def defDict (ds : List SEq) : List (Sym × SExpr) :=
  ds.foldl (fun d e => match e.lhs with | .sym s => dset d s e.rhs | _ => d) []

/-- `_consolidate_definitions` (basic.py:300-307) -/
def Block.consolidate (B : Block) : Except BErr Block :=
  match B.definitions with
  | none => .ok B
  | some ds =>
    match flattenSubs (defDict (ds.map Prod.snd)) with
    | some (some flat) => .ok { B with definitions := some (ds.map fun p => (p.1, ⟨p.2.lhs, p.2.rhs.subsSeq flat⟩)) }
    | _ => .error .valueError

/-- the three dictionaries of `_get_param_dict_and_calibrating_equations` (basic.py:152-154) -/
structure ParamDicts where
  param : List (Sym × SExpr) := []
  calib : List (Sym × SExpr) := []
  determ : List (Sym × SExpr) := []
  duplicates : List Sym := []

/-- `rhs.is_number` (sympy): no free symbols -/
def SExpr.isNumber (e : SExpr) : Bool := e.syms.isEmpty

/-- `_try_substitute_ss_values` (basic.py:459-517): look-up by printed name -/
def trySubsSS (ss : List (TSym × SExpr)) (e : SEq) : Except BErr SExpr :=
  let vars := (e.lhs.tsyms ++ e.rhs.tsyms).eraseDups
  if vars.any fun v => v.idx ≠ .ss then .error .valueError
  else if ss.isEmpty then .error .valueError
  else
    match vars.mapM fun v => (ss.find? fun p => createName p.1 = createName v).map fun p => (Sym.tv v, p.2) with
    | none => .error .valueError
    | some d => .ok (e.rhs.subsSeq d)

/-- one turn of the loop of `_get_param_dict_and_calibrating_equations` (basic.py:394-451) -/
def paramStep (ss : List (TSym × SExpr)) (flags : List (Nat × Flags)) (st : ParamDicts) (p : Nat × SEq) : Except BErr ParamDicts :=
  match p.2.lhs with
  | .sym x =>
    if p.2.rhs.isNumber then
      if x ∈ dkeys st.param then .ok { st with duplicates := st.duplicates ++ [x] }
      else .ok { st with param := dset st.param x p.2.rhs }
    else
      match dget flags p.1 with
      | none => .error .keyError
      | some f =>
        if f.isCalibrating then
          if (p.2.lhs.tsyms ++ p.2.rhs.tsyms).any fun v => v.idx ≠ .ss then .error (.dynamicCalibrating x)
          else if x ∈ dkeys st.calib then .ok { st with duplicates := st.duplicates ++ [x] }
          else .ok { st with calib := dset st.calib x p.2.rhs }
        else
          let rhs' : Except BErr SExpr :=
            if (p.2.lhs.tsyms ++ p.2.rhs.tsyms).isEmpty then .ok p.2.rhs
            else
              match trySubsSS ss p.2 with
              | .error e => .error e
              | .ok r => if r.tsyms.isEmpty then .ok r else .error .valueError
          match rhs' with
          | .error e => .error e
          | .ok r =>
            if x ∈ dkeys st.determ then .ok { st with duplicates := st.duplicates ++ [x] }
            else .ok { st with determ := dset st.determ x r }
  | _ => .error .valueError

/-- `_get_param_dict_and_calibrating_equations` (basic.py:368-457) -/
def Block.paramDicts (ss : List (TSym × SExpr)) (B : Block) : Except BErr ParamDicts :=
  match B.calibration with
  | none => .ok {}
  | some cs =>
    match cs.foldlM (paramStep ss B.flags) ({} : ParamDicts) with
    | .error e => .error e
    | .ok r => if r.duplicates.isEmpty then .ok r else .error (.duplicateParameter r.duplicates)

/-- split at `_` (`name.split("_")`, basic.py:136) -/
def splitUnderscore : Str → List Str
  | [] => [[]]
  | c :: s =>
    match splitUnderscore s with
    | [] => [[c]]
    | w :: ws => if c = '_' then [] :: w :: ws else (c :: w) :: ws

/-- `short_name` (basic.py:136): `word[0]` of an empty word raises IndexError (`none`) -/
def shortName (name : Str) : Option Str := (splitUnderscore name).mapM List.head?

/-- the name of the `i`-th generated multiplier (basic.py:546) -/
def autoMultiplier (short : Str) (i : Nat) : TSym :=
  ⟨"lambda__".toList ++ short ++ ['_'] ++ natStr i, .t 0, defaultAssumptions⟩

/-- shift an equation by `k` periods, one step at a time (basic.py:53-60) -/
def stepBy (k : Int) (e : SExpr) : Except PyErr SExpr :=
  match k with
  | .ofNat n => (List.range n).foldlM (fun e _ => stepFwd e) e
  | .negSucc n => (List.range (n + 1)).foldlM (fun e _ => stepBwd e) e

/-- `_expand_definition_for_all_times` (basic.py:26-65). The left-hand side must be a dated symbol: a symbol without
`time_index` raises AttributeError, a steady-state one TypeError. -/
def expandDefinition (lhs : SExpr) (rhs : SExpr) : Except BErr (List (Sym × SExpr)) :=
  match lhs with
  | .sym (.tv s) =>
    match s.idx with
    | .ss => .error .typeError
    | .t k => [(-1 : Int), 0, 1].foldlM (fun d target =>
        match stepBy (target - k) lhs, stepBy (target - k) rhs with
        | .ok (.sym q), .ok r => .ok (dset d q r)
        | _, _ => .error .typeError) []
  | _ => .error .attributeError

/-- the substitution dictionary of `_build_lagrangian` (basic.py:529-532) -/
def lagrangianSubs : List SEq → List (Sym × SExpr) → Except BErr (List (Sym × SExpr))
  | [], acc => .ok acc
  | e :: es, acc =>
    match expandDefinition e.lhs e.rhs with
    | .error err => .error err
    | .ok d => lagrangianSubs es (dupdate acc d)

/-- the constraint loop of `_build_lagrangian` (basic.py:541-549): current Lagrangian, counter `i`, the block's multiplier record -/
def lagrangianLoop (short : Str) (sub : List (Sym × SExpr)) : List (Nat × SEq) → SExpr → Nat → List (Nat × Option TSym) →
    Except BErr (SExpr × List (Nat × Option TSym))
  | [], L, _, ms => .ok (L, ms)
  | (key, c) :: cs, L, i, ms =>
    let term := fun (lm : TSym) => L.sub (.mul (.sym (.tv lm)) ((c.lhs.subsSeq sub).sub (c.rhs.subsSeq sub)))
    match dget ms key with
    | none => .error .keyError
    | some (some lm) => lagrangianLoop short sub cs (term lm) i ms
    | some none =>
      let lm := autoMultiplier short i
      lagrangianLoop short sub cs (term lm) (i + 1) (dset ms i (some lm))

/-- `_build_lagrangian` (basic.py:519-551): the Lagrangian and the updated multiplier record. `constraints` being `None` raises
AttributeError (line 541). -/
def Block.lagrangian (B : Block) : Except BErr (SExpr × List (Nat × Option TSym)) :=
  match B.objective with
  | none => .error .attributeError
  | some [] => .error .valueError
  | some ((okey, obj) :: _) =>
    match dget B.flags okey with
    | none => .error .keyError
    | some f =>
      match lagrangianSubs (dvals B.definitions) [] with
      | .error e => .error e
      | .ok sub =>
        match B.constraints with
        | none => .error .attributeError
        | some cs =>
          match shortName B.name with
          | none => .error .indexError
          | some short =>
            let rhs := obj.rhs.subsSeq sub
            lagrangianLoop short sub cs (if f.minimize then rhs.neg else rhs) 1 B.multipliers

namespace SExpr
/-- summands of a sympy `Add` -/
def summands : SExpr → List SExpr
  | .add a b => a.summands ++ b.summands
  | e => [e]
/-- factors of a sympy `Mul` -/
def factors : SExpr → List SExpr
  | .mul a b => a.factors ++ b.factors
  | e => [e]
/-- `e.args` (sympy) -/
def args : SExpr → List SExpr
  | .add a b => (SExpr.add a b).summands
  | .mul a b => (SExpr.mul a b).factors
  | .pow a b => [a, b]
  | .exp a => [a]
  | .log a => [a]
  | _ => []
end SExpr

/-- `_get_discount_factor` (basic.py:553-601) -/
def discountFactor (obj : SEq) : Except BErr SExpr :=
  if (obj.lhs.tsyms ++ obj.rhs.tsyms).all fun v => v.idx = .t 0 ∨ v.idx = .t (-1) then .ok (.num 1)
  else
    match obj.lhs with
    | .sym (.tv V) =>
      let next : Sym := .tv { V with idx := .t 1 }
      match obj.rhs.args.filter fun x => x.syms.contains next with
      | [] => .error .valueError
      | x :: _ => .ok (x.subs1 next (.num 1))
    | _ => .error .attributeError

/-- what `solve_optimization` leaves behind -/
structure Solved where
  equations : List SExpr
  multipliers : List (Nat × Option TSym)

/-- the equations that do not come from the Lagrangian (basic.py:688-705) -/
def Block.plainEquations (B : Block) : Except BErr (List SExpr) :=
  let sub := defDict (dvals B.definitions)
  let ids := (dvals B.identities).map fun e => (e.subsSeq sub).zero
  match (B.constraints.getD []).mapM fun p => (dget B.flags p.1).map fun f => (f.exclude, p.2) with
  | none => .error .keyError
  | some cs => .ok (ids ++ (cs.filter fun p => !p.1).map fun p => (p.2.subsSeq sub).zero)

/-- `solve_optimization(try_simplify=False)` (basic.py:644-742), without `powsimp` (which does not change values).
A missing `controls` with an objective, and conversely, is rejected by the constructor. -/
def Block.solve (B : Block) : Except BErr Solved :=
  match B.plainEquations with
  | .error e => .error e
  | .ok eqs =>
    match B.objective, B.controls with
    | none, none => .ok ⟨eqs, B.multipliers⟩
    | none, some _ => .error .attributeError
    | some _, none => .error .typeError
    | some [], some _ => .error .indexError
    | some ((okey, obj) :: _), some cs =>
      let sub := defDict (dvals B.definitions)
      let eqs := eqs ++ [(obj.subsSeq sub).zero]
      match discountFactor obj with
      | .error e => .error e
      | .ok df =>
        match B.lagrangian with
        | .error e => .error e
        | .ok (L, ms) =>
          match (B.multipliers.map Prod.snd)[okey]? with
          | none => .error .indexError
          | some (some _) => .error .notImplemented
          | some none =>
            match cs.mapM fun c => (match diffThroughTime L c (.expr df) with | .ok r => some r | .error _ => none) with
            | none => .error .typeError
            | some focs => .ok ⟨eqs ++ focs, ms⟩

/-- `rhs.set_t(t) if isinstance(rhs, TimeAwareSymbol) else rhs` (utilities.py:62) -/
def SExpr.setDate (i : TIdx) : SExpr → SExpr
  | .sym (.tv y) => .sym (.tv { y with idx := i })
  | e => e

/-- `expand_subs_for_all_times` (utilities.py:58-64) -/
def expandSubsAllTimes (d : List (TSym × SExpr)) : List (Sym × SExpr) :=
  d.foldl (fun acc p =>
    [TIdx.t (-1), .t 0, .t 1, .ss].foldl (fun acc t => dset acc (.tv { p.1 with idx := t }) (p.2.setDate t)) acc) []

end GE
