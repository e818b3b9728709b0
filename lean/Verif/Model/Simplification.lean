import Verif.Model.SimplifyBlock
import Verif.Model.Loader
/-! # `gEconpy/model/simplification.py` and `gEconpy/model/timing.py` -/

namespace GE

/-! ## simplification.py -/

/-- `make_all_var_time_combos([var])` (utilities.py:177-182): the variable at the dates -1, 0, 1 and in the steady state -/
def timeCombos (v : TSym) : List TSym := [TIdx.t (-1), .t 0, .t 1, .ss].map fun i => { v with idx := i }

/-- the equation mentions the variable at one of these dates (simplification.py:84-88, 108-110) -/
def mentions (e : SExpr) (v : TSym) : Bool := (timeCombos v).any fun s => e.tsyms.contains s

/-- `reduce_variable_list` (simplification.py:27-35). A symbol's `set_t(0)` is `TSym.now`. -/
def reduceVariableList (eqs : List SExpr) (vars : List TSym) : List TSym × List TSym :=
  let reduced := sortByName (((eqs.flatMap SExpr.tsyms).map TSym.now).filter fun x => x ∈ vars)
  (reduced, sortByName (vars.filter fun x => x ∉ reduced))

/-- the variables of `occurrence_matrix` columns with sum one (simplification.py:78-92); the variables of a model are pairwise distinct
and dated zero, so that the columns of `combo_to_col` do not collide -/
def isolatedVars (eqs : List SExpr) (vars : List TSym) : List TSym :=
  vars.filter fun v => (eqs.filter fun e => mentions e v).length = 1

/-- one turn of the substitution loop (simplification.py:99-111). `simp` is sympy's evaluation and `simplify`. -/
def tryreduceStep (simp : SExpr → SExpr) (sub : List (Sym × SExpr)) (eqs : List SExpr) (x : TSym) : List SExpr :=
  match dget sub (.tv x) with
  | none => eqs
  | some rhs =>
    let cand := eqs.map fun e => simp (e.subs1 (.tv x) rhs)
    if (cand.filter fun e => e = .num 0).length = 1 ∧ ¬ cand.any fun e => mentions e x then cand.filter fun e => e ≠ .num 0
    else eqs

/-- the equations kept by the first reduction (simplification.py:93-95): `var in eq.atoms()` looks at the variable's own date only -/
def dropIsolated (tr : List TSym) (eqs : List SExpr) (vars : List TSym) : List SExpr :=
  eqs.filter fun e => ¬ ((isolatedVars eqs vars).filter fun v => v ∈ tr).any fun v => e.tsyms.contains v

/-- `simplify_tryreduce` (simplification.py:38-114); the last component tells whether the warning of lines 16-22 was given -/
def simplifyTryreduce (simp : SExpr → SExpr) (tr : List TSym) (eqs : List SExpr) (vars : List TSym) (sub : List (Sym × SExpr)) :
    List SExpr × List TSym × List TSym × Bool :=
  if eqs.length ≠ vars.length then (eqs, vars, [], true)
  else
    let reduced := tr.foldl (tryreduceStep simp sub) (dropIsolated tr eqs vars)
    let vs := reduceVariableList reduced vars
    (reduced, vs.1, vs.2, false)

/-- one turn of the loop of `simplify_constants` (simplification.py:153-160): the entry added, if any; `none` is the IndexError of an
unsolvable equation -/
def constantEntry (solve : Solver) (e : SExpr) : Option (Option (TSym × SExpr)) :=
  if e.atoms.eraseDups.length ≤ 3 then
    match e.tsyms.eraseDups with
    | [x] =>
      match solve e x with
      | some rhs => some (some (x, rhs))
      | none => none
    | _ => some none
  else some none

/-- the loop of `simplify_constants` (simplification.py:151-160): `reduce_dict` -/
def constantDict (solve : Solver) : List SExpr → List (Sym × SExpr) → Option (List (Sym × SExpr))
  | [], d => some d
  | e :: es, d =>
    match constantEntry solve e with
    | none => none
    | some none => constantDict solve es d
    | some (some p) => constantDict solve es (dupdate d (expandSubsAllTimes [p]))

/-- `simplify_constants` (simplification.py:117-167); `norm`: sympy's automatic evaluation after a substitution. `none`: IndexError. -/
def simplifyConstants (solve : Solver) (norm : SExpr → SExpr) (eqs : List SExpr) (vars : List TSym) :
    Option (List SExpr × List TSym × List TSym × Bool) :=
  if eqs.length ≠ vars.length then some (eqs, vars, [], true)
  else
    match constantDict solve eqs [] with
    | none => none
    | some d =>
      let reduced := (eqs.map fun e => norm (e.subsSeq d)).filter fun e => e ≠ .num 0
      let vs := reduceVariableList reduced vars
      some (reduced, vs.1, vs.2, false)

/-- the left-hand side is a symbol: `sub_dict[eq.lhs] = eq.rhs` (build.py:84-93); other left-hand sides are never looked up -/
def blockSubDict (blocks : List Block) : List (Sym × SExpr) :=
  defDict (blocks.flatMap fun b => dvals b.identities ++ dvals b.objective ++ dvals b.constraints)

/-! ## timing.py -/

/-- a piece of a name: text or a run of digits -/
inductive NPart where
  | txt (s : Str)
  | dig (s : Str)
  deriving DecidableEq, Repr

/-- `re.split(r"(\d+)", name)` (timing.py:25), ASCII digits: text and digit runs alternate, starting and ending with (possibly empty)
text -/
def splitDigits : Str → List NPart
  | [] => [.txt []]
  | c :: s =>
    if c.isDigit then
      match splitDigits s with
      | .txt [] :: .dig ds :: k => .txt [] :: .dig (c :: ds) :: k
      | k => .txt [] :: .dig [c] :: k
    else
      match splitDigits s with
      | .txt w :: k => .txt (c :: w) :: k
      | k => .txt [c] :: k

/-- `int(digits)` -/
def digitsVal (ds : Str) : Nat := ds.foldl (fun n c => 10 * n + (c.toNat - '0'.toNat)) 0

/-- `a < b` for Python lists of strings and ints; `none` is the TypeError of comparing a string with an int -/
def partsLt : List NPart → List NPart → Option Bool
  | [], [] => some false
  | [], _ :: _ => some true
  | _ :: _, [] => some false
  | .txt a :: p, .txt b :: q => if a = b then partsLt p q else some (strLe a b)
  | .dig a :: p, .dig b :: q => if digitsVal a = digitsVal b then partsLt p q else some (decide (digitsVal a < digitsVal b))
  | _ :: _, _ :: _ => none

/-- `natural_sort_key(a) < natural_sort_key(b)` (timing.py:10-25) -/
def naturalLt (a b : Str) : Option Bool := partsLt (splitDigits a) (splitDigits b)

/-- `sorted(xs, key=natural_sort_key)`: Python's `sorted` is stable and asks only for `<` -/
def naturalSort (xs : List TSym) : List TSym := sortBy (fun a b => naturalLt b.base a.base ≠ some true) xs

/-- `x.time_index in {-1, 0, 1}` (timing.py:73-74) -/
def validTime (x : TSym) : Bool := x.idx = .t (-1) ∨ x.idx = .t 0 ∨ x.idx = .t 1

/-- `vars_at_time` (timing.py:82-90); `atoms` is the set of atoms in the (arbitrary) order Python iterates it -/
def varsAtTime (atoms : List TSym) (shockNames : List Str) (t : Int) : List TSym :=
  let byTime := dupdate [] ((atoms.filter fun x => x.base ∉ shockNames).map fun x => ((x.base, x.idx), x))
  naturalSort ((byTime.filter fun p => p.1.2 = .t t).map Prod.snd)

/-- the result of `classify_variables_by_timing` -/
structure Timing where
  lags : List TSym
  now : List TSym
  leads : List TSym
  shocks : List TSym
  deriving DecidableEq, Repr

/-- `classify_variables_by_timing` (timing.py:43-93) of the atoms (any order); the error carries the symbols named in the message -/
def classifyTiming (atoms : List TSym) (shockNames : List Str) : Except (List TSym) Timing :=
  let invalid := atoms.filter fun x => ¬ validTime x
  if invalid ≠ [] then .error (naturalSort invalid)
  else .ok
    { lags := varsAtTime atoms shockNames (-1)
      now := varsAtTime atoms shockNames 0
      leads := varsAtTime atoms shockNames 1
      shocks := naturalSort (atoms.filter fun x => x.base ∈ shockNames) }

/-- `make_all_variable_time_combinations` (timing.py:96-122): lags, current, leads; `dict.fromkeys` keeps first occurrences -/
def allTimeCombinations (vars : List TSym) : List TSym × List TSym × List TSym :=
  let now := (vars.map TSym.now).eraseDups
  (now.map fun x => { x with idx := .t (-1) }, now, now.map fun x => { x with idx := .t 1 })

end GE
