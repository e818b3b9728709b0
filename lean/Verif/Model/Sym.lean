import Verif.Model.Time
/-!
# `gEconpy/utilities.py`: symbolic equations

sympy expressions are trees (`SExpr`); sympy's automatic canonicalisation and simplification are not modelled (they do not
change values). A sympy `Add`/`Mul` with several arguments is a nest of binary ones, `a - b` is `a + (-1)*b`, `a / b` is
`a * b**(-1)`, as in sympy.
-/

namespace GE

/-- a sympy symbol: a `TimeAwareSymbol` or a plain `Symbol` (parameter) -/
inductive Sym where
  | tv (s : TSym)
  | par (n : Str)
  deriving DecidableEq, Repr

/-- sympy expressions built by gEconpy (the model covers `+ * ** exp log`) -/
inductive SExpr where
  | num (q : Rat)
  | sym (s : Sym)
  | add (a b : SExpr)
  | mul (a b : SExpr)
  | pow (a b : SExpr)
  | exp (a : SExpr)
  | log (a : SExpr)
  deriving DecidableEq, Repr

namespace SExpr

/-- `a - b`, as sympy builds it -/
def sub (a b : SExpr) : SExpr := .add a (.mul (.num (-1)) b)
/-- `a / b`, as sympy builds it -/
def div (a b : SExpr) : SExpr := .mul a (.pow b (.num (-1)))
/-- `-a`, as sympy builds it -/
def neg (a : SExpr) : SExpr := .mul (.num (-1)) a

/-- `eq.free_symbols` / the symbols among `eq.atoms()` (sympy), as a list with repetitions -/
def syms : SExpr → List Sym
  | .num _ => []
  | .sym s => [s]
  | .add a b => a.syms ++ b.syms
  | .mul a b => a.syms ++ b.syms
  | .pow a b => a.syms ++ b.syms
  | .exp a => a.syms
  | .log a => a.syms

/-- the `TimeAwareSymbol`s among `eq.atoms()` (utilities.py:45, 68, 77, 108) -/
def tsyms (e : SExpr) : List TSym := e.syms.filterMap fun | .tv s => some s | .par _ => none

/-- simultaneous replacement of symbols -/
def replace (f : Sym → SExpr) : SExpr → SExpr
  | .num q => .num q
  | .sym s => f s
  | .add a b => .add (a.replace f) (b.replace f)
  | .mul a b => .mul (a.replace f) (b.replace f)
  | .pow a b => .pow (a.replace f) (b.replace f)
  | .exp a => .exp (a.replace f)
  | .log a => .log (a.replace f)

/-- `eq.subs({v: w})` (sympy) for one symbol -/
def subs1 (e : SExpr) (v : Sym) (w : SExpr) : SExpr := e.replace fun s => if s = v then w else .sym s

/-- `eq.subs(d)` (sympy) for a dictionary: the entries are substituted one after the other (sympy chooses the order; here the
order of the list, and the theorems quantify over it). -/
def subsSeq (e : SExpr) (d : List (Sym × SExpr)) : SExpr := d.foldl (fun e p => e.subs1 p.1 p.2) e

/-- `eq.diff(x)` (sympy): sum, product, power (`Pow._eval_derivative`), exponential and logarithm rules. -/
def diff (x : Sym) : SExpr → SExpr
  | .num _ => .num 0
  | .sym s => if s = x then .num 1 else .num 0
  | .add a b => .add (a.diff x) (b.diff x)
  | .mul a b => .add (.mul (a.diff x) b) (.mul a (b.diff x))
  | .pow a b => .mul (.pow a b) (.add (.mul (b.diff x) (.log a)) (.mul (a.diff x) (div b a)))
  | .exp a => .mul (.exp a) (a.diff x)
  | .log a => div (a.diff x) a

end SExpr

/-- insertion into a sorted list, before equal elements -/
def insertBy {α : Type} (le : α → α → Bool) (a : α) : List α → List α
  | [] => [a]
  | b :: l => if le a b then a :: b :: l else b :: insertBy le a l

/-- Python's `sorted` (stable); `le a b`: `key(a) <= key(b)` -/
def sortBy {α : Type} (le : α → α → Bool) (l : List α) : List α := l.foldr (insertBy le) []

/-- `a` may come before `b` in `sorted(to_step, key=time_index, reverse=True)` (utilities.py:70). With a steady-state symbol
the call raises TypeError whatever the order. -/
def descT (a b : TSym) : Bool :=
  match a.idx, b.idx with
  | .t i, .t j => j ≤ i
  | .ss, _ => true
  | .t _, .ss => false
/-- `a` may come before `b` in `sorted(to_step, key=time_index)` (utilities.py:79) -/
def ascT (a b : TSym) : Bool :=
  match a.idx, b.idx with
  | .t i, .t j => i ≤ j
  | .ss, _ => true
  | .t _, .ss => false

/-- the loop of `step_equation_forward` (utilities.py:70-71) over the sorted list `order`. A steady-state symbol makes
`step_forward` (or already the sort) raise TypeError. -/
def stepFwdIn (order : List TSym) (e : SExpr) : Except PyErr SExpr :=
  order.foldlM (fun e v => do
    let w ← stepForward v
    pure (e.subs1 (.tv v) (.sym (.tv w)))) e

/-- the loop of `step_equation_backward` (utilities.py:79-80) -/
def stepBwdIn (order : List TSym) (e : SExpr) : Except PyErr SExpr :=
  order.foldlM (fun e v => do
    let w ← stepBackward v
    pure (e.subs1 (.tv v) (.sym (.tv w)))) e

/-- `step_equation_forward` (utilities.py:67-73), with one particular order of the symbols of equal date (the order
of a Python `set` is arbitrary; the theorems about `stepFwdIn` cover every order). -/
def stepFwd (e : SExpr) : Except PyErr SExpr := stepFwdIn (sortBy descT e.tsyms.eraseDups) e

/-- `step_equation_backward` (utilities.py:76-82) -/
def stepBwd (e : SExpr) : Except PyErr SExpr := stepBwdIn (sortBy ascT e.tsyms.eraseDups) e

/-- `eq_to_ss` (utilities.py:42-48); `order` is the list of the time-aware atoms in the order sympy substitutes them. -/
def eqToSSIn (order : List TSym) (shocks : List TSym) (e : SExpr) : SExpr :=
  (e.subsSeq (order.map fun v => (.tv v, .sym (.tv (toSS v))))).subsSeq
    (shocks.map fun x => (.tv (toSS x), .num 0))

/-- the `discount_factor` argument: a sympy expression, or a Python int such as the default `1`
(utilities.py:85), which has no `.atoms()`. -/
inductive Disc where
  | expr (e : SExpr)
  | pyInt (k : Int)

/-- errors of `diff_through_time` -/
inductive DErr where
  | typeError | attributeError
  deriving DecidableEq

/-- `step_equation_forward(eq) * discount_factor` (utilities.py:116) -/
def Disc.times (e : SExpr) : Disc → SExpr
  | .expr b => .mul e b
  | .pyInt k => .mul e (.num k)

/-- `step_equation_forward(discount_factor)` (utilities.py:117): an `int` has no attribute `atoms`. -/
def Disc.step : Disc → Except DErr Disc
  | .expr b => match stepFwd b with
    | .ok b' => .ok (.expr b')
    | .error _ => .error .typeError
  | .pyInt _ => .error .attributeError

/-- the loop of `diff_through_time` (utilities.py:113-118), `n` iterations left -/
def dttLoop (x : TSym) : Nat → SExpr → Disc → SExpr → Except DErr SExpr
  | 0, _, _, total => .ok total
  | n + 1, e, b, total =>
    let total := .add total (e.diff (.tv x))
    match stepFwd e with
    | .error _ => .error .typeError
    | .ok e' =>
      match b.step with
      | .error err => .error err
      | .ok b' => dttLoop x n (b.times e') b' total

/-- the dates of `base` in the equation (utilities.py:108) -/
def timesOf (base : Str) (e : SExpr) : List TIdx := (e.tsyms.filter fun s => s.base = base).map TSym.idx

/-- `min(times)` for integer dates; `none` when a steady-state index is present (the comparison or the subtraction of
line 111 then raises TypeError). -/
def minTime : List TIdx → Option Int
  | [] => none
  | [.t k] => some k
  | .ss :: _ => none
  | .t k :: ts => (minTime ts).map (min k)

/-- `diff_through_time` (utilities.py:85-118) -/
def diffThroughTime (e : SExpr) (x : TSym) (b : Disc) : Except DErr SExpr :=
  match timesOf x.base e with
  | [] => .ok (.num 0)
  | ts =>
    match x.idx, minTime ts with
    | .t k, some m => dttLoop x ((max 0 (k - m)).toNat + 1) e b (.num 0)
    | _, _ => .error .typeError

/-- `flatten_substitution_dict` state: the resolved entries and the keys being resolved (utilities.py:300-301) -/
structure FlatSt where
  flat : List (Sym × SExpr) := []
  visiting : List Sym := []

/-- `deps[key]` (utilities.py:292-298): the other keys occurring in the value -/
def flatDeps (d : List (Sym × SExpr)) (key : Sym) : List Sym :=
  match dget d key with
  | some v => (v.syms.eraseDups).filter fun s => s ∈ dkeys d ∧ s ≠ key
  | none => []

/-- the loop over `deps[key]` (utilities.py:311-312), with `r` for the call of `resolve` -/
def resolveLoop (r : Sym → FlatSt → Option (Option FlatSt)) : List Sym → FlatSt → Option (Option FlatSt)
  | [], st => some (some st)
  | k :: ks, st =>
    match r k st with
    | some (some st') => resolveLoop r ks st'
    | other => other

/-- `resolve(key)` (utilities.py:303-318). Fuel: the recursion is bounded by the number of keys (`visiting` grows);
running out of fuel is a separate outcome which is shown not to occur. `none` is the ValueError. -/
def resolve (d : List (Sym × SExpr)) : Nat → Sym → FlatSt → Option (Option FlatSt)
  | 0, _, _ => none
  | f + 1, key, st =>
    if key ∈ dkeys st.flat then some (some st)
    else if key ∈ st.visiting then some none
    else
      match resolveLoop (resolve d f) (flatDeps d key) { st with visiting := key :: st.visiting } with
      | some (some st') =>
        let value := ((dget d key).getD (.num 0)).subsSeq
          ((flatDeps d key).map fun k => (k, (dget st'.flat k).getD (.sym k)))
        some (some { flat := dset st'.flat key value, visiting := st'.visiting.erase key })
      | other => other

/-- `flatten_substitution_dict` (utilities.py:265-323): `none` is the ValueError "Cycle detected". -/
def flattenSubs (d : List (Sym × SExpr)) : Option (Option (List (Sym × SExpr))) :=
  (resolveLoop (resolve d (d.length + 1)) (dkeys d) {}).map (Option.map FlatSt.flat)

end GE
