import Verif.Model.Loader
/-!
# Small pieces of the parser: name suggestions, the assumptions block, numbers inside prior declarations

`gEconpy/parser/suggestions.py`, `gEconpy/parser/grammar/special_blocks.py`, `gEconpy/parser/grammar/statements.py:305-346`
-/

namespace GE

/-- `s.lower()`, ASCII letters -/
def lowerStr (s : Str) : Str := s.map Char.toLower

/-- the sort key of suggestions.py:77, `(-ratio, candidate)`: the larger ratio first, ties alphabetically -/
def scoreLe (a b : Rat × Str) : Bool := if a.1 = b.1 then strLe a.2 b.2 else decide (b.1 < a.1)

/-- `find_similar_names` (suggestions.py:35-79). `ratio` is `SequenceMatcher(None, a, b).ratio()` (suggestions.py:25-32), a standard
library function left arbitrary here; floats are rationals. -/
def findSimilar (ratio : Str → Str → Rat) (name : Str) (candidates : List Str) (maxResults : Nat) (minSim : Rat) : List Str :=
  if candidates.any fun c => lowerStr c = lowerStr name then []
  else
    let scored := (candidates.map fun c => (ratio (lowerStr name) (lowerStr c), c)).filter fun p => minSim ≤ p.1
    ((sortBy scoreLe scored).take maxResults).map Prod.snd

/-- `DEFAULT_ASSUMPTIONS` of the parser (parser/constants.py:75) -/
def parserDefaults : Asm := [(['r','e','a','l'], true)]

/-- `"unit_interval"` -/
def unitInterval : Str := ['u','n','i','t','_','i','n','t','e','r','v','a','l']

/-- `"positive"` -/
def positiveStr : Str := ['p','o','s','i','t','i','v','e']

/-- one item of a sub-block (special_blocks.py:93-100): the `defaultdict` access creates the entry -/
def addAssumption (name v : Str) (d : List (Str × Asm)) : List (Str × Asm) :=
  let a := dset ((dget d v).getD parserDefaults) name true
  dset d v (if name = unitInterval then dset a positiveStr true else a)

/-- `_build_assumptions` (special_blocks.py:88-102): `(assumption, items)` per sub-block, the items already reduced to their names -/
def buildAssumptions (subblocks : List (Str × List Str)) : List (Str × Asm) :=
  subblocks.foldl (fun d b => b.2.foldl (fun d v => addAssumption (lowerStr b.1) v d) d) []

/-- the operators of a number expression -/
inductive NOp | add | sub | mul | div
deriving DecidableEq, Repr

/-- the operator as a token -/
def NOp.tok : NOp → Str
  | .add => ['+'] | .sub => ['-'] | .mul => ['*'] | .div => ['/']

/-- what the grammar hands to `_evaluate_number_expr`: `None`, a string, a number or a (nested) list -/
inductive NTree | none | str (s : Str) | num (q : Rat) | list (l : List NTree)

/-- the errors `_evaluate_number_expr` may raise -/
inductive NErr | typeError | indexError | zeroDivision
deriving DecidableEq, Repr

/-- the result: `None`, a string passed through, or a float -/
inductive NVal | none | str (s : Str) | num (q : Rat)
deriving DecidableEq, Repr

/-- `float(x)` for an element of the list; strings in operand position do not come out of the grammar, they are errors here -/
def NTree.toFloat : NTree → Except NErr Rat
  | .num q => .ok q
  | _ => .error .typeError

/-- one turn of the loop (statements.py:321-332): an operator that is none of the four leaves the result unchanged -/
def applyOp (op : NTree) (r v : Rat) : Except NErr Rat :=
  match op with
  | .str s =>
    if s = ['+'] then .ok (r + v) else if s = ['-'] then .ok (r - v) else if s = ['*'] then .ok (r * v)
    else if s = ['/'] then (if v = 0 then .error .zeroDivision else .ok (r / v)) else .ok r
  | _ => .ok r

/-- the loop over `(operator, operand)` pairs (statements.py:320-333) -/
def foldOps : List NTree → Rat → Except NErr Rat
  | [], r => .ok r
  | [_], _ => .error .indexError
  | op :: x :: l, r => do
    let v ← x.toFloat
    let r' ← applyOp op r v
    foldOps l r'

/-- `_evaluate_number_expr` (statements.py:305-334). A one-element list is the value of its element (lines 315-318). -/
def evalNumber : NTree → Except NErr NVal
  | .none => .ok .none
  | .num q => .ok (.num q)
  | .str s => .ok (.str s)
  | .list [] => .error .indexError
  | .list [x] => evalNumber x
  | .list (x :: y :: l) => do
    let v ← x.toFloat
    let r ← foldOps (y :: l) v
    pure (.num r)

mutual
/-- an operand of a number expression as the user writes it -/
inductive NAtom | num (q : Rat) | paren (c : NChain)
/-- operands joined by operators, as the user writes them, from left to right -/
inductive NChain | one (a : NAtom) | snoc (c : NChain) (op : NOp) (a : NAtom)
end

/-- cut `first, (op, operand)…` at every occurrence of `o`: the piece before the first cut and the pieces after each cut -/
def splitChain (o : NOp) : NTree → List (NOp × NTree) → (NTree × List (NOp × NTree)) × List (NTree × List (NOp × NTree))
  | f, [] => ((f, []), [])
  | f, (p, t) :: rest =>
    if p = o then ((f, []), (splitChain o t rest).1 :: (splitChain o t rest).2)
    else ((f, (p, t) :: (splitChain o t rest).1.2), (splitChain o t rest).2)

/-- `pp.infix_notation` with left-associative binary levels (statements.py:338-346), loosest level first: a level with at least one
operator becomes a flat list, otherwise it is what the next tighter level gives -/
def buildLevels : List NOp → NTree → List (NOp × NTree) → NTree
  | [], f, _ => f
  | o :: os, f, rest =>
    let s := splitChain o f rest
    if s.2.isEmpty then buildLevels os f rest
    else .list (buildLevels os s.1.1 s.1.2 :: s.2.flatMap fun p => [.str o.tok, buildLevels os p.1 p.2])

/-- the levels of statements.py:340-345, loosest first: `-`, `+`, `*`, `/` (the grammar lists the tightest first) -/
def numLevels : List NOp := [.sub, .add, .mul, .div]

mutual
/-- the tree the grammar builds for an operand; parentheses are suppressed -/
def NAtom.tree : NAtom → NTree
  | .num q => .num q
  | .paren c => buildLevels numLevels c.flat.1 c.flat.2
/-- the operands (already trees) and operators of a chain -/
def NChain.flat : NChain → NTree × List (NOp × NTree)
  | .one a => (a.tree, [])
  | .snoc c op a => (c.flat.1, c.flat.2 ++ [(op, a.tree)])
end

/-- the tree handed to `_evaluate_number_expr` for a written expression -/
def NChain.tree (c : NChain) : NTree := buildLevels numLevels c.flat.1 c.flat.2

end GE
