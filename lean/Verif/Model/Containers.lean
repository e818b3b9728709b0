import Verif.Model.Time
/-!
# `gEconpy/classes/containers.py`

A `SymbolDictionary` is a Python object: its items and `is_sympy` flag are its own, but the two metadata
dictionaries `_assumptions` / `_is_variable` are referenced, and `copy` shares the reference.  The model keeps
an explicit heap of metadata cells (both dictionaries always travel together, so one cell holds both).
-/

namespace GE

/-- A dictionary key: `str`, `TimeAwareSymbol` or plain `sp.Symbol`. -/
inductive Key where
  | str (s : Str)
  | var (s : TSym)
  | par (name : Str) (asm : Asm)
  deriving DecidableEq, Repr

/-- `isinstance(key, sp.Symbol)` -/
def Key.isSym : Key → Bool
  | .str _ => false
  | _ => true

/-- The pair of metadata dictionaries (classes/containers.py:114-115). -/
structure Meta where
  asm : List (Str × Asm) := []
  isVar : List (Str × Bool) := []
  deriving DecidableEq, Repr

/-- `symbol_to_string` (classes/containers.py:30-33). -/
def symbolToString : Key → Str
  | .str s => s
  | .var s => safeName s
  | .par n _ => n

/-- `s.split("_")` as (all but last joined by "_", last); `none` for the first component when there is no
underscore, i.e. `*name, last = s.split("_")` with `name == []`
(classes/containers.py:19; `"_".join([]) == ""`). -/
def rsplit : Str → Option Str × Str
  | [] => (none, [])
  | c :: s =>
    match rsplit s with
    | (none, last) => if c = '_' then (some [], last) else (none, c :: last)
    | (some pre, last) => (some (c :: pre), last)

/-- `SAFE_STRING_TO_INDEX_DICT` (classes/containers.py:10). -/
def safeStringToIndex : List (Str × TIdx) :=
  [(['s','s'], .ss), (['t','p','1'], .t 1), (['t','m','1'], .t (-1)), (['t'], .t 0)]

/-- `safe_string_to_sympy` (classes/containers.py:13-27) on a string argument.  `assumptions[name]` on the
non-variable branch raises KeyError on a plain dict without the name; that branch is unreachable from
`string_keys_to_sympy`, the only caller used here; the model uses the `.get(name, {})` default. -/
def safeStringToSympy (s : Str) (asm : List (Str × Asm)) : Key :=
  match rsplit s with
  | (pre, last) =>
    match dget safeStringToIndex last with
    | none => .par s ((dget asm s).getD [])
    | some i =>
      let name := pre.getD []
      .var { base := name, idx := i, asm := (dget asm name).getD [] }

/-- `s.endswith(suffix)` -/
def endsWith (s suffix : Str) : Bool := suffix.isSuffixOf s

/-- `has_time_suffix` (classes/containers.py:37-39). -/
def hasTimeSuffix (s : Str) : Bool :=
  [['_','t'], ['_','t','p','1'], ['_','t','m','1'], ['_','s','s']].any (endsWith s)

/-- one key of `string_keys_to_sympy` (classes/containers.py:45-55): note that `is_variable` is looked up by
the full key string. -/
def keyToSympy (m : Meta) : Key → Key
  | .str s =>
    if (dget m.isVar s).getD true = false ∨ hasTimeSuffix s = false then .par s ((dget m.asm s).getD [])
    else safeStringToSympy s m.asm
  | k => k

section
variable {V : Type}

/-- `string_keys_to_sympy` (classes/containers.py:36-57). -/
def stringKeysToSympy (m : Meta) (d : List (Key × V)) : List (Key × V) :=
  dupdate [] (d.map fun p => (keyToSympy m p.1, p.2))

/-- `sympy_keys_to_strings` (classes/containers.py:60-65). -/
def sympyKeysToStrings (d : List (Key × V)) : List (Key × V) :=
  dupdate [] (d.map fun p => (.str (symbolToString p.1), p.2))

/-- `_save_assumptions` and `_save_is_variable` for one key (classes/containers.py:185-205) in sympy mode. -/
def saveKey (m : Meta) : Key → Meta
  | .var s => { asm := dset m.asm s.base s.asm, isVar := dset m.isVar s.base true }
  | .par n a => { asm := dset m.asm n a, isVar := dset m.isVar n false }
  | .str _ => m

/-- `{**m, **m'}` on both metadata dictionaries -/
def Meta.update (m m' : Meta) : Meta := { asm := dupdate m.asm m'.asm, isVar := dupdate m.isVar m'.isVar }

/-- A `SymbolDictionary` object; `ref` is the address of its metadata cell. -/
structure SDict (V : Type) where
  items : List (Key × V)
  isSympy : Bool
  ref : Nat
  deriving DecidableEq, Repr

/-- A heap of metadata cells. -/
abbrev Heap := List Meta

def Heap.get (h : Heap) (r : Nat) : Meta := (h[r]?).getD {}
def Heap.put (h : Heap) (r : Nat) (m : Meta) : Heap := h.set r m

/-- `SymbolDictionary.__init__` (classes/containers.py:110-130) on a mapping with (unique) keys; non-string,
non-symbol keys are not representable.  Allocates a fresh metadata cell. -/
def SDict.new (h : Heap) (items : List (Key × V)) : Except PyErr (SDict V × Heap) :=
  match items with
  | [] => .ok (⟨[], false, h.length⟩, h ++ [{}])
  | p :: _ =>
    let isSympy := p.1.isSym
    if items.any (fun q => q.1.isSym ≠ isSympy) then .error .keyError
    else if isSympy then
      .ok (⟨items, true, h.length⟩, h ++ [items.foldl (fun m q => saveKey m q.1) {}])
    else .ok (⟨items, false, h.length⟩, h ++ [{}])

/-- `copy` (classes/containers.py:177-183): new items, *shared* metadata (the cell allocated by the
constructor is dropped, so none is modelled).  The constructor it calls raises on mixed keys. -/
def SDict.copy (d : SDict V) : Except PyErr (SDict V) :=
  match d.items with
  | [] => .ok d
  | p :: _ => if d.items.any (fun q => q.1.isSym ≠ p.1.isSym) then .error .keyError else .ok d

/-- `__setitem__` (classes/containers.py:207-217). -/
def SDict.setItem (h : Heap) (d : SDict V) (k : Key) (v : V) : Except PyErr (SDict V × Heap) :=
  let d := if d.items.isEmpty then { d with isSympy := k.isSym } else d
  if d.isSympy ≠ k.isSym then .error .keyError
  else
    let h := if d.isSympy then h.put d.ref (saveKey (h.get d.ref) k) else h
    .ok ({ d with items := dset d.items k v }, h)

/-- `update` with another `SymbolDictionary` (classes/containers.py:237-242). -/
def SDict.updateDict (h : Heap) (d o : SDict V) : SDict V × Heap :=
  let items := dupdate d.items o.items
  let h := h.put d.ref ((h.get d.ref).update (h.get o.ref))
  let mode := if items.length = o.items.length ∨ d.isSympy = false then o.isSympy else d.isSympy
  ({ d with items := items, isSympy := mode }, h)

/-- `update` with a plain dict (classes/containers.py:243-244): no mode check at all. -/
def SDict.updatePlain (d : SDict V) (o : List (Key × V)) : SDict V := { d with items := dupdate d.items o }

/-- `_clean_update` (classes/containers.py:219-224): clears the (possibly shared) metadata cell in place. -/
def SDict.cleanUpdate (h : Heap) (d o : SDict V) : SDict V × Heap :=
  let h' := h.put d.ref {}
  SDict.updateDict h' { d with items := [] } o

/-- `__or__` with a `SymbolDictionary` (classes/containers.py:143-175). -/
def SDict.or (h : Heap) (d o : SDict V) : Except PyErr (SDict V × Heap) := do
  let c ← d.copy
  if c.items.isEmpty then
    let oc ← o.copy
    .ok (oc, h.put oc.ref ((h.get oc.ref).update (h.get d.ref)))
  else if o.items.isEmpty then
    -- line 159-160: `_assumptions.update(other._assumptions)` but `_is_variable.update(self._is_variable)`
    let m := h.get c.ref
    .ok (c, h.put c.ref { asm := dupdate m.asm (h.get o.ref).asm, isVar := dupdate m.isVar (h.get d.ref).isVar })
  else if o.isSympy ≠ d.isSympy then .error .valueError
  else
    let (c, h) := SDict.updateDict h c o
    .ok (c, h.put c.ref ((h.get c.ref).update (h.get o.ref)))

/-- `to_sympy()` (classes/containers.py:249-259, 265), not in place, without extra metadata. -/
def SDict.toSympy (h : Heap) (d : SDict V) : Except PyErr (SDict V × Heap) :=
  SDict.new h (stringKeysToSympy (h.get d.ref) d.items)

/-- `to_sympy(inplace=True)` (classes/containers.py:261-263). -/
def SDict.toSympyInplace (h : Heap) (d : SDict V) : Except PyErr (SDict V × Heap) := do
  let (s, h) ← SDict.toSympy h d
  return SDict.cleanUpdate h d s

/-- `to_string()` (classes/containers.py:310-320), not in place: metadata is copied to a fresh cell. -/
def SDict.toStr (h : Heap) (d : SDict V) : Except PyErr (SDict V × Heap) := do
  let c ← d.copy
  let (s, h) ← SDict.new h (sympyKeysToStrings c.items)
  return (s, h.put s.ref (h.get c.ref))

/-- `to_string(inplace=True)` (classes/containers.py:316-318). -/
def SDict.toStrInplace (h : Heap) (d : SDict V) : Except PyErr (SDict V × Heap) := do
  let (s, h) ← SDict.toStr h d
  return SDict.cleanUpdate h d s

/-- the three time-moving methods looked up by name (classes/containers.py:267, 275) -/
inductive StepFn where
  | forward | backward | ss
  deriving DecidableEq, Repr

/-- `getattr(k, func_name)()` or `k` when the key has no such method (classes/containers.py:275-278). -/
def stepKey (f : StepFn) : Key → Except PyErr Key
  | .var s =>
    match f with
    | .forward => (stepForward s).map .var
    | .backward => (stepBackward s).map .var
    | .ss => .ok (.var (toSS s))
  | k => .ok k

/-- the loop of `_step_dict_keys` (classes/containers.py:273-278) -/
def stepItems (f : StepFn) : List (Key × V) → List (Key × V) → Except PyErr (List (Key × V))
  | acc, [] => .ok acc
  | acc, (k, v) :: rest => do
    let k' ← stepKey f k
    stepItems f (dset acc k' v) rest

/-- `_step_dict_keys` (classes/containers.py:267-284). In string mode the *copy* is converted in place,
which clears the metadata cell it shares with `self`. -/
def SDict.stepKeys (h : Heap) (d : SDict V) (f : StepFn) : Except PyErr (SDict V × Heap) := do
  let c ← d.copy
  let (c, h) ← if d.isSympy then pure (c, h) else SDict.toSympyInplace h c
  let its ← stepItems f [] c.items
  let (r, h) ← SDict.new h its
  if d.isSympy then return (r, h) else SDict.toStrInplace h r

end

end GE
