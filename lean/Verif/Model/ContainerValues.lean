import Verif.Model.Containers
import Verif.Model.Validate
import Verif.Model.Sym
/-!
# `gEconpy/classes/containers.py`: numeric values, sorting, pickling and the `SteadyStateResults` subclass

The dictionary object itself, its shared metadata cell, `copy`, `to_string` and `to_sympy` are those of `Model/Containers.lean`.
-/

namespace GE

/-- The values a dictionary holds, as `isinstance` tells them apart (classes/containers.py:70-83).  `F` are Python floats, `N` the instances of
`sympy.core.Number` (Integer, Rational, Float).  `other` is everything else: symbols and expressions, the constants `pi` and `E` (a
`NumberSymbol`, which is not a `Number`), arrays, `None`. -/
inductive PVal (F N : Type) where
  | flt (x : F)
  | int (n : Int)
  | cpx (re im : F)
  | num (q : N)
  | cc (re im : F)
  | other (tag : Nat)
  deriving DecidableEq, Repr

/-- `float(q)` for a sympy number, `sp.Float(x)` for a Python float, `sp.Float(n)` for a Python int.  `complex(sp.CC(z))` is `z` and is modelled
as such: both hold two machine floats. Python's `bool`, a subclass of `int`, is not modelled as a value. -/
structure NumOps (F N : Type) where
  toFloat : N → F
  ofFloat : F → N
  ofInt : Int → N

section
variable {F N V : Type}

/-- the body of `sympy_number_values_to_floats` (classes/containers.py:70-73): the value to store, `none` when neither branch is taken -/
def floatBranch (ops : NumOps F N) : PVal F N → Option (PVal F N)
  | .num q => some (.flt (ops.toFloat q))
  | .cc a b => some (.cpx a b)
  | _ => none

/-- the body of `float_values_to_sympy_float` (classes/containers.py:79-82) -/
def sympyBranch (ops : NumOps F N) : PVal F N → Option (PVal F N)
  | .flt x => some (.num (ops.ofFloat x))
  | .int n => some (.num (ops.ofInt n))
  | .cpx a b => some (.cc a b)
  | _ => none

/-- `for var, value in d.items(): … d[var] = …` (classes/containers.py:68-84) on a `SymbolDictionary`: the assignment is its `__setitem__`.
Only existing keys are assigned, so iterating over the live dictionary visits the entries it had at the start. -/
def valuesLoop (f : V → Option V) (h : Heap) (d : SDict V) : List (Key × V) → Except PyErr (SDict V × Heap)
  | [] => .ok (d, h)
  | (k, v) :: rest =>
    match f v with
    | none => valuesLoop f h d rest
    | some v' =>
      match d.setItem h k v' with
      | .error e => .error e
      | .ok (d, h) => valuesLoop f h d rest

/-- the common body of `values_to_float()` and `float_to_values()` (classes/containers.py:338-341, 350-353): the *copy*, which still shares the
receiver's metadata, is converted; then it gets its own copy of that metadata. -/
def SDict.mapValues (f : V → Option V) (h : Heap) (d : SDict V) : Except PyErr (SDict V × Heap) :=
  match d.copy with
  | .error e => .error e
  | .ok c =>
    match valuesLoop f h c c.items with
    | .error e => .error e
    | .ok (c, h) => .ok ({ c with ref := h.length }, h ++ [h.get d.ref])

/-- `values_to_float()` (classes/containers.py:337-347), not in place -/
def SDict.valuesToFloat (ops : NumOps F N) (h : Heap) (d : SDict (PVal F N)) : Except PyErr (SDict (PVal F N) × Heap) :=
  d.mapValues (floatBranch ops) h

/-- `float_to_values()` (classes/containers.py:349-359), not in place -/
def SDict.floatToValues (ops : NumOps F N) (h : Heap) (d : SDict (PVal F N)) : Except PyErr (SDict (PVal F N) × Heap) :=
  d.mapValues (sympyBranch ops) h

/-- `values_to_float(inplace=True)` (classes/containers.py:343-345) -/
def SDict.valuesToFloatInplace (ops : NumOps F N) (h : Heap) (d : SDict (PVal F N)) : Except PyErr (SDict (PVal F N) × Heap) :=
  match d.valuesToFloat ops h with
  | .error e => .error e
  | .ok (r, h) => .ok (d.cleanUpdate h r)

/-- `sort_dictionary` (classes/containers.py:87-93) on string keys; `sorted` of strings is by code point -/
def sortDictionary (d : List (Key × V)) : List (Key × V) :=
  sortBy (fun a b => strLe (symbolToString a.1) (symbolToString b.1)) d

/-- `sort_keys()` (classes/containers.py:322-335), not in place.  Both metadata dictionaries are copied into the cell of the new dictionary. -/
def SDict.sortKeys (h : Heap) (d : SDict V) : Except PyErr (SDict V × Heap) := do
  let c ← d.copy
  let (s, h) ← SDict.toStr h c
  let (r, h) ← SDict.new h (sortDictionary s.items)
  let h := h.put r.ref (h.get d.ref)
  if d.isSympy then SDict.toSympy h r else return (r, h)

/-- `sort_keys(inplace=True)` (classes/containers.py:331-333) -/
def SDict.sortKeysInplace (h : Heap) (d : SDict V) : Except PyErr (SDict V × Heap) := do
  let (r, h) ← SDict.sortKeys h d
  return SDict.cleanUpdate h d r

/-- the two dictionary classes (classes/containers.py:109, 362) -/
inductive SDClass where
  | symbolDictionary | steadyStateResults
  deriving DecidableEq, Repr

/-- A dictionary with its class and the attributes in its `__dict__` besides `is_sympy`, `_assumptions` and `_is_variable`: in the library, the
`success` flag of a steady state (classes/containers.py:364, model/model.py:847). -/
structure SDObj (V A : Type) where
  cls : SDClass
  dict : SDict V
  attrs : List (Str × A)
  deriving Repr

/-- what `__reduce__` hands to the pickler (classes/containers.py:138-141), every component by value -/
structure Pickled (V A : Type) where
  cls : SDClass
  items : List (Key × V)
  isSympy : Bool
  md : Meta
  extra : List (Str × A)

/-- `base_attrs` (classes/containers.py:136) -/
def baseAttrs : List Str :=
  [['i','s','_','s','y','m','p','y'], ['_','a','s','s','u','m','p','t','i','o','n','s'], ['_','i','s','_','v','a','r','i','a','b','l','e']]

/-- `__reduce__` (classes/containers.py:132-141) followed by serialization -/
def SDObj.reduce {A : Type} (h : Heap) (o : SDObj V A) : Pickled V A :=
  ⟨o.cls, o.dict.items, o.dict.isSympy, h.get o.dict.ref, o.attrs.filter fun p => p.1 ∉ baseAttrs⟩

/-- `_unpickle_symbol_dictionary` (classes/containers.py:96-106) in a process whose metadata heap is `h` -/
def Pickled.load {A : Type} (h : Heap) (p : Pickled V A) : SDObj V A × Heap :=
  (⟨p.cls, ⟨dupdate [] p.items, p.isSympy, h.length⟩, dupdate [] p.extra⟩, h ++ [p.md])

/-- `copy()` of an object (classes/containers.py:177-183): the constructor called is `SymbolDictionary`'s, whatever the class of the receiver,
and no attribute but the three base ones is set -/
def SDObj.copy {A : Type} (o : SDObj V A) : Except PyErr (SDObj V A) :=
  match o.dict.copy with
  | .error e => .error e
  | .ok d => .ok ⟨.symbolDictionary, d, []⟩

/-- `to_string()` of an object (classes/containers.py:310-320): again `SymbolDictionary(…)` -/
def SDObj.toStr {A : Type} (h : Heap) (o : SDObj V A) : Except PyErr (SDObj V A × Heap) :=
  match o.dict.toStr h with
  | .error e => .error e
  | .ok (d, h) => .ok (⟨.symbolDictionary, d, []⟩, h)

/-- `SteadyStateResults(mapping)` (classes/containers.py:362-365): `success` starts False -/
def SDObj.newResults (h : Heap) (items : List (Key × V)) : Except PyErr (SDObj V Bool × Heap) :=
  match SDict.new h items with
  | .error e => .error e
  | .ok (d, h) => .ok (⟨.steadyStateResults, d, [(['s','u','c','c','e','s','s'], false)]⟩, h)

end

end GE
