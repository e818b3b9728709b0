import Verif.Model.Perturbation
import Verif.Model.SteadyState
/-!
# `statespace_from_gcn` (gEconpy/model/build.py:566-713)

The part after `_compile_gcn`: the steady state and the linearised system as graphs of the free parameters. Nodes of the pytensor
graph are identified with the symbols they stand for; `rewrite_pregrad` does not change values and is not modelled.
-/

namespace GE

/-- what `compile_param_dict_func(..., return_symbolic=True)` returns (model/parameters.py:46-63, compile.py:365-375): the free parameters
stand for themselves, the deterministic ones for their expressions; `dupdate`: a later entry with the same name wins -/
def paramMapping (free : List Str) (determ : List (Str × SExpr)) : List (Sym × SExpr) :=
  dupdate [] ((free.map Sym.par ++ determ.map fun p => Sym.par p.1).zip (free.map (fun n => SExpr.sym (.par n)) ++ determ.map Prod.snd))

/-- an entry of `column_scale` (perturbation.py:181-188) after `graph_replace` -/
inductive GScale where
  | one
  | ss (e : SExpr)
  | guarded (e : SExpr)
  deriving DecidableEq, Repr

/-- `graph_replace` in a column scale: the scale is the steady-state symbol of the variable, or `pt.where(ss > 0, ss, 1)` -/
def Scale.graphReplace (d : List (Sym × SExpr)) : Scale → GScale
  | .one => .one
  | .ss v => .ss ((SExpr.sym (.tv (toSS v))).graphReplace d)
  | .guarded v => .guarded ((SExpr.sym (.tv (toSS v))).graphReplace d)

/-- errors of `statespace_from_gcn` after compilation: NotImplementedError twice, ValueError with the names, IndexError of `linearize` -/
inductive SSGErr where
  | calibration
  | numericSteadyState
  | unknown (names : List Str)
  | indexError
  deriving DecidableEq, Repr

/-- what is handed to `DSGEStateSpace` (build.py:697-713): every entry of `A, B, C` is a derivative times the scale of its column -/
structure SSGOut where
  A : List (List (SExpr × GScale))
  B : List (List (SExpr × GScale))
  C : List (List (SExpr × GScale))
  D : List (List SExpr)
  varOrder : List Nat
  loglin : List Str
  steadyState : List (Sym × SExpr)
  params : List (Sym × SExpr)
  deriving DecidableEq

/-- the rows of a scaled matrix after `graph_replace` (build.py:695, perturbation.py:190) -/
def replaceRows (d : List (Sym × SExpr)) (scale : List Scale) (M : List (List SExpr)) : List (List (SExpr × GScale)) :=
  M.map fun row => List.zipWith (fun e s => (e.graphReplace d, s.graphReplace d)) row scale

/-- `statespace_from_gcn` (build.py:633-713) after `_compile_gcn`: `free`, `determ`, `calib` and `ssSol` are the compiled dictionaries,
`linear` the model option. The set of unknown names is kept in the order given. -/
def statespaceFromGcn (vars : List TSym) (eqs : List SExpr) (shocks : List TSym) (free : List Str) (determ : List (Str × SExpr))
    (calib : List (Str × SExpr)) (ssSol : List (Sym × SExpr)) (linear logLinearize : Bool) (notLoglin : Option (List Str)) :
    Except SSGErr SSGOut :=
  if !calib.isEmpty then .error .calibration
  else match knownSSSymbolic ssSol (vars.map Sym.tv) with
    | none => .error .numericSteadyState
    | some ssMap =>
      if ssMap.length ≠ vars.length then .error .numericSteadyState
      else
        let exclude := notLoglin.getD []
        let unknown := exclude.filter fun x => !(vars.map TSym.base).contains x
        if unknown ≠ [] then .error (.unknown unknown)
        else
          let loglin := if logLinearize && !linear then vars.filter fun v => !exclude.contains v.base else []
          match linearize vars eqs shocks (some loglin) none none with
          | none => .error .indexError
          | some sys =>
            let params := paramMapping free determ
            let ssMap := ssMap.map fun p => (p.1, p.2.graphReplace params)
            let d := dupdate params ssMap
            .ok { A := replaceRows d sys.scale sys.A, B := replaceRows d sys.scale sys.B, C := replaceRows d sys.scale sys.C
                  D := sys.D.map fun row => row.map fun e => e.graphReplace d
                  varOrder := sys.varOrder, loglin := loglin.map TSym.base, steadyState := ssMap, params := params }

end GE
