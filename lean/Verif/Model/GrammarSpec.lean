import Verif.Model.GcnSpec
import Verif.Model.Grammar
import Verif.Props.ParserMisc
/-!
# Specification for C107: what a sequence of GCN tokens means

Nothing here models code: the rules of the language, phrase by phrase. `Is… ts x`: the tokens are such a phrase and it stands
for `x`. Numbers in priors have their arithmetic value (`NChain.value`); the assumption blocks are summed up by
`buildAssumptions`, which C44 specifies.
-/

namespace GE.Gcn

/-! ## the reserved names of the documentation -/

/-- the assumptions a user may state -/
def docAssumptions : List String := ["finite", "integer", "negative", "nonnegative", "nonpositive", "positive", "real", "unit_interval"]

/-- the wrappers a user may put around a prior -/
def docWrappers : List String := ["Censored", "Hurdle", "Truncated", "maxent"]

/-- the distributions a user may name -/
def docDists : List String := ["AsymmetricLaplace", "Bernoulli", "Beta", "BetaBinomial", "BetaScaled", "Binomial", "Categorical",
  "Cauchy", "ChiSquared", "Dirichlet", "DiscreteUniform", "DiscreteWeibull", "ExGaussian", "Exponential", "Gamma", "Geometric",
  "Gumbel", "HalfCauchy", "HalfNormal", "HalfStudentT", "HyperGeometric", "InverseGamma", "Kumaraswamy", "Laplace", "LogLogistic",
  "LogNormal", "Logistic", "LogitNormal", "Moyal", "MvNormal", "NegativeBinomial", "Normal", "Pareto", "Poisson", "Rice",
  "SkewNormal", "SkewStudentT", "StudentT", "Triangular", "TruncatedNormal", "Uniform", "VonMises", "Wald", "Weibull",
  "ZeroInflatedBinomial", "ZeroInflatedNegativeBinomial", "ZeroInflatedPoisson"]

/-! ## expressions: `-` binds tighter than `^`, then `* /`, then `+ -`; `^` groups to the right, the others to the left -/

mutual
/-- numbers, parameters, variables with a date, function calls, expectations, parentheses -/
inductive IsAtom : List Tok → Expr → Prop
  | num {v} : IsAtom [.num v] (.num v)
  | par {n} : IsAtom [.id n] (.par n)
  | var {n t} : IsAtom [.id n, .tix t] (.var n t)
  | call {f ts as} : IsArgs ts as → IsAtom (.id f :: .lpar :: (ts ++ [.rpar])) (.call f as)
  | expect {ts e} : IsSum ts e → IsAtom (.expectOpen :: (ts ++ [.rbr])) (.expect e)
  | paren {ts e} : IsSum ts e → IsAtom (.lpar :: (ts ++ [.rpar])) e
/-- minus signs before an atom -/
inductive IsSigned : List Tok → Expr → Prop
  | atom {ts e} : IsAtom ts e → IsSigned ts e
  | neg {ts e} : IsSigned ts e → IsSigned (.op .sub :: ts) (.neg e)
/-- `a ^ b ^ c` is `a ^ (b ^ c)` -/
inductive IsPower : List Tok → Expr → Prop
  | base {ts e} : IsSigned ts e → IsPower ts e
  | pow {ts us a b} : IsSigned ts a → IsPower us b → IsPower (ts ++ .op .pow :: us) (.bin .pow a b)
/-- `a / b * c` is `(a / b) * c` -/
inductive IsProduct : List Tok → Expr → Prop
  | one {ts e} : IsPower ts e → IsProduct ts e
  | mul {ts us a b} : IsProduct ts a → IsPower us b → IsProduct (ts ++ .op .mul :: us) (.bin .mul a b)
  | div {ts us a b} : IsProduct ts a → IsPower us b → IsProduct (ts ++ .op .div :: us) (.bin .div a b)
/-- `a - b + c` is `(a - b) + c` -/
inductive IsSum : List Tok → Expr → Prop
  | one {ts e} : IsProduct ts e → IsSum ts e
  | add {ts us a b} : IsSum ts a → IsProduct us b → IsSum (ts ++ .op .add :: us) (.bin .add a b)
  | sub {ts us a b} : IsSum ts a → IsProduct us b → IsSum (ts ++ .op .sub :: us) (.bin .sub a b)
/-- one or more arguments -/
inductive IsArgs : List Tok → List Expr → Prop
  | one {ts e} : IsSum ts e → IsArgs ts [e]
  | cons {ts us e es} : IsSum ts e → IsArgs us es → IsArgs (ts ++ .comma :: us) (e :: es)
end

/-! ## equations -/

/-- the multiplier's name after a colon; its date does not matter -/
inductive IsMultiplier : List Tok → Option Str → Prop
  | none : IsMultiplier [] none
  | some {n t} : IsMultiplier [.colon, .id n, .tix t] (some n)

/-- the calibrated parameter after an arrow -/
inductive IsTarget : List Tok → Option Str → Prop
  | none : IsTarget [] none
  | some {n} : IsTarget [.arrow, .id n] (some n)

/-- tags, left side, `=`, right side, multiplier, calibrated parameter, `;` -/
inductive IsEqn : List Tok → Eqn → Prop
  | mk {tags l r m c le re lag cal} : IsSum l le → IsSum r re → IsMultiplier m lag → IsTarget c cal →
      IsEqn (tags.map Tok.tag ++ (l ++ .eq :: (r ++ (m ++ (c ++ [.semi])))))
        { lhs := le, rhs := re, lagrange := lag, calibrating := cal, tags := tags }

/-! ## sequences -/

/-- phrases one after the other -/
inductive Seq {α} (P : List Tok → α → Prop) : List Tok → List α → Prop
  | nil : Seq P [] []
  | cons {w r a as} : P w a → Seq P r as → Seq P (w ++ r) (a :: as)

/-- one or more phrases with commas between them -/
inductive Listed {α} (P : List Tok → α → Prop) : List Tok → List α → Prop
  | one {w a} : P w a → Listed P w [a]
  | cons {w r a as} : P w a → Listed P r as → Listed P (w ++ .comma :: r) (a :: as)

/-- a variable with its date -/
inductive IsVarRef : List Tok → VarRef → Prop
  | mk {n t} : IsVarRef [.id n, .tix t] ⟨n, t⟩

/-! ## priors -/

mutual
/-- a number, with or without a sign, or a number expression in parentheses -/
inductive IsOperand : List Tok → NAtom → Prop
  | num {v} : IsOperand [.num v] (.num v)
  | plus {v} : IsOperand [.op .add, .num v] (.num v)
  | minus {v} : IsOperand [.op .sub, .num v] (.num (-v))
  | paren {ts c} : IsChain ts c → IsOperand (.lpar :: (ts ++ [.rpar])) (.paren c)
/-- operands with operators between them -/
inductive IsChain : List Tok → NChain → Prop
  | one {ts a} : IsOperand ts a → IsChain ts (.one a)
  | add {ts us c a} : IsChain ts c → IsOperand us a → IsChain (ts ++ .op .add :: us) (.snoc c .add a)
  | sub {ts us c a} : IsChain ts c → IsOperand us a → IsChain (ts ++ .op .sub :: us) (.snoc c .sub a)
  | mul {ts us c a} : IsChain ts c → IsOperand us a → IsChain (ts ++ .op .mul :: us) (.snoc c .mul a)
  | div {ts us c a} : IsChain ts c → IsOperand us a → IsChain (ts ++ .op .div :: us) (.snoc c .div a)
end

/-- the number expressions that can be worked out: C46 says which -/
def Evaluates (c : NChain) : Prop := ∃ v, evalNumber c.tree = .ok v

/-- an argument of a shock's distribution: a number expression stays as it was read (`NChain.tree`) -/
inductive IsRawVal : List Tok → NTree → Prop
  | none : IsRawVal [.id "None".toList] .none
  | name {n} : n ≠ "None".toList → IsRawVal [.id n] (.str n)
  | number {ts c} : IsChain ts c → IsRawVal ts c.tree

/-- an argument of a prior: a number expression is its value -/
inductive IsPriorVal : List Tok → NTree → Prop
  | none : IsPriorVal [.id "None".toList] .none
  | name {n} : n ≠ "None".toList → IsPriorVal [.id n] (.str n)
  | number {ts c} : IsChain ts c → Evaluates c → IsPriorVal ts (.num c.value)

/-- `name = value` -/
inductive IsArg (V : List Tok → NTree → Prop) : List Tok → Str × NTree → Prop
  | mk {n ts v} : V ts v → IsArg V (.id n :: .eq :: ts) (n, v)

/-- none, or a list of arguments -/
inductive IsOptArgs (V : List Tok → NTree → Prop) : List Tok → List (Str × NTree) → Prop
  | none : IsOptArgs V [] []
  | some {ts as} : Listed (IsArg V) ts as → IsOptArgs V ts as

/-- none, or a comma and a list of arguments -/
inductive IsWrapArgs (V : List Tok → NTree → Prop) : List Tok → List (Str × NTree) → Prop
  | none : IsWrapArgs V [] []
  | some {ts as} : Listed (IsArg V) ts as → IsWrapArgs V (.comma :: ts) as

/-- `Beta(alpha=2, beta=5)` or `maxent(Beta(), lower=0.1, upper=0.9)`, with a known distribution and wrapper -/
inductive IsDist (V : List Tok → NTree → Prop) : List Tok → DistX → Prop
  | plain {d ts as} : d ∈ dists → IsOptArgs V ts as → IsDist V (.id d :: .lpar :: (ts ++ [.rpar])) { dist := d, args := as }
  | wrapped {w d ts as us ws} : w ∈ wrappers → d ∈ dists → IsOptArgs V ts as → IsWrapArgs V us ws →
      IsDist V (.id w :: .lpar :: .id d :: .lpar :: (ts ++ .rpar :: (us ++ [.rpar])))
        { dist := d, args := as, wrapper := some w, wargs := ws }

/-- the keys in order of first appearance -/
def firstOcc : List Str → List Str
  | [] => []
  | k :: ks => k :: (firstOcc ks).filter (· ≠ k)

/-- the last value given for a key -/
def lastFor {α} (l : List (Str × α)) (k : Str) : Option α := ((l.filter fun p => p.1 = k).getLast?).map Prod.snd

/-- the dictionary that entries given in this order make: the last value of each key counts -/
def IsDict {α} (l d : List (Str × α)) : Prop := d.map Prod.fst = firstOcc (l.map Prod.fst) ∧ ∀ k, dget d k = lastFor l k

/-- nothing, or `= ` and a number expression -/
inductive IsInitial : List Tok → Option Rat → Prop
  | none : IsInitial [] none
  | some {ts c} : IsChain ts c → Evaluates c → IsInitial (.eq :: ts) (some c.value)

/-- nothing, or `= ` and a number -/
inductive IsShockInitial : List Tok → Option Rat → Prop
  | none : IsShockInitial [] none
  | some {v} : IsShockInitial [.eq, .num v] (some v)

/-- what a distribution stands for -/
structure Describes (p : Str) (x : DistX) (i : Option Rat) (d : GDist) : Prop where
  param : d.param = p
  dist : d.dist = x.dist
  wrapper : d.wrapper = x.wrapper
  initial : d.initial = i
  kwargs : IsDict x.args d.kwargs
  wrapperKwargs : IsDict x.wargs d.wrapperKwargs

/-- `alpha ~ Beta(mean=0.3, sd=0.05) = 0.35;` -/
inductive IsPrior : List Tok → GDist → Prop
  | mk {p ts x is i d} : IsDist IsPriorVal ts x → IsInitial is i → Describes p x i d →
      IsPrior (.id p :: .tilde :: (ts ++ (is ++ [.semi]))) d

/-- `epsilon[] ~ Normal(mu=0, sigma=sigma_eps);` or `epsilon[], eta[];` -/
inductive IsShock : List Tok → GShock → Prop
  | dist {n t ts x is i d} : IsDist IsRawVal ts x → IsShockInitial is i → Describes n x i d →
      IsShock (.id n :: .tix t :: .tilde :: (ts ++ (is ++ [.semi]))) (.dist d)
  | vars {ts vs} : Listed IsVarRef ts vs → IsShock (ts ++ [.semi]) (.vars vs)

/-- a prior, or an equation whose right side does not look like a prior -/
inductive IsCal : List Tok → GCal → Prop
  | prior {ts d} : IsPrior ts d → IsCal ts (.prior d)
  | eq {ts e} : IsEqn ts e → (∀ p n r, ts = .id p :: .eq :: .id n :: r → ∀ d ∈ wrappers ++ dists, ¬ d <+: n) → IsCal ts (.eq e)

/-! ## components, blocks, files -/

/-- the word is this keyword, in capitals or not -/
def Keyword (k : Str) (w : String) : Prop := k.map Char.toLower = w.toList

/-- `{ … };` around phrases -/
inductive Braced {α} (P : List Tok → α → Prop) : List Tok → List α → Prop
  | mk {ts as} : Seq P ts as → Braced P (.lbrace :: (ts ++ [.rbrace, .semi])) as

/-- `{ };` or `{ x[], y[]; };` -/
inductive IsVarBlock : List Tok → List VarRef → Prop
  | none : IsVarBlock [.lbrace, .rbrace, .semi] []
  | some {ts vs} : Listed IsVarRef ts vs → IsVarBlock (.lbrace :: (ts ++ [.semi, .rbrace, .semi])) vs

/-- the variables of shock declarations, in order; those with a distribution at the present date -/
def declared : List GShock → List VarRef
  | [] => []
  | .dist d :: l => { name := d.param, t := .t 0 } :: declared l
  | .vars vs :: l => vs ++ declared l

/-- the distributions of shock declarations, in order -/
def declaredDists : List GShock → List GDist
  | [] => []
  | .dist d :: l => d :: declaredDists l
  | .vars _ :: l => declaredDists l

/-- one component of a block -/
inductive IsComp : List Tok → GComp → Prop
  | definitions {k ts es} : Keyword k "definitions" → Braced IsEqn ts es → IsComp (.id k :: ts) (.definitions es)
  | controls {k ts vs} : Keyword k "controls" → IsVarBlock ts vs → IsComp (.id k :: ts) (.controls vs)
  | objective {k ts es} : Keyword k "objective" → Braced IsEqn ts es → IsComp (.id k :: ts) (.objective es)
  | constraints {k ts es} : Keyword k "constraints" → Braced IsEqn ts es → IsComp (.id k :: ts) (.constraints es)
  | identities {k ts es} : Keyword k "identities" → Braced IsEqn ts es → IsComp (.id k :: ts) (.identities es)
  | shocks {k ts ss} : Keyword k "shocks" → Braced IsShock ts ss → IsComp (.id k :: ts) (.shocks (declared ss) (declaredDists ss))
  | calibration {k ts cs} : Keyword k "calibration" → Braced IsCal ts cs → IsComp (.id k :: ts) (.calibration cs)

/-- what the last phrase that says something says, else the default -/
def lastOr {γ α} (sel : γ → Option α) (d : α) (l : List γ) : α := ((l.filterMap sel).getLast?).getD d

/-- the block holds, for each kind of component, the content of the last one of that kind -/
structure Gathers (n : Str) (cs : List GComp) (b : GBlock) : Prop where
  name : b.name = n
  definitions : b.definitions = lastOr (fun | .definitions es => some es | _ => none) [] cs
  controls : b.controls = lastOr (fun | .controls vs => some vs | _ => none) [] cs
  objective : b.objective = lastOr (fun | .objective es => some es | _ => none) [] cs
  constraints : b.constraints = lastOr (fun | .constraints es => some es | _ => none) [] cs
  identities : b.identities = lastOr (fun | .identities es => some es | _ => none) [] cs
  shocks : b.shocks = lastOr (fun | .shocks vs _ => some vs | _ => none) [] cs
  shockDists : b.shockDists = lastOr (fun | .shocks _ ds => some ds | _ => none) [] cs
  calibration : b.calibration = lastOr (fun | .calibration cs => some cs | _ => none) [] cs

/-- `block NAME { … };` -/
inductive IsBlock : List Tok → GBlock → Prop
  | mk {k n ts cs b} : Keyword k "block" → Braced IsComp ts cs → Gathers n cs b → IsBlock (.id k :: .id n :: ts) b

/-- `TRUE`, `FALSE`, in capitals or not, or a word -/
inductive IsOptVal : Str → OptVal → Prop
  | yes {w} : Keyword w "true" → IsOptVal w (.bool true)
  | no {w} : Keyword w "false" → IsOptVal w (.bool false)
  | word {w} : ¬ Keyword w "true" → ¬ Keyword w "false" → IsOptVal w (.word w)

/-- `output logfile = TRUE;` -/
inductive IsOption : List Tok → Str × OptVal → Prop
  | mk {ks v o} : ks ≠ [] → IsOptVal v o → IsOption (ks.map Tok.id ++ [.eq, .id v, .semi]) ([' '].intercalate ks, o)

/-- a name with or without a date -/
inductive IsAsmItem : List Tok → Str → Prop
  | bare {n} : IsAsmItem [.id n] n
  | dated {n t} : IsAsmItem [.id n, .tix t] n

/-- `positive { C[], K[]; };` -/
inductive IsAsmSub : List Tok → Str × List Str → Prop
  | mk {n ts vs} : n.map Char.toLower ∈ assumptionNames → Listed IsAsmItem ts vs →
      IsAsmSub (.id n :: .lbrace :: (ts ++ [.semi, .rbrace, .semi])) (n, vs)

/-- one special block -/
inductive IsSpecial : List Tok → Special → Prop
  | options {k ts l d} : Keyword k "options" → Braced IsOption ts l → IsDict l d → IsSpecial (.id k :: ts) (.options d)
  | tryreduce {k ts vs} : Keyword k "tryreduce" → IsVarBlock ts vs → IsSpecial (.id k :: ts) (.tryreduce (vs.map VarRef.name))
  | assumptions {k ts l} : Keyword k "assumptions" → Braced IsAsmSub ts l → IsSpecial (.id k :: ts) (.assumptions (buildAssumptions l))

/-- a file: special blocks, then one or more model blocks; the last special block of each kind counts -/
inductive IsFile : List Tok → GFile → Prop
  | mk {ts us ss bs m} : Seq IsSpecial ts ss → Seq IsBlock us bs → bs ≠ [] → m.blocks = bs →
      m.options = lastOr (fun | .options l => some l | _ => none) [] ss →
      m.tryreduce = lastOr (fun | .tryreduce l => some l | _ => none) [] ss →
      m.assumptions = lastOr (fun | .assumptions l => some l | _ => none) [] ss → IsFile (ts ++ us) m

end GE.Gcn
