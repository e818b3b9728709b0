import json
src={f:open(f'/verif/lean/Verif/Model/{f}.lean').read() for f in ('Dynare',)}
L=[]
def m(file,d,old,new,claim,count=1): L.append((file,d,old,new,claim,count))
D='Dynare'
m(D,'ssSuffix','def ssSuffix : Str := "_ss"','def ssSuffix : Str := "_SS"','C101 steady state names')
m(D,'tsymToks',"else if k > 0 then [.name s.base, .lpar, .op .add, .num k, .rpar]","else if k > 0 then [.name s.base, .lpar, .op .sub, .num k, .rpar]",'C101 leads')
m(D,'tsymToks',"else [.name s.base, .lpar, .op .sub, .num (-k), .rpar]","else [.name s.base, .lpar, .op .sub, .num k, .rpar]",'C101 lags')
m(D,'tsymToks',"if k = 0 then [.name s.base]","if k ≤ 0 then [.name s.base]",'C101 lags')
m(D,'tsymToks',"| .ss => [.name (s.base ++ ssSuffix)]","| .ss => [.name s.base]",'C101 steady state names')
m(D,'pMulLvl',"def pMulLvl : Nat := 50","def pMulLvl : Nat := 40",'C101 precedence of products')
m(D,'pPowLvl',"def pPowLvl : Nat := 60","def pPowLvl : Nat := 50",'C101 precedence of powers')
m(D,'pFuncLvl',"def pFuncLvl : Nat := 70","def pFuncLvl : Nat := 30",'equivalent: parentheses around function calls')
m(D,'pAtomLvl',"def pAtomLvl : Nat := 1000","def pAtomLvl : Nat := 60",'equivalent: superfluous parentheses around atoms')
m(D,'precOf',"| .num v => if v < 0 then pAddLvl else if v.den = 1","| .num v => if v.den = 1",'C101 negative base or exponent')
m(D,'precOf',"if v.den = 1 then pAtomLvl else pMulLvl","pAtomLvl",'C101 fractional base or exponent')
m(D,'precOf',"| .flt v => if v < 0 then pAddLvl else pAtomLvl","| .flt _ => pAtomLvl",'C101 negative float base')
m(D,'precOf',"| .add _ => pAddLvl","| .add _ => pMulLvl",'C101 sum as factor of negative product')
m(D,'precOf',"| .add _ => pAddLvl","| .add _ => pAtomLvl",'C101 sum as base')
m(D,'precOf',"| .mul fs => if negCoeff fs then pAddLvl else pMulLvl","| .mul _ => pMulLvl",'C101 negative product inside a negative product')
m(D,'precOf',"| .mul fs => if negCoeff fs then pAddLvl else pMulLvl","| .mul _ => pAtomLvl",'C101 product as base')
m(D,'precOf',"| .pow _ _ => pPowLvl","| .pow _ _ => pFuncLvl",'C101 power of power')
m(D,'negCoeff',"| .flt c :: _ => c < 0\n  | _ => false","| _ => false",'C101 negative float coefficient')
m(D,'paren',"if p ≤ level then inPar","if p < level then inPar",'C101 parentheses at the same level')
m(D,'numToks',"if v < 0 then .op .sub :: body else body","body",'C101 sign of numbers')
m(D,'numToks',"else [.num v.num.natAbs, .op .div, .num v.den]","else [.num v.den, .op .div, .num v.num.natAbs]",'C101 fractions')
m(D,'fltToks',"if v < 0 then [.op .sub, .num (-v)] else [.num v]","if v ≤ 0 then [.op .sub, .num v] else [.num v]",'C101 sign of floats')
m(D,'multjoin',"| a :: as => a ++ .op .mul :: multjoin as","| a :: as => a ++ multjoin as",'C101 product sign')
m(D,'quotient',"| b => top ++ .op .div :: inPar (multjoin b)","| b => top ++ .op .div :: multjoin b",'C101 several denominators')
m(D,'quotient',"(if a = [] then [[.num 1]] else a)","a",'C101 empty numerator')
m(D,'powToks',"if lit = some (1/2) then .fn \"sqrt\".toList :: inPar bt","if lit = some (1/3) then .fn \"sqrt\".toList :: inPar bt",'C101 square roots')
m(D,'powToks',"else if lit = some (-1/2) then .num 1 :: .op .div :: .fn","else if lit = some (-1/2) then .fn",'C101 reciprocal square roots')
m(D,'powToks',"else if lit = some (-1) then .num 1 :: .op .div :: paren pPowLvl pb bt","else if lit = some (-1) then .num 1 :: .op .div :: bt",'C101 reciprocal of sums')
m(D,'powToks',"else paren pPowLvl pb bt ++ .op .pow :: paren pPowLvl pe et","else bt ++ .op .pow :: paren pPowLvl pe et",'C101 base of power')
m(D,'powToks',"else paren pPowLvl pb bt ++ .op .pow :: paren pPowLvl pe et","else paren pPowLvl pb bt ++ .op .pow :: et",'C101 exponent')
m(D,'powToks',"else paren pPowLvl pb bt ++ .op .pow :: paren pPowLvl pe et","else paren pMulLvl pb bt ++ .op .pow :: paren pPowLvl pe et",'C101 power of power')
m(D,'addTerms',"(if first then inPar t else .op .add :: inPar t)","(if first then t else .op .add :: t)",'equivalent: nested sum without parentheses, unless it starts with minus')
m(D,'addTerms',"| .op .sub :: t' => .op .sub :: t'","| .op .sub :: t' => .op .add :: t'",'C101 sign of terms')
m(D,'addTerms',"| t => if first then t else .op .add :: t) ++","| t => if first then t else .op .sub :: t) ++",'C101 sign of terms')
m(D,'addTerms',"++ addTerms false ts","++ addTerms true ts",'C101 plus signs')
m(D,'numFactor',"(if v.num = 1 then []","(if v.num = 2 then []",'C101 numerators')
m(D,'numFactor',"if v.den = 1 then [] else [[.num v.den]])","[])",'C101 denominators')
m(D,'mulToks',"      .op .sub :: quotient (k.1 ++ r.1) (k.2 ++ r.2)","      quotient (k.1 ++ r.1) (k.2 ++ r.2)",'C101 sign of products')
m(D,'mulToks',"let k := if c = -1 then ([], []) else numFactor pAddLvl (-c)","let k := if c = -1 then ([], []) else numFactor pAddLvl c",'C101 coefficient printed twice negative')
m(D,'mulToks',"let k := if c = -1 then ([], []) else numFactor pAddLvl (-c)","let k := (([], []) : List (List DTok) × List (List DTok))",'C101 coefficients')
m(D,'mulToks',"      let r := factors pAddLvl fs\n      .op .sub :: quotient ([.num (-c)] :: r.1) r.2","      let r := factors pAddLvl fs\n      .op .sub :: quotient r.1 r.2",'C101 float coefficient')
m(D,'mulToks',"let k := factor pMulLvl f","let k := factor pAddLvl f",'equivalent: products in products print the same without parentheses (as a first factor)')
m(D,'factor',"      if r = -1 then\n        let t","      if r = -2 then\n        let t",'C101 reciprocal factors')
m(D,'factor',"([], [if isLongMul b then inPar t else t])","([], [t])",'C101 denominators that are products')
m(D,'factor',"(some (-r)) (precOf (.num (-r))) (numToks (-r))])","(some r) (precOf (.num r)) (numToks r)])",'C101 negative exponents in the denominator')
m(D,'factor',"else ([], [powToks (precOf b) (toks b) (some (-r))","else ([powToks (precOf b) (toks b) (some (-r))",'C101 denominators')
m(D,'factor',"| .add ts => ([inPar (addTerms true (termToks ts))], [])","| .add ts => ([addTerms true (termToks ts)], [])",'C101 sums in products')
m(D,'factors',"    (k.1 ++ r.1, k.2 ++ r.2)\n/-- sympy's `string","    (k.1 ++ r.1, r.2)\n/-- sympy's `string",'C101 denominators')
m(D,'argToks',"| a :: as => toks a ++ .comma :: argToks as","| a :: as => toks a ++ argToks as",'C101 arguments')
m(D,'linesLoop',"addition.length + 1 > width","addition.length > width",'C102 room for the semicolon')
m(D,'linesLoop',"addition.length + 1 > width","addition.length + 1 ≥ width",'C102 breaks only where needed')
m(D,'linesLoop',"linesLoop width start (start ++ ' ' :: item) items","linesLoop width start start items",'C102 name lost at a break')
m(D,'linesLoop',"(line ++ [';']) :: linesLoop","line :: linesLoop",'C102 statement ends')
m(D,'linesLoop',"(if line = start then [' '] else [',', ' '])","[',', ' ']",'C102 first name')
m(D,'shockDecl','writeLines width "varexo".toList (m.shocks','writeLines width "var".toList (m.shocks','C102 shocks under varexo')
m(D,'paramDecl','"parameters".toList m.params','"parameters".toList (m.values.map Prod.fst)','C102 parameters declared (free ones): edit would fix the missing declarations')
m(D,'varDecl','(m.vars.map TSym.base)','(m.vars.map TSym.base).reverse','C102 order')
m(D,'roundEven',"else if d > 1/2 then x.floor + 1 else if x.floor % 2 = 0 then x.floor else x.floor + 1","else if d > 1/2 then x.floor + 2 else if x.floor % 2 = 0 then x.floor else x.floor + 1",'C105 rounding')
m(D,'roundEven',"if x.floor % 2 = 0 then x.floor else x.floor + 1","x.floor",'equivalent for the claims: ties down instead of to even')
m(D,'shown',"roundEven (v * 10 ^ digits) / 10 ^ digits","(v * 10 ^ digits).floor / 10 ^ digits",'C105 rounding to nearest')
m(D,'writeValues',"shown 3 p.2","shown 2 p.2",'C105 three decimals')
m(D,'findSS',"fun s => s.idx = .ss)","fun s => s.idx = .t 0)",'C103 needed steady states')
m(D,'hashDefs',"if required.all fun s","if required.any fun s",'C103 all closed forms needed')
m(D,'hashDefs',"    (m.ssRel.filter fun p => required.contains p.1).map fun p","    m.ssRel.map fun p",'C103 only needed ones defined (others may clash)')
m(D,'hashDefs',"(ssName p.1, toks p.2)","(p.1.base, toks p.2)",'C103 names of definitions')
m(D,'hashDefs',"some (ssName s, numText p.2)","some (ssName s, numText (shown 3 p.2))",'C103 numbers unrounded')
m(D,'hashDefs',"if required.contains s then some (ssName s, numText p.2) else none","none",'C103 numeric definitions')
m(D,'modelBlock',"(hashDefs m, m.equations.map toks)","(hashDefs m, m.equations.tail.map toks)",'C103 every equation')
m(D,'modelBlock',"(hashDefs m, m.equations.map toks)","([], m.equations.map toks)",'C103 definitions written')
m(D,'steadyBlock',"if m.ssRel.length = m.vars.length then","if m.ssRel.length > m.vars.length then",'C104 which block')
m(D,'steadyBlock',"((m.ssRel.map Prod.fst).zip r.2).map fun p => (p.1.base, toks p.2)","((m.ssRel.map Prod.fst).zip r.2.reverse).map fun p => (p.1.base, toks p.2)",'C104 right variable')
m(D,'steadyBlock',"some (.analytic ((r.1.map fun p => (p.1, toks p.2)) ++","some (.analytic (",'C104 temporaries written')
m(D,'steadyBlock',"some (.analytic ((r.1.map fun p => (p.1, toks p.2)) ++","some (.analytic ((r.1.reverse.map fun p => (p.1, toks p.2)) ++",'C104 order of temporaries')
m(D,'steadyBlock',".zip r.2).map fun p => (p.1.base, toks p.2)",".zip r.2).map fun p => (ssName p.1, toks p.2)",'C104 names assigned')
m(D,'steadyBlock',".map fun l => .initval (writeValues l)",".map fun l => .initval (writeValues l.tail)",'C104 all variables')
m(D,'baseNamed',"| (.inr _, _) => none","| (.inr p, v) => some (p, v)",'C104 calibrated parameters (the edit is the fix)')
m(D,'baseNamed',"some (s.base, v)","some (ssName s, v)",'C104 initval names')
m(D,'shockStd',"1/100","1/10",'C105 stderr')
out=[]
for i,(f,d,o,n,c,k) in enumerate(L):
    assert src[f].count(o)==k,(d,o,src[f].count(o))
    out.append(dict(id=f'i{i:03d}',file=f,**{'def':d},old=o,new=n,claim=c,edit=f'`{o}` -> `{n}`',count=k))
json.dump(out,open('m9.json','w'),indent=0); print(len(out))
