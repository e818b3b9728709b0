import json
src={f:open(f'/verif/lean/Verif/Model/{f}.lean').read() for f in ('Lexer','Grammar','PrintText')}
L=[]
def m(file,d,old,new,claim,count=1): L.append((file,d,old,new,claim,count))
X='Lexer';G='Grammar';P='PrintText'
m(X,'isWs',"|| c = '\\t' || c = '\\r'","|| c = '\\t'",'C106 carriage returns')
m(X,'skipLay',"if c = '\\n' then skipLay false cs else skipLay true cs","if c = ';' then skipLay false cs else skipLay true cs",'C106 comment ends with the line')
m(X,'skipLay',"else if c = '#' then skipLay true cs else","else if c = '%' then skipLay true cs else",'C106 comment sign')
m(X,'isIdStart',"def isIdStart (c : Char) : Bool := c.isAlpha || c = '_'","def isIdStart (c : Char) : Bool := c.isAlpha",'C106 names with underscore first')
m(X,'isIdChar',"def isIdChar (c : Char) : Bool := c.isAlphanum || c = '_'","def isIdChar (c : Char) : Bool := c.isAlphanum",'C106 names with underscore')
m(X,'isIdChar',"def isIdChar (c : Char) : Bool := c.isAlphanum || c = '_'","def isIdChar (c : Char) : Bool := c.isAlpha || c = '_'",'C106 names with digits')
m(X,'decVal',"10 * n + (d.toNat - '0'.toNat)","n + 10 * (d.toNat - '0'.toNat)",'C106 value of digits')
m(X,'lexExponent',"  | 'E' :: cs => expDigits cs ('E' :: cs)\n","",'C106 capital exponent')
m(X,'lexExponent',"then (0, back) else (- (decVal (takeRun Char.isDigit ds).1 : Int)","then (0, back) else ((decVal (takeRun Char.isDigit ds).1 : Int)",'C106 negative exponents')
m(X,'lexMantissa',"if i.1 = [] ∧ f.1 = [] then none","if i.1 = [] ∨ f.1 = [] then none",'C106 numbers like 1. and .5')
m(X,'lexMantissa',"/ 10 ^ f.1.length","/ 10 ^ i.1.length",'C106 decimals')
m(X,'numEnd',"!(c = '.' || isIdChar c)","!(isIdChar c)",'C106 1.2.3 is no number')
m(X,'numEnd',"!(c = '.' || isIdChar c)","!(c = '.')",'C106 2x is no number')
m(X,'tenPow',"else 1 / 10 ^ (-k).toNat","else 10 ^ (-k).toNat",'C106 negative exponents')
m(X,'lexTime',"| 's' :: 's' :: cs => if (takeRun isIdChar cs).1 = [] then some (.ss, cs) else none","| 's' :: 's' :: cs => some (.ss, cs)",'equivalent: anything after ss but ] is refused anyway')
m(X,'lexTime',"else some (.t (- (decVal","else some (.t ((decVal",'C106 lags')
m(X,'lexTime',"then some (.t 0, cs)","then some (.t 1, cs)",'C106 empty index')
m(X,'lexIndex',"match skipLay false r with\n    | ']'","match r with\n    | ']'",'C106 space in indices')
m(X,'tagOf','else if lowerStr n = "minimize".toList then some .minimize','else if lowerStr n = "minimize".toList then some .maximize','C106 tags')
m(X,'tagOf','if lowerStr n = "exclude".toList','if n = "exclude".toList','C106 tags in capitals')
m(X,'lexWord',"| ['E'], '[' :: ']' :: '[' :: r => (.expectOpen, r)","| ['E'], '[' :: ']' :: r => (.expectOpen, r)",'C106 variable named E')
m(X,'lexWord',"  | ['E'], '[' :: ']' :: '[' :: r => (.expectOpen, r)\n","",'C106 expectations')
m(X,'lexTok',"  | '*' :: '*' :: r => some (.op .pow, r)\n","",'C106 power as **')
m(X,'lexTok',"| '/' :: r => some (.op .div, r)","| '/' :: r => some (.op .mul, r)",'C106 division')
m(X,'lexTok',"  | '-' :: '>' :: r => some (.arrow, r)\n","",'C106 arrows')
m(X,'lexTok',"| ':' :: r => some (.colon, r)","| ':' :: r => some (.semi, r)",'C106 colons')
m(X,'lexTok',"    if isIdStart c then (tagOf","    if isIdChar c then (tagOf",'C106 tag begins with a letter')
m(X,'lexLoop',"| [] => some []\n    | c","| [] => none\n    | c",'C106 end of text')
m(X,'lexText',"lexLoop (cs.length + 1) cs","lexLoop cs.length cs",'C106 text without spaces')
m(G,'dists','"Normal".toList, "Pareto"','"Pareto"','C107 known distributions')
m(G,'wrappers','"Truncated".toList, ','','C107 wrappers')
m(G,'assumptionNames','"finite".toList, ','','C107 assumption names')
m(G,'nop',"| .mul => some .mul | .div","| .mul => none | .div",'C107 number expressions')
m(G,'nop',"| .pow => none","| .pow => some .mul",'C107 number expressions have no powers')
m(G,'pNAtom',"some (.num (-v), r)","some (.num v, r)",'C107 negative numbers in priors')
m(G,'pNAtom',"  | _ + 1, .op .add :: .num v :: r => some (.num v, r)\n","",'C107 signed numbers in priors')
m(G,'pNAtom',"| some (c, .rpar :: r) => some (.paren c, r)","| some (c, r) => some (.paren c, r)",'C107 closing parenthesis')
m(G,'pNLoop',"| some (a, r) => pNLoop f (.snoc c o' a) r","| some (a, r) => some (.snoc c o' a, r)",'C107 long number expressions')
m(G,'pArgVal','if n = "None".toList then some (.none, r) else some (.str n, r)','some (.str n, r)','C107 None')
m(G,'pArg',"some ((n, v), r)","some ((['x'], v), r)",'C107 argument names')
m(G,'pListed',"| some (as, r') => some (a :: as, r')\n      | none => none\n    | some (a, r)","| some (as, r') => some (as, r')\n      | none => none\n    | some (a, r)",'C107 lists')
m(G,'pUntil',"| some (as, r') => some (a :: as, r')\n      | none => none\n    | none => none\n\n/-- `pp.Optional(pp","| some (as, r') => some (as ++ [a], r')\n      | none => none\n    | none => none\n\n/-- `pp.Optional(pp",'C107 order of statements')
m(G,'pOptArgs',"  | .rpar :: r => some ([], r)\n  | ts =>\n    match pListed","  | ts =>\n    match pListed",'C107 distributions without arguments')
m(G,'pDistCall',"if d ∈ dists then","if True then",'C107 unknown distributions')
m(G,'pDistExpr',"wrapper := some w, wargs := ws }","wrapper := some w, wargs := as }",'C107 wrapper arguments')
m(G,'pDistExpr',"if w ∈ wrappers then","if w ∈ dists then",'C107 wrappers')
m(G,'evalVal',"| .ok (.str s) => some (.str s)","| .ok (.str _) => some .none",'C107 names as arguments')
m(G,'dictOf',"dset d a.1 a.2) []","if (dget d a.1).isSome then d else dset d a.1 a.2) []",'C107 repeated keys: the last counts')
m(G,'pInitial',"| .ok (.num q) => some (some q, r)","| .ok (.num _) => some (none, r)",'C107 initial values')
m(G,'pPrior',"wrapper := x.wrapper, wrapperKwargs := ws, initial := i }, r')","wrapper := none, wrapperKwargs := ws, initial := i }, r')",'C107 wrapper of a prior')
m(G,'pShockInitial',"| .eq :: .num v :: .semi :: r => some (some v, r)","| .eq :: .num _ :: .semi :: r => some (none, r)",'C107 initial value of a shock')
m(G,'pShock',"| .id n :: .tix _ :: .tilde :: ts =>","| .id n :: .tix (.t 0) :: .tilde :: ts =>",'C107 date of a shock with distribution')
m(G,'pShock',"some (.vars vs, r)","some (.vars (vs.take 1), r)",'C107 several shocks on a line')
m(G,'shockVars',"| .dist d => [{ name := d.param }]","| .dist _ => []",'C107 a shock with distribution is a shock')
m(G,'shockDists',"| .dist d => [d]","| .dist _ => []",'C107 shock distributions')
m(G,'startsDist',"d.isPrefixOf n","d == n",'C107 prefix rule')
m(G,'pCal',"    if startsDist n then none\n    else\n","    if n = n then\n",'C107 missing tilde')
m(G,'pVarBlock',"  | .lbrace :: .rbrace :: .semi :: r => some ([], r)\n","",'C107 empty lists')
m(G,'pBraced',"| some (as, .semi :: r) => some (as, r)\n    | _ => none\n  | _ => none\n\n/-- `COMPONENT`","| some (as, r) => some (as, r)\n    | _ => none\n  | _ => none\n\n/-- `COMPONENT`",'C107 semicolon after the brace')
m(G,'pComp','if lowerStr k = "definitions".toList','if k = "definitions".toList','C107 caseless keywords')
m(G,'pComp','(.constraints p.1, p.2)','(.identities p.1, p.2)','C107 components')
m(G,'pComp',"(.shocks (shockVars p.1) (shockDists p.1), p.2)","(.shocks (shockVars p.1) [], p.2)",'C107 shock distributions')
m(G,'addComp',"| .identities es => { b with identities := es }","| .identities es => { b with identities := b.identities ++ es }",'C107 the last component counts')
m(G,'addComp',"| .controls vs => { b with controls := vs }","| .controls vs => { b with controls := vs, objective := [] }",'C107 components are independent')
m(G,'pBlock','if lowerStr k = "block".toList','if k = "block".toList','C107 caseless block')
m(G,'joinWords',"w ++ ' ' :: joinWords ws","w ++ joinWords ws",'C107 option keys')
m(G,'optVal','if lowerStr w = "true".toList then .bool true','if w = "true".toList then .bool true','C107 TRUE')
m(G,'pOption',"(k :: ks, .eq ::","(k :: _, .eq ::",'x',0)
m(G,'pAsmItem',"  | .id n :: .tix _ :: r => some (n, r)\n","",'C107 dated names')
m(G,'pAsmSub',"if lowerStr n ∈ assumptionNames","if n ∈ assumptionNames",'C107 caseless assumptions')
m(G,'isSpecial',' || lowerStr k = "assumptions".toList','','C107 assumptions block')
m(G,'pSpecial',"(.options (dictOf p.1), p.2)","(.options p.1, p.2)",'C107 repeated options')
m(G,'pSpecials',"| some (ss, r') => some (s :: ss, r')","| some (ss, r') => some (ss ++ [s], r')",'C107 the last special block counts')
m(G,'pBlocks',"| some bs => some (b :: bs)","| some bs => some bs",'C107 several blocks')
m(G,'pBlocks',"| some (b, []) => some [b]","| some (b, _) => some [b]",'C107 text after the last block')
m(G,'addSpecial',"| .tryreduce l => { m with tryreduce := l }","| .tryreduce l => { m with tryreduce := m.tryreduce ++ l }",'C107 the last special block counts')
m(G,'addSpecial',"| .options l => { m with options := l }","| .options l => { m with options := l, assumptions := [] }",'C107 special blocks are independent')
m(P,'intText',"if n < 0 then '-' :: natStr n.natAbs","if n < 0 then natStr n.natAbs",'C108 lags')
m(P,'indexText',"| .ss => \"[ss]\".toList","| .ss => \"[SS]\".toList",'C108 steady states')
m(P,'indexText',"if k = 0 then \"[]\".toList","if k ≤ 0 then \"[]\".toList",'C108 lags')
m(P,'opText',"| .sub => '-'","| .sub => '+'",'C108 minus')
m(P,'exprText',"| .var n t => n ++ indexText t","| .var n _ => n",'C108 dates')
m(P,'exprText',"| .neg e => '-' :: exprText num negPrec e","| .neg e => '-' :: exprText num 0 e",'C108 minus before sums')
m(P,'exprText',"exprText num (prec o) l ++ ' ' :: opText o :: ' ' :: exprText num (rightPrec o) r","exprText num (prec o) l ++ opText o :: exprText num (rightPrec o) r",'equivalent-looking: no spaces; harmless except * before * never happens')
m(P,'exprText',"' ' :: exprText num (rightPrec o) r","' ' :: exprText num (prec o) r",'C108 grouping')
m(P,'exprText',"if prec o < p then '(' :: (body ++ [')']) else body","body",'C108 parentheses')
m(P,'exprText',"if v.den = 1 then intText v.num else num v","intText v.num",'C108 fractions')
m(P,'exprText',"'E' :: '[' :: ']' :: '[' :: (exprText num 0 e ++ [']'])","'E' :: '[' :: ']' :: '[' :: exprText num 0 e",'C108 expectation bracket')
m(P,'argsText',"exprText num 0 a ++ ',' :: ' ' :: argsText num as","exprText num 0 a ++ ' ' :: argsText num as",'C108 arguments')
m(P,'eqnText',"| some n => \" -> \".toList ++ n | none","| some n => \" = \".toList ++ n | none",'C108 calibrated parameter')
m(P,'eqnText',"| some n => \" : \".toList ++ n ++ \"[]\".toList | none","| some n => \" : \".toList ++ n | none",'C108 multipliers need a date')
m(P,'valText',"| .none => \"None\".toList","| .none => \"null\".toList",'C108 None')
m(P,'kwText',"p.1 ++ '=' :: valText num p.2","p.1 ++ ':' :: valText num p.2",'C108 arguments of priors')
m(P,'kwText',"joinText \", \".toList (l.map fun p => p.1","joinText \"; \".toList (l.map fun p => p.1",'C108 arguments of priors')
m(P,'distText',"if kwText num d.wrapperKwargs = [] then c :: w ++ '(' :: (inner ++ [')'])\n      else ","",'C108 wrapper without arguments')
m(P,'distText',"inner ++ \", \".toList ++ kwText","inner ++ kwText",'C108 wrapper arguments')
m(P,'distText',"d.param ++ \" ~ \".toList","d.param ++ \" = \".toList",'C108 priors')
m(P,'distText',"| some v => \" = \".toList ++ num v | none => []","| some _ => [] | none => []",'C108 initial values')
m(P,'compLines',"ind ++ ind ++ l ++ [';']","ind ++ ind ++ l",'C108 semicolons')
m(P,'compLines',"[ind ++ ['}', ';'], []]","[ind ++ ['}'], []]",'C108 closing of components')
m(P,'eqnComp',"if es.isEmpty then [] else compLines","compLines",'equivalent: empty components parse as empty')
m(P,'varComp',"joinText \", \".toList (vs.map varText)","joinText \" \".toList (vs.map varText)",'C108 lists of variables')
m(P,'blockText','eqnComp num ind "constraints" b.constraints','eqnComp num ind "constraints" b.identities','C108 constraints')
m(P,'blockText','    ++ varComp ind "shocks" b.shocks\n','','C108 shocks')
m(P,'blockText','"block ".toList','"block".toList','C108 block name')
m(P,'blockText','"objective" b.objective','"objectives" b.objective','C108 component keywords')
m(P,'calText',"| .prior d => distText num d","| .prior d => d.param",'C108 priors')
m(P,'optText',"| .bool true => \"TRUE\".toList","| .bool true => \"1\".toList",'C108 options')
m(P,'optText',"| .bool false => \"FALSE\".toList","| .bool false => \"TRUE\".toList",'C108 options')
m(P,'optionsText',"optText p.2 ++ [';']","optText p.2",'C108 options end')
m(P,'tryreduceText',"joinText \", \".toList l ++ [';']","joinText \", \".toList (l.map fun n => n ++ ['[', ']']) ++ [';']",'C108 tryreduce is printed without dates')
m(P,'asmGroups',"if kv.2 then dset","if true then dset",'equivalent: on models that were parsed all assumptions are true')
m(P,'asmGroups',"(dget g kv.1).getD [] ++ [va.1]","[va.1]",'C108 assumptions of several variables')
m(P,'assumptionsText',"joinText \", \".toList (sortBy strLe p.2)","joinText \", \".toList ((sortBy strLe p.2).drop 1)",'C108 assumptions')
m(P,'modelText',"joinText ['\\n', '\\n'] (","joinText [] (",'equivalent: sections end with }; so need no separator')
m(P,'modelText',"    ++ m.blocks.map (blockText num ind))","    ++ (m.blocks.take 1).map (blockText num ind))",'C108 all blocks')
m(P,'modelText',"(if m.options.isEmpty then [] else [optionsText ind m.options])","[]",'C108 options')
out=[]
for i,(f,d,o,n,c,k) in enumerate([x for x in L if x[5]]):
    if src[f].count(o)!=k: print('BAD',d,o,src[f].count(o)); continue
    out.append(dict(id=f'j{i:03d}',file=f,**{'def':d},old=o,new=n,claim=c,edit=f'`{o}` -> `{n}`',count=k))
json.dump(out,open('m10.json','w'),indent=0); print(len(out))
