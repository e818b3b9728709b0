import json
L=[]
def m(file,d,old,new,claim,count=1,nth=None): L.append((file,d,old,new,claim,count,nth))
B='BKReport'
m(B,'computeBK',"(order (bkEigenvalues q), bkForward C tol)","(bkEigenvalues q, bkForward C tol)",'C139 sorted')
m(B,'computeBK',"(order (bkEigenvalues q), bkForward C tol)","(order (bkEigenvalues q), bkForward A tol)",'C139 forward columns')
m(B,'computeBK',"(order (bkEigenvalues q), bkForward C tol)","(order ((bkEigenvalues q).drop 1), bkForward C tol)",'C139 complete')
m(B,'checkBKCondition',"checkBK (computeBK order q).1 (computeBK order q).2","checkBK (bkEigenvalues q) (computeBK order q).2",'C139 sorted')
m(B,'bkMessage',"natStr nUnstable ++ \" eigenvalues","natStr nForward ++ \" eigenvalues",'C139 message counts')
m(B,'bkMessage',"(if nForward = nUnstable then [] else \" NOT\".toList)","(if nForward ≤ nUnstable then [] else \" NOT\".toList)",'C139 message verdict')
m(B,'bkMessage',"else if nForward < nUnstable then","else if nUnstable < nForward then",'C139 message reason')
m(B,'summarize',"fits B vars.length &&","",'C139 sizes')
m(B,'summarize',"X.rows == A.rows && X.cols == c","X.cols == c",'C139 sizes')
m(B,'summarize',"fits D shocks.length","fits D vars.length",'C139 sizes of D')
m(B,'summarize',"equation := List.range A.rows","equation := List.range A.cols",'C139 equation labels')
m(B,'summarize',"shockNames := shocks.map TSym.base","shockNames := vars.map TSym.base",'C139 shock labels')
m(B,'summarize',"| _, _ => .error .solutionNotFound","| _, _ => .error .conflictingSizes",'C139 missing solution')
m(B,'NArr.sel',"if i ∈ rowLabels ∧ name ∈ colLabels then","if name ∈ colLabels then",'C139 lookup of labels')
m(B,'NArr.sel',"some (X.at_ ⟨_, h.1⟩ ⟨_, h.2⟩)","some 0",'C139 lookup')
G='Gensys'
m(G,'setupG0',"-((fromBlocks B C (-1) 0)","-((fromBlocks B C 1 0)",'C137 pencil')
m(G,'setupG0',"-((fromBlocks B C (-1) 0)","-((fromBlocks C B (-1) 0)",'C137 pencil')
m(G,'setupG1',"(fromBlocks A 0 0 1).submatrix","(fromBlocks A 0 0 (-1)).submatrix",'C137 pencil')
m(G,'setupPsi',"(fromRows D 0).submatrix","(fromRows (-D) 0).submatrix",'C138 shocks enter')
m(G,'setupPi',"(fromRows (0 : Mat n n) (1 : Mat n n))","(fromRows (1 : Mat n n) (1 : Mat n n))",'C138 expectation errors')
m(G,'bkEigenvalues',"p.2 / (p.1 + (tol : ℂ))","p.1 / (p.2 + (tol : ℂ))",'C137 roots inverted')
m(G,'bkForward',"tol < ∑ i, |C i j|","tol < ∑ i, |C j i|",'C137 columns',2,1)
m(G,'bkForward',"tol < ∑ i, |C i j|","tol < |∑ i, C i j|",'C137 cancelling entries',2,1)
m(G,'bkUnstable',"1 < Real.sqrt (z.re ^ 2 + z.im ^ 2)","1 < Real.sqrt (z.re ^ 2)",'C137 complex roots')
m(G,'bkUnstable',"1 < Real.sqrt (z.re ^ 2 + z.im ^ 2)","1 ≤ Real.sqrt (z.re ^ 2 + z.im ^ 2)",'C137 unit roots')
m(G,'checkBK',"if nForward ≠ nU ∧ raiseOnFailure","if nForward < nU ∧ raiseOnFailure",'C40 raise on failure')
m(G,'checkBK',".flag (decide (nForward = nU))",".flag (decide (nForward ≤ nU))",'C40 flag')
S='Statistics'
m(S,'stationaryCov',"lyap T","lyap Tᵀ",'C47 Lyapunov equation',None)
P='Perturbation'
m(P,'jacEntry',"eqToSSIn d.tsyms shocks d","eqToSSIn d.tsyms [] d",'C140 shocks are zero')
m(P,'jacEntry',"eqToSSIn d.tsyms shocks d","eqToSSIn d.tsyms (shocks.take 1) d",'C140 all shocks are zero')
m(P,'linearizeModel',"let scale := sys.scale.map (Scale.eval ssv)","let scale := sys.scale.map fun _ => (1 : K)",'C141 units')
m(P,'linearizeModel',"C := scaledRows (ev ssv) scale sys.C","C := scaledRows (ev ssv) (scale.map fun _ => 1) sys.C",'C141 units')
m(P,'linearizeModel',"(some dr.eqOrder) (some dr.varOrder)","(some dr.eqOrder) none",'C140 order of variables')
m(P,'linearizeModel',"(dget (normalizeConditions ss) v.base).getD 0","(dget ss v.base).getD 0",'C141 steady state by name')
m(P,'undoOrders',"B := takeRows dr.invEqOrder M.B, C","B := M.B, C",'C140 order of equations')
m(P,'undoOrders',"B := takeCols dr.invVarOrder M.B, C","B := M.B, C",'C140 order of variables')
N='LinearSolve'
m(N,'norm1',"⨆ j, ∑ i, |M i j|","|∑ i, ∑ j, M i j|",'C61 norm')
m(N,'norm1',"⨆ j, ∑ i, |M i j|","⨆ i, ∑ j, |M i j|",'C61 norm by rows')
m(N,'crStep',"A1hat := s.A1hat - tmp.toBlocks₂₁","A1hat := s.A1hat - tmp.toBlocks₁₂",'C61 iteration')
m(N,'crLoop',"if norm1 s'.A2 < tol then some (.done s') else crLoop tol left s'","some (.done s')",'C61 both norms')
T='Time'
m(T,'mergeAssumptions',"dupdate defaultAssumptions (user.getD [])","dupdate (user.getD []) defaultAssumptions",'C44 user wins')
m(T,'mergeAssumptions',"dupdate defaultAssumptions (user.getD [])","user.getD defaultAssumptions",'C44 defaults also for declared')
m(T,'defaultAssumptions',", (['f','i','n','i','t','e'], true)]","]",'C44 finite')
V='ValidationText'
m(V,'isBreak',"'\\u2028', '\\u2029'","'\\u2028'",'C126 breaks')
m(V,'isSpace',"isBreak c || c ∈ ['\\t', ' ',","isBreak c || c ∈ ['\\t',",'C126 blanks')
m('ParserMisc','addAssumption',"(if name = unitInterval then dset a positiveStr true else a)","(if name = unitInterval then dset a positiveStr false else a)",'C44 unit interval')
m('ParserMisc','addAssumption',"(dget d v).getD parserDefaults","parserDefaults",'C44 several assumptions')
out=[]
for i,(f,d,o,n,c,cnt,nth) in enumerate(L):
    s=open(f'/verif/lean/Verif/Model/{f}.lean').read()
    k=s.count(o)
    if cnt is None: cnt=k
    r=dict(id=f'x{i:03d}',file=f,old=o,new=n,claim=c,edit=f'`{o}` -> `{n}`',count=cnt,**{'def':d})
    if k!=cnt or k==0: print('BAD',r['id'],f,d,k); continue
    out.append(r)
json.dump(out,open('m19.json','w'),indent=1); print(len(out))
l=[x for x in json.load(open('m18.json')) if x['id'] in 'w011,w015,w038,w042,w043,w048'.split(',')]
for x in l:
    k=open(f"/verif/lean/Verif/Model/{x['file']}.lean").read().count(x['old'])
    if k!=x.get('count',1): print('BADRERUN',x['id'],k)
json.dump(l,open('m18b.json','w'),indent=1)
