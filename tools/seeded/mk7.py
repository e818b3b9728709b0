import json
src={f:open(f'/verif/lean/Verif/Model/{f}.lean').read() for f in ('Diagnostics','Cache')}
L=[]
def m(file,d,old,new,claim,count=1):
    L.append((file,d,old,new,claim,count))
D='Diagnostics'
m(D,'gEconRep',"R' := PP.submatrix id Subtype.val","R' := T.submatrix id Subtype.val",'C88 truncated solution used')
m(D,'gEconRep',"S' := QQ }","S' := R }",'C88 truncated impact used')
m(D,'gEconRep',"Q := QQ.submatrix Subtype.val id\n    R","Q := 2 • QQ.submatrix Subtype.val id\n    R",'C88 representation of state impact')
m(D,'gEconRep',"R := PP.submatrix Subtype.val Subtype.val\n    S","R := 0\n    S",'C88 representation of jumpers')
m(D,'gEconRep',"S := QQ.submatrix Subtype.val id\n    A'","S := 0\n    A'",'C88 representation of jumper impact')
m(D,'gEconRep',"A' := A.submatrix id Subtype.val","A' := -A.submatrix id Subtype.val",'C88 norm formula')
m(D,'frob',"M i j ^ 2)","M i j)",'C88 Frobenius norm')
m(D,'residualNorms',"C * g.R' * g.P)","g.R' * g.P)",'C88 quadratic term',1)
m(D,'residualNorms',"C * g.R' * g.Q + D","C * g.R' * g.Q - D",'C88 stochastic norm')
m(D,'solveLinear',"let solver := if backward then \"backward_direct\".toList else solver\n  if solver = \"gensys\"","let solver := solver\n  if solver = \"gensys\"",'C89 backward-looking override')
m(D,'solveLinear',"modelSolveGensys m.D o onFailureError","modelSolveGensys m.D o false",'C89 error mode never returns None')
m(D,'solveLinear',"modelSolveGensys m.D o onFailureError","modelSolveGensys m.D o true",'C89 ignore mode returns None')
m(D,'solveLinear',"| .nothing => .ok none","| .nothing => .error .gensysFailed",'C89 ignore mode returns None')
m(D,'solveLinear',"solveWithCR m.A m.B m.C m.D maxIter tol","solveWithCR m.C m.B m.A m.D maxIter tol",'C89 argument order')
m(D,'solveLinear',"    if backward then\n      match solveBackwardDirect m.A m.B m.C m.D with","    if true then\n      match solveBackwardDirect m.A m.B m.C m.D with",'C89 backward solver refused for models with leads')
m(D,'solveLinear',"match solveBackwardDirect m.A m.B m.C m.D with\n      | none => .error (.numpy .singular)","match solveBackwardDirect m.A m.C m.B m.D with\n      | none => .error (.numpy .singular)",'C89 argument order')
m(D,'solveLinear',"else .error .unknownSolver","else .ok none",'C89 unknown solver refused')
m(D,'solveModel',"if onFailure ≠ \"error\".toList ∧ onFailure ≠ \"ignore\".toList then","if onFailure ≠ \"error\".toList ∨ onFailure ≠ \"ignore\".toList then",'C89 on_failure validated')
m(D,'solveModel',"if onFailure ≠ \"error\".toList ∧ onFailure ≠ \"ignore\".toList then .error .badOnFailure","if False then .error .badOnFailure",'C89 on_failure validated')
m(D,'solveModel',"(decide (onFailure = \"error\".toList))","(decide (onFailure = \"ignore\".toList))",'C89 failure mode')
m(D,'solveModel',"| some (ss, _) =>\n      match","| some (ss, false) => .error .steadyState\n    | some (ss, true) =>\n      match",'C89 finding: success flag ignored')
m(D,'Fl.gt',"| none => false\n  | some v => decide (tol < v)","| none => true\n  | some v => decide (tol < v)",'C86 NaN norms (finding)')
m(D,'Fl.gt',"decide (tol < v)","decide (tol ≤ v)",'C86 norm boundary')
m(D,'normStep',"if d.gt normTol then some .deterministicNorm else if s.gt normTol then some .stochasticNorm","if s.gt normTol then some .stochasticNorm else if d.gt normTol then some .deterministicNorm",'C86 first failing stage')
m(D,'normStep',"else if s.gt normTol then some .stochasticNorm else none","else none",'C86 stochastic norm checked')
m(D,'checkOneDraw',"| .numeric => some ⟨some .steadyState, none, none⟩","| .numeric => none",'C86 numeric steady-state failures are labelled')
m(D,'checkOneDraw',"| .ret (_, false) => some ⟨some .steadyState, none, none⟩","| .ret (_, false) => some ⟨some .perturbation, none, none⟩",'C86 label of a failed steady state')
m(D,'checkOneDraw',"| .ret none => some ⟨some .perturbation, none, none⟩","| .ret none => some ⟨none, none, none⟩",'C86 missing solution labelled')
m(D,'checkOneDraw',"    | .numeric => some ⟨some .perturbation, none, none⟩\n    | .ret l","    | .numeric => some ⟨some .steadyState, none, none⟩\n    | .ret l",'C86 label of failed linearisation')
m(D,'checkOneDraw',"| .ret false => some ⟨some .blanchardKahn, none, none⟩","| .ret false => some ⟨none, none, none⟩",'C86 BK failure labelled')
m(D,'checkOneDraw',"| .numeric => none\n        | .other => none","| .numeric => some ⟨some .blanchardKahn, none, none⟩\n        | .other => none",'C86 finding: BK exceptions escape')
m(D,'checkOneDraw',"| .ret (d, s) => some ⟨normStep normTol d s, d, s⟩","| .ret (d, s) => some ⟨normStep normTol d s, s, d⟩",'C86 norms reported in their columns')
m(D,'checkOneDraw',"| .ret (d, s) => some ⟨normStep normTol d s, d, s⟩","| .ret (d, s) => some ⟨normStep normTol s d, d, s⟩",'C86 first failing stage')
m(D,'checkOneDraw',"| .numeric => some ⟨some .deterministicNorm, none, none⟩","| .numeric => some ⟨none, none, none⟩",'C86 norm failure labelled')
m(D,'npCall',"if n = 1 then .other else .numeric","if n = 1 then .numeric else .other",'C86 class of numpy errors')
m(D,'npCall',"| .singular => .numeric","| .singular => .other",'C86 class of numpy errors')
m(D,'solvePerturbation',"let effective := if backward then \"backward_direct\".toList else solver","let effective := solver",'C86 backward-looking override')
m(D,'solvePerturbation',"solvePolicyCR m.A m.B m.C m.D maxIter tol","solvePolicyCR m.C m.B m.A m.D maxIter tol",'C86/C89 same solver')
m(D,'solvePerturbation',"if eu.1 = 1 ∧ eu.2.1 = 1 then .ret (some","if eu.1 = 1 then .ret (some",'C86 uniqueness required')
m(D,'solvePerturbation',"if eu.1 = 1 ∧ eu.2.1 = 1 then .ret (some","if eu.1 = 1 ∨ eu.2.1 = 1 then .ret (some",'C86 both codes required')
m(D,'solvePerturbation',"  else .numeric\n\n/-- the tolerance","  else .ret none\n\n/-- the tolerance",'C86 unknown solver (same label)')
m(D,'solvePerturbation',"| (none, _) => .ret none","| (none, _) => .other",'C86 gensys without solution')
m(D,'bkCall',"(bkForward m.C bkTol)","(bkForward m.A bkTol)",'C86 BK counts leads')
m(D,'bkCall',"| .ok (.flag b) _ _ _ => .ret b","| .ok (.flag b) _ _ _ => .ret (!b)",'C86 BK verdict')
m(D,'checkDraw',".ret (some r.1, some r.2)) normTol u",".ret (some r.2, some r.1)) normTol u",'C86 norms swapped')
m(D,'checkDraw',"residualNorms m.A m.B m.C m.D p.1 p.2 tol","residualNorms m.C m.B m.A m.D p.1 p.2 tol",'C86 norms of the model')
m(D,'isIdentifier',"(c.isAlpha || c == '_')","(c.isAlphanum || c == '_')",'C86 parameters')
m(D,'badField',"|| decide (name ∈ pyKeywords)","",'C86 finding: keywords')
m(D,'badField',"|| decide (name ∈ seen)","",'C86 duplicates renamed')
m(D,'renameFields',"renameFields (i + 1) (name :: seen) rest","renameFields (i + 2) (name :: seen) rest",'C86 renamed positions')
m(D,'paramDict',".filter fun p => decide (p.1 ≠ indexName)","",'C86 the row label is no parameter')
m(D,'paramDict',"(row.1 :: row.2)","row.2",'C86 values aligned with names')
m(D,'runParallel',"(finished.filterMap fun i => us[i]?).mapM check","us.mapM check",'C86 finding: order of completion')
m(D,'solvabilityCheck',"if cores = 1 then .ok (runSerial check dicts)\n    else if cores < 1","if cores ≤ 1 then .ok (runSerial check dicts)\n    else if cores < 1",'C86 cores validated')
m(D,'solvabilityCheck',"| .ok (some []) => .error .noSamples\n","",'C86 empty samples')
m(D,'solvabilityCheck',".ok (f.rows.zip results)",".ok (f.rows.zip results.reverse)",'C86 rows aligned')
m(D,'collectPriors',"decide (x ∉ dkeys priors)","decide (x ∈ dkeys priors)",'C86 unknown names refused')
m(D,'collectPriors',"priors.filter fun p => decide (p.1 ∈ ns)","priors.filter fun p => decide (p.1 ∉ ns)",'C86 subset')
m(D,'collectPriors',"if unknown.isEmpty then .ok (priors.filter fun p => decide (p.1 ∈ ns)) else .error (.unknown unknown)",".ok (priors.filter fun p => decide (p.1 ∈ ns))",'C86 unknown names refused')
m(D,'collectPriors',"if priors.isEmpty then .error .noPriors\n  else","if false then .error .noPriors\n  else",'C86 no priors refused')
m(D,'SeedArg.forQmc',"| .int k => Option.some k","| .int k => Option.some (k + 1)",'C87 seed used (values not observable: equivalent up to relabelling)')
m(D,'SeedArg.forQmc',"| .int k => Option.some k","| .int _ => Option.none",'C87 reproducibility')
m(D,'sobolRefuses',"n &&& (n - 1) ≠ 0","n &&& (n + 1) ≠ 0",'C87 powers of two')
m(D,'sobolRefuses',"n &&& (n - 1) ≠ 0","n % 2 ≠ 0",'C87 powers of two')
m(D,'engineOf',"if method = \"lhs\".toList then some .lhs\n  else if method = \"sobol\"","if method = \"lhs\".toList then some .sobol\n  else if method = \"sobol\"",'C87 engine')
m(D,'engineOf',"else if method = \"halton\".toList then some .halton\n  else if method = \"poisson_disk\"","else if method = \"poisson_disk\"",'C87 methods')
m(D,'qmcScale',"p.1 < p.2 then","p.1 ≤ p.2 then",'C87 bounds ordered')
m(D,'qmcScale',"x * (p.2 - p.1) + p.1","x * p.2 + p.1",'C87 within bounds')
m(D,'qmcScale',"x * (p.2 - p.1) + p.1","x * (p.1 - p.2) + p.1",'C87 within bounds')
m(D,'qmcScale',"0 ≤ x ∧ x ≤ 1 then","0 ≤ x then",'C87 within bounds')
m(D,'sampleUniform',"if method = \"sobol\".toList ∧ sobolRefuses n then .error .notPowerOfTwo\n  else\n    let unit","if False then .error .notPowerOfTwo\n  else\n    let unit",'C87 Sobol sizes')
m(D,'sampleUniform',"src.uniform d n seed ω","src.uniform n d seed ω",'C87 shape')
m(D,'sampleUniform',"src.unit e d n seed.forQmc ω\n    match","src.unit e d n none ω\n    match",'C87 reproducibility')
m(D,'sampleUniform',"qmcScale pts l u","qmcScale pts u l",'C87 bounds')
m(D,'sampleUniform',"let l := bounds.map fun b => b.2.1","let l := (bounds.map fun b => b.2.1).reverse",'C87 own bounds')
m(D,'boundsFromPriors',"(x.2.ppf (1 - p), x.2.ppf p)","(x.2.ppf ((1 - p) / 2), x.2.ppf ((1 + p) / 2))",'C87 finding: fallback')
m(D,'boundsFromPriors',"(x.2.hdi p)","(x.2.hdi (1 - p))",'C87 hdi probability')
m(D,'ppfEngineOf',"if method = \"sobol\".toList then some .sobol\n  else if method = \"halton\".toList then some .halton\n  else if method = \"lhs\"","if method = \"sobol\".toList then some .lhs\n  else if method = \"halton\".toList then some .halton\n  else if method = \"lhs\"",'C87 engine')
m(D,'clip',"min (max x eps) (1 - eps)","max (min x eps) (1 - eps)",'C87 clip')
m(D,'clip',"min (max x eps) (1 - eps)","max x eps",'C87 clip')
m(D,'sampleFromPriorsQmc',"q.2.ppf (clip eps x)","q.2.ppf x",'C87 clip')
m(D,'sampleFromPriorsQmc',"if method = \"sobol\".toList ∧ sobolRefuses n then .error .notPowerOfTwo\n  else\n    match","if False then .error .notPowerOfTwo\n  else\n    match",'C87 Sobol sizes (ppf)')
m(D,'sampleFromPriorsQmc',"let pts := src.unit e d n seed.forQmc ω","let pts := src.unit e d n none ω",'C87 reproducibility (ppf)')
m(D,'sampleFromPriorsQmc',"| none => .error .unknownMethod\n    | some e =>\n      let pts","| none => .ok ⟨dkeys priors, []⟩\n    | some e =>\n      let pts",'C87 unknown method refused (ppf)')
m(D,'samplerOf',"method.length - 4","method.length - 3",'C86 dispatch')
m(D,'samplerOf',"if method = \"random\".toList then .rvs\n  else if","if",'C86 dispatch')
C='Cache'
m(C,'Lru.call',"(k, v) :: s.entries.filter fun e => decide (e.1 ≠ k), hits","s.entries, hits",'C90 recency on hit')
m(C,'Lru.call',"((k, v) :: s.entries).take cap","(s.entries ++ [(k, v)]).take cap",'C90 eviction order')
m(C,'Lru.call',"((k, v) :: s.entries).take cap","((k, v) :: s.entries)",'C90 size')
m(C,'Lru.call',"misses := s.misses + 1","misses := s.misses",'C90 counters')
m(C,'Lru.call',"| some v => (v, {","| some _ => (compute k, {",'equivalent (returns the same value)')
m(C,'Lru.run',"| _, .clear :: ops => Lru.run cap compute Lru.empty ops","| s, .clear :: ops => Lru.run cap compute s ops",'C90 clear empties the cache')
m(C,'nodeOf',"next := s.next + 1 })\n\n/-- the loop","next := s.next })\n\n/-- the loop",'C90 distinct nodes')
m(C,'nodeOf',"| some i => (i, s)","| some _ => (s.next, { s with next := s.next + 1 })",'C90 same node')
m(C,'nodeOf',"nodes := s.nodes ++ [(key, s.next)], next","nodes := s.nodes, next",'C90 same node')
m(C,'nodesOf',"let rest := nodesOf r.2 ks","let rest := nodesOf s ks",'C90 nodes kept')
m(C,'equationTensors',"{ s with eqs := some (build true) }","{ s with fullEqs := some (build true) }",'C90 the two lists are separate')
m(C,'equationTensors',"| none => (build false, { s with fullEqs := some (build false) })","| none => (build true, { s with fullEqs := some (build true) })",'C90 unfiltered equations')
m(C,'loglinSelected',"!p.2","p.2",'C90 selection')
m(C,'symbolicLinearization',"let key := names.toFinset","let key := vars.toFinset",'C90 cache key distinguishes choices')
m(C,'symbolicLinearization',"next := s.next + 1 })\n\n/-- the compiled","next := s.next })\n\n/-- the compiled",'C90 identities of graphs')
m(C,'linearizeFunction',"| some f => (f, g.2)\n","| some f => (f, s)\n",'C90 (state)')
m(C,'linearizeFunction',"g.2.lin ++ [(g.1.1, compile g.1.2)]","g.2.lin ++ [(0, compile g.1.2)]",'C90 compiled function keyed by its graph')
out=[]
for i,(f,d,o,n,c,k) in enumerate(L,1):
    assert src[f].count(o)>=1,(i,f,d,o,src[f].count(o))
    cnt=src[f].count(o)
    if cnt>1: print('multi',i,d,o,cnt)
    out.append(dict(id=f'g{i:03d}',file=f,**{'def':d},old=o,new=n,claim=c,edit=f'`{o}` -> `{n}`',count=1))
json.dump(out,open('m7.json','w'),indent=1,ensure_ascii=False); print(len(out))
