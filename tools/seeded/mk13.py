import json
F=('SSGraphs',)
src={f:open(f'/verif/lean/Verif/Model/{f}.lean').read() for f in F}
L=[]
def m(file,d,old,new,claim,count=1,nth=None): L.append((file,d,old,new,claim,count,nth))
G='SSGraphs'
m(G,'TG.grad',"| .abs a => .mul (.sgn a) (a.grad x)","| .abs a => .mul (.abs a) (a.grad x)",'C123 gradient of abs')
m(G,'TG.grad',"| .mul a b => .add (.mul (a.grad x) b) (.mul a (b.grad x))","| .mul a b => .mul (a.grad x) b",'C123 product rule')
m(G,'TG.grad',"(.inv (.mul (.s (.num 2)) (.sqrt a)))","(.inv (.sqrt a))",'C123 gradient of the norm')
m(G,'TG.grad',"(.mul (.s (.num (-1))) (.inv (.mul a a)))","(.inv (.mul a a))",'C123 gradient of a quotient')
m(G,'TG.grad',"| .dir _ => .s (.num 0)","| .dir _ => .s (.num 1)",'C123 Hessian-vector product')
m(G,'TG.grad',"| .sgn _ => .s (.num 0)","| .sgn a => a.grad x",'C123 Hessian of abs')
m(G,'errorGraph',"| .abs => some (TG.sum (resid.map fun r => .abs (.s r)))","| .abs => some (TG.sum (resid.map fun r => .s r))",'C123 absolute error')
m(G,'errorGraph',"(.inv (.s (.num resid.length))))","(.s (.num 1)))",'C123 mean squared error')
m(G,'errorGraph',"| .l2norm => some (.sqrt (TG.sum (resid.map fun r => .mul (.s r) (.s r))))","| .l2norm => some (TG.sum (resid.map fun r => .mul (.s r) (.s r)))",'C123 norm')
m(G,'errorGraph',"| .squared => some (TG.sum (resid.map fun r => .mul (.s r) (.s r)))","| .squared => some (.sqrt (TG.sum (resid.map fun r => .mul (.s r) (.s r))))",'C123 squared error')
m(G,'errorGraph',"| .other => none","| .other => some (.s (.num 0))",'C123 unknown error function')
m(G,'TG.sum',"l.foldr .add (.s (.num 0))","l.foldr .add (.s (.num 1))",'C123 error')
m(G,'stackColumns',"(List.range n).map fun i => columns.filterMap fun c => c[i]?","columns",'C123 Jacobian is not transposed')
m(G,'connected',"nodes.filter fun n => n ∉ outputs.flatten","nodes.filter fun n => n ∈ outputs.flatten",'C123 refusals')
m(G,'connected',"if bad = [] then .ok () else .error (.disconnected bad)","if bad.length ≤ 1 then .ok () else .error (.disconnected bad)",'C123 refusals')
m(G,'connected',".error (.disconnected bad)",".error (.disconnected nodes)",'C123 the unknowns named')
m(G,'buildRootGraphs',"if equations ≠ [] ∧ nodes ≠ [] then","if equations ≠ [] then",'equivalent? C123 no unknowns')
m(G,'buildRootGraphs',"(nodes.map fun x => equations.map (SExpr.diff x))","(nodes.reverse.map fun x => equations.map (SExpr.diff x))",'C123 Jacobian columns')
m(G,'buildRootGraphs',"List.replicate equations.length (List.replicate nodes.length (.num 0))","List.replicate nodes.length (List.replicate equations.length (.num 0))",'C123 shape')
m(G,'buildRootGraphs',"else .ok (equations, none)","else .ok (equations.reverse, none)",'C123 residual order')
m(G,'hessianVectorProduct',".mul (error.grad x.1) (.dir x.2)",".mul (error.grad x.1) (.dir 0)",'C123 Hessian-vector product')
m(G,'hessianVectorProduct',"nodes.map fun x => g.grad x","nodes.map fun x => g",'C123 Hessian-vector product')
m(G,'hessianVectorProduct',"(nodes.zipIdx).map","(nodes.zipIdx 1).map",'C123 Hessian-vector product')
m(G,'buildMinimizeGraphs',"if useJac || useHess || useHessp then","if useJac || useHess then",'C123 which derivatives')
m(G,'buildMinimizeGraphs',"if nodes = [] then .error .emptyStack","if False then .error .emptyStack",'C123 refusals')
m(G,'buildMinimizeGraphs',"let grad := nodes.map fun x => error.grad x","let grad := nodes.reverse.map fun x => error.grad x",'C123 gradient order')
m(G,'buildMinimizeGraphs',"connected [error.syms] nodes","connected (equations.map SExpr.syms) []",'C123 refusals')
m(G,'buildMinimizeGraphs',"if useHess then some (stackColumns","if useHessp then some (stackColumns",'C123 Hessian')
m(G,'buildMinimizeGraphs',"hessp := if useHessp then some","hessp := if useHess then some",'C123 Hessian-vector product')
m(G,'buildMinimizeGraphs',"grad.map fun g => g.grad x)","grad.map fun g => g)",'C123 Hessian')
m(G,'buildMinimizeGraphs',"else .ok { error := error, grad := none","else .ok { error := error, grad := some (nodes.map fun x => error.grad x)",'C123 no gradient asked for')
m(G,'callHessp',"if (dkeys kw).any fun k => k ∈ dkeys params then none\n  else if","if",'equivalent under the hypothesis on names? C123')
m(G,'callHessp',"fun n => (n.1, x n.2))","fun n => (n.1, p n.2))",'C123 point of the Hessian')
m(G,'callHessp',"TG.eval p fun s","TG.eval x fun s",'C123 direction')
m(G,'rootCall','kw.method.getD "hybr".toList','kw.method.getD "lm".toList','C123 method')
m(G,'rootCall','["hybr".toList, "df-sane".toList]','["hybr".toList]','C123 budget')
m(G,'rootCall','then "maxfev".toList else "maxiter".toList','then "maxiter".toList else "maxfev".toList','C123 budget')
m(G,'rootCall',"dset (kw.options.getD []) key","dset [] key",'C123 options kept')
m(G,'rootCall',"x0 := initialX0 kw.x0 asm","x0 := initialX0 none asm",'C123 start')
m(G,'rootCall',"tol := kw.tol,","tol := none,",'C123 tolerance')
m(G,'rootCall',"kw.maxiter.getD 5000)\n  match","500)\n  match",'C123 budget')
m(G,'BoundPlan.setup',"⟨m, transformEquations equations nodes ts,","⟨m, equations,",'C123 transformed equations')
m(G,'BoundPlan.setup',"toUnconstrained ts (x0.map fun q => (q : ℝ)), none⟩","x0.map (fun q => some (q : ℝ)), none⟩",'C123 start')
m(G,'BoundPlan.setup',"x0.map fun q => some (q : ℝ), some b⟩","x0.map fun q => some (q : ℝ), none⟩",'C123 bounds')
m(G,'BoundPlan.setup',"| .box m b => ⟨m, equations,","| .box m b => ⟨m, equations.reverse,",'equivalent (a sum) C123')
m(G,'minOptions','dset options "maxfun".toList maxiter','dset options "maxfev".toList maxiter','C123 budget')
m(G,'minOptions','"maxiter".toList maxiter','"maxfev".toList maxiter','C123 budget')
m(G,'minOptions','if method = "L-BFGS-B".toList then','if method = "powell".toList then','C123 budget')
m(G,'minOptions','let maxiter := kw.maxiter.getD 5000','let maxiter := 5000','C123 budget')
m(G,'minOptions','dset (kw.options.getD []) "maxiter"','dset [] "maxiter"','C123 options kept')
m(G,'minimizeCall',"if useHess && useHessp then false else useHess","useHess",'C123 flags')
m(G,'minimizeCall',"if useHess && useHessp then false else useHess","false",'C123 flags')
m(G,'minimizeCall',"initialX0 kw.x0 (nodes","initialX0 none (nodes",'C123 start')
m(G,'minimizeCall',"buildMinimizeGraphs st.eqs nodes","buildMinimizeGraphs equations nodes",'C123 equations in the solver space')
m(G,'minimizeCall',"kw.tol.getD (1 / 10 ^ 30)","kw.tol.getD (1 / 10 ^ 8)",'C123 tolerance')
m(G,'minimizeCall',"bounds := st.bounds","bounds := none",'C123 bounds')
m(G,'minimizeCall',"user preferTransform kw.method).setup","user false kw.method).setup",'C123 prefer_transform')
m(G,'minimizeCall',"user preferTransform kw.method).setup","user preferTransform none).setup",'C123 method')
m(G,'minimizeCall',"boundPlan parAsm nodes user","boundPlan parAsm nodes []",'C123 user bounds')
m(G,'minimizeCall',"minOptions st.method kw","minOptions (kw.method.getD []) kw",'equivalent? C123 options')
m(G,'rootGradient',"row.getD j 0 * r","row.getD 0 0 * r",'C123 gradient after root')
m(G,'rootGradient',"2 * (List.zipWith","(List.zipWith",'C123 gradient after root')
m(G,'rootGradient',"(List.range nodes.length).map fun j","(List.range equations.length).map fun j",'C123 gradient after root')
m(G,'rootGradient',"(List.zipWith (fun row r => row.getD j 0 * r) jac resid).sum","(List.zipWith (fun row r => row.getD j 0 * r) jac resid.reverse).sum",'C123 gradient after root')
m(G,'TG.evalN',"if v = 0 then none else some v⁻¹","some v⁻¹",'C123 division by zero')
out=[]
for i,(f,d,o,n,c,k,nth) in enumerate(L):
    cnt=src[f].count(o)
    if cnt!=k: print('COUNT',i,d,cnt,o)
    e=dict(id=f'o{i:03d}',file=f,old=o,new=n,claim=c,edit=f'`{o}` -> `{n}`',count=k); e['def']=d
    if nth is not None: e['nth']=nth
    out.append(e)
json.dump(out,open('m13.json','w'),indent=0)
print(len(out))
