import json
src={f:open(f'/verif/lean/Verif/Model/{f}.lean').read() for f in ('Tensor','RealEig')}
L=[]
def m(file,d,old,new,claim,count=1): L.append((file,d,old,new,claim,count))
T='Tensor'
m(T,'transposeOfJoin',"then (n : Int) - 2 else if ja = (n : Int) - 2 then (n : Int) - 1 else ja","then (n : Int) - 1 else if ja = (n : Int) - 2 then (n : Int) - 2 else ja",'C100 transposed axis')
m(T,'transposeOfJoin',"then (n : Int) - 1 else ja","then (n : Int) - 2 else ja",'C100 transposed axis')
m(T,'transposeOfJoin',"then (n : Int) - 1 else ja\n      some (.join (.const na) (xs.map .mT))","then (n : Int) - 1 else ja\n      some (.join (.const na) xs)",'C100 pieces transposed')
m(T,'transposeOfJoin',"      let ja := normAxis n z\n      let na","      let ja := z\n      let na",'C100 negative axes')
m(T,'transposeOfJoin',"some (.join (.const na) (xs.map .mT))","some (.join (.const na) (xs.reverse.map .mT))",'C100 order')
m(T,'normAxis',"then z + n else z\n\n/-- `local_tr","then z + n - 1 else z\n\n/-- `local_tr",'C100 normalised axis')
m(T,'joinMatmulAxis',"if a = (n : Int) - 1 then some (-1) else if a = (n : Int) - 2 then some (-2) else none","if a = (n : Int) - 2 then some (-1) else if a = (n : Int) - 1 then some (-2) else none",'C100 grid orientation')
m(T,'collectGrid',"if joinMatmulAxis st row ≠ some (-1) then none\n    else ","",'C100 rows are column joins')
m(T,'collectGrid',"else if (joinInputs row).length ≠ n then none\n    else (collect","else (collect",'C100 square grids')
m(T,'diagRow',"decide (p.2 = i) || st.isZero p.1","st.isZero p.1 || true",'C100 zero blocks')
m(T,'diagRow',"then row[i]? else none","then row[0]? else none",'C100 diagonal entry')
m(T,'diagRow',"decide (p.2 = i) || st","decide (i ≤ p.2) || st",'C100 zero blocks')
m(T,'nestedJoinToBlockDiag',"≠ some (-2) then none\n    else if rows.length","≠ some (-1) then none\n    else if rows.length",'C100 grid orientation')
m(T,'nestedJoinToBlockDiag',"if joinMatmulAxis st (.join axis rows) ≠ some (-2) then none\n    else ","",'C100 outer axis checked')
m(T,'splitUndoesJoin',"if js.map Int.ofNat = ss then xs[k]? else none","xs[k]?",'C100 split sizes compared')
m(T,'splitUndoesJoin',"if js.map Int.ofNat = ss then xs[k]? else none","if js.map Int.ofNat = ss then xs[k + 1]? else none",'C100 output number')
m(T,'splitUndoesJoin',"if js.map Int.ofNat = ss","if js.length = ss.length",'C100 split sizes compared')
m(T,'splitUndoesJoin',"  if xs.length ≠ nOut then none\n  else\n    match","    match",'equivalent when sizes match (a split with another number of outputs fails)')
m(T,'splitOfJoin',"if sa = ja then splitUndoesJoin","if sa ≠ ja then splitUndoesJoin",'C100 which split')
m(T,'splitOfJoin',"some (.join (.const ja) (xs.map fun x => .split x (.const sa) sizes nOut k))","some (.join (.const sa) (xs.map fun x => .split x (.const ja) sizes nOut k))",'C100 axes')
m(T,'splitOfJoin',".split x (.const sa) sizes nOut k))",".split x (.const sa) sizes nOut 0))",'C100 output number')
m(T,'splitOfJoin',"let sa := sz % (n : Int)","let sa := sz",'C100 negative axes (sa compared with normalised ja)')
m(T,'splitOfJoin',"if sa = ja then splitUndoesJoin st xs ja.toNat sizes nOut k\n      else ","",'C100 split along the joined axis')
m(T,'constIntVector',"xs.mapM constInt","some (xs.filterMap constInt)",'C100 dynamic sizes')
m(T,'constInt',"| .dyn _ => none\n\n/-- `_const_int_vector`","| .dyn _ => some 0\n\n/-- `_const_int_vector`",'C100 dynamic axes')
m(T,'checkDepths',"| .leaf _ => .ok d","| .leaf _ => .ok 0",'C99 depth')
m(T,'checkDepths',"| .tuple => .error .tuple","| .tuple => .ok d",'C99 tuples')
m(T,'checkDepthsL',"if f ≠ c then .error .depth else checkDepthsL d (some f) bs","checkDepthsL d (some f) bs",'C99 depth mismatch')
m(T,'checkDepthsL',"| none => .error .emptyList","| none => .ok d",'C99 empty lists')
m(T,'checkDepthsL',"else checkDepthsL d (some f) bs","else .ok f",'C99 all children visited')
m(T,'Blocks.flatL',"b.flat ++ Blocks.flatL bs","b.flat",'C99 largest dimension')
m(T,'atleastNd',"List.replicate (n - x.shape.length) 1 ++ x.shape)","x.shape ++ List.replicate (n - x.shape.length) 1)",'C99 promotion')
m(T,'atleastNd',"x.val (idx.drop (n - x.shape.length))","x.val (idx.take x.shape.length)",'C99 promotion')
m(T,'recurse',"tjoin (nd - left)","tjoin (nd - left - 1)",'C99 axis')
m(T,'recurse',"tjoin (nd - left)","tjoin (left - 1)",'C99 axis')
m(T,'recurse',"(recurseL nd (left - 1) bs)","(recurseL nd left bs)",'C99 axis of nested lists')
m(T,'recurse',"| .leaf t => some (atleastNd nd t)","| .leaf t => some t",'C99 promotion')
m(T,'recurseL',"some (t :: ts)\nend\n\n/-- `block(","some (ts ++ [t])\nend\n\n/-- `block(",'C99 order')
m(T,'blockFn',"foldl max (max depth 1)","foldl max 1",'C99 dimension at least depth')
m(T,'blockFn',"foldl max (max depth 1)","foldl min (max depth 1)",'C99 dimension')
m(T,'blockFn',"recurse nd depth b","recurse nd nd b",'C99 axis')
R='RealEig'
m(R,'perform',"fun i => (eigvals i).im)","fun i => (eigvals i).re)",'C98 imaginary parts')
m(R,'perform',"let eigvals := fun i => o.vals (o.sortIdx i)","let eigvals := o.vals",'C98 sorted')
m(R,'sortIdx',"‖o.vals i‖","(o.vals i).re",'C98 sorted by modulus')
m(R,'sortIdx',"‖o.vals i‖","-‖o.vals i‖",'C98 ascending')
m(R,'pullback',"- Complex.I * (gi i : ℂ)","+ Complex.I * (gi i : ℂ)",'C98 gradient sign of imaginary part')
m(R,'pullback',"let V := o.V.submatrix id o.sortIdx","let V := o.V",'C98 eigenvectors sorted')
m(R,'pullback',"(Vinvᵀ * diagonal g * Vᵀ)","(Vinv * diagonal g * V)",'C98 transposes')
m(R,'pullback',"(Vinvᵀ * diagonal g * Vᵀ)","(V * diagonal g * Vinv)",'C98 transposes')
m(R,'pullback',"(Vinvᵀ * diagonal g * Vᵀ).map Complex.re","(Vinvᵀ * diagonal g * Vᵀ).map Complex.im",'C98 real part')
m(R,'pullback',"let gi := gImag.getD 0","let gi := gImag.getD 1",'C98 disconnected cotangent')
m(R,'pullback',"let gr := gReal.getD 0","let gr := gImag.getD 0",'C98 cotangents swapped')
m(R,'eqsAndLeadsPt',"Fin.natAdd n (lead j)","Fin.castAdd n (lead j)",'C98 selection')
m(R,'gamma0Sel',"fromBlocks B C (-1) 0","fromBlocks B C 1 0",'C98 sign of auxiliary rows')
m(R,'gamma0Sel',"fromBlocks B C (-1) 0","fromBlocks C B (-1) 0",'C98 block order')
m(R,'gamma0Sel',"fromBlocks B C (-1) 0","fromBlocks (-B) (-C) (-1) 0",'C98 sign')
m(R,'gamma1Sel',"fromBlocks A 0 0 1","fromBlocks A 0 1 0",'C98 Gamma_1')
m(R,'gamma1Sel',"fromBlocks A 0 0 1","fromBlocks (-A) 0 0 1",'C98 Gamma_1')
m(R,'bkMatrixPt',"(-gamma0Sel B C lead + eps","(gamma0Sel B C lead + eps",'C98 sign of Gamma_0 (count unaffected, values are)')
m(R,'bkMatrixPt',"⁻¹ * gamma1Sel A lead","⁻¹ᵀ * gamma1Sel A lead",'C98 solve')
m(R,'bkMatrixPt',"+ eps • (1 :","- eps • (1 :",'C98 regularisation sign')
m(R,'bkMatrixPt',"(-gamma0Sel B C lead + eps • (1 : Mat (n + k) (n + k)))⁻¹ * gamma1Sel A lead","(-gamma0Sel B C lead)⁻¹ * gamma1Sel A lead",'C98 regularisation dropped')
m(R,'checkBkPt',"1 < Real.sqrt","1 ≤ Real.sqrt",'C98 boundary (counts equal off the circle)')
m(R,'checkBkPt',"1 < Real.sqrt","0 < Real.sqrt",'C98 boundary')
m(R,'checkBkPt',"vals.1 i ^ 2 + vals.2 i ^ 2","vals.1 i ^ 2",'C98 modulus')
m(R,'checkBkPt',"decide (k = nUnstable)","decide (nUnstable ≤ k)",'C98 flag')
m(R,'checkBkPt',"(decide (k = nUnstable), k, nUnstable)","(decide (k = nUnstable), nUnstable, k)",'C98 order of results')
out=[]
for i,(f,d,o,n,c,k) in enumerate(L,1):
    cnt=src[f].count(o)
    if cnt!=1: print('CNT',i,d,repr(o),cnt)
    out.append(dict(id=f'h{i:03d}',file=f,**{'def':d},old=o,new=n,claim=c,edit=f'`{o}` -> `{n}`',count=1))
json.dump(out,open('m8.json','w'),indent=1,ensure_ascii=False); print(len(out))
d=json.load(open('m7.json'))
json.dump([dict(x,id=x['id']) for x in d if x['id'] in ('g026','g035','g036','g047','g049','g082')],open('m7b.json','w'),indent=1,ensure_ascii=False)
