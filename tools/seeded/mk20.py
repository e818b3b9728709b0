import json
L=[]
def m(file,d,old,new,claim,count=1,nth=None): L.append((file,d,old,new,claim,count,nth))
S='Structural'
m(S,'errorInfo',"dget catalog c","dget (catalog.take 20) c",'C145 catalog complete')
m(S,'helpLines',"[[], \"How to fix:\".toList] ++ i.fixes.map","[[], \"How to fix:\".toList] ++ i.causes.map",'C145 help lists the fixes')
m(S,'helpLines',"[name ++ \": \".toList ++ i.title","[i.title",'C145 help names the code')
m(S,'help',"joinText ['\\n'] (helpLines n i)","joinText [' '] (helpLines n i)",'C145 help lines')
m(S,'help',"| _, _ => []","| _, _ => \"?\".toList",'C145 help of no code')
m(S,'Handler.isSemicolon',"|| h.expected == \"';'\".toList","",'C145 which code: expected')
m(S,'Handler.isSemicolon',"componentKeywords.contains (lowerStr h.clean)","componentKeywords.contains h.clean",'C145 component in capitals')
m(S,'Handler.isSemicolon'," && !isIn \"end of text\".toList (lowerStr h.clean)","",'C145 unclosed brace at the end')
m(S,'Handler.isParen',"isIn \"Expected ')'\".toList h.msg ||","",'C145 unclosed parenthesis')
m(S,'Handler.isParen',"h.clean == \")\".toList || ","",'C145 which code: parenthesis found')
m(S,'Handler.isBrace',"(h.clean.isEmpty || isIn","(isIn",'C145 unclosed brace, nothing found')
m(S,'Handler.isBrace',"h.clean == \"{\".toList || ","",'C145 which code: brace found')
m(S,'Handler.isMissingRhs',"isIn \"Expected '+'\".toList h.msg","isIn \"Expected '-'\".toList h.msg",'C145 which code: operand')
m(S,'Handler.code',"if h.isParen then \"E007\".toList\n  else if h.isSemicolon alpha then \"E001\".toList","if h.isSemicolon alpha then \"E001\".toList\n  else if h.isParen then \"E007\".toList",'C145 order of faults')
m(S,'Handler.code',"else if h.isBrace then \"E002\".toList","else if h.isBrace then \"E003\".toList",'C145 which code: brace')
m(S,'Handler.message',"\"Syntax error: \".toList ++ h.msg","\"Syntax error: \".toList ++ h.expected",'C145 keeps the message')
m(S,'Handler.message'," ++ \" after previous statement\".toList","",'C145 component message')
m(S,'Handler.annotation',"lowerStr (title (h.code alpha))","title (h.code alpha)",'C145 annotation')
m(S,'Handler.notes',"fixes (h.code alpha) else []","fixes \"E000\".toList else []",'C145 notes')
m(S,'Handler.notes',"fixes (h.code alpha) else []","fixes (h.code alpha) else fixes \"E000\".toList",'C145 notes of E000')
m(S,'semanticAnnotation',"++ f.found ++ ['\\'']","++ f.msg ++ ['\\'']",'C145 annotation of an index')
m(S,'semanticAnnotation',"f.code = \"E005\".toList ∧ f.msg ≠ []","f.code = \"E006\".toList ∧ f.msg ≠ []",'C145 annotation of E005')
m(S,'convertException',"grammarMessage (h.message alpha) [] h.found","h.message alpha",'C145 offending text shown')
m(S,'convertException',"if f.code = \"E000\".toList then","if f.code = \"E000\".toList ∨ f.code = \"E010\".toList then",'C145 own codes kept')
m(S,'classify',"(splitSep \". E008\".toList msg)","(splitSep separator msg)",'C145 (repair) readable message')
m(S,'classify',"if found ∈ [\"^\".toList","if stripQuotes found ∈ [\"^\".toList",'C145 (repair) operator message')
m(S,'expressionCode',"isIn \"E008\".toList msg || isIn \"Empty function call\".toList msg","isIn \"Empty function call\".toList msg",'C145 (repair) index of E008')
m(S,'expressionCode',"isIn \"E010\".toList msg || isIn \"Invalid time index\".toList msg","false",'C145 index code')
m(S,'expressionCode',"else if '(' ∈ msg ∨ ')' ∈ msg then \"E007\".toList","else if '(' ∈ msg ∨ ')' ∈ msg then \"E000\".toList",'C145 expression codes')
C='ErrorCatalog'
m(C,'infoE002',"title := \"Unbalanced braces\".toList","title := \"Missing semicolon\".toList",'C145 distinct titles')
m(C,'infoE003',"title := \"Missing block name\".toList","title := [].map id",'C145 titles')
T='Statistics'
m(T,'stationaryCov',"R * Q * Rᵀ","R * Q * (-Rᵀ)",'C143 covariance')
m(T,'stationaryCov',"lyap T (R","lyap Tᵀ (R",'C143 responses')
m(T,'computeAutocov',"std i * std j","std i * std i",'C143 correlations')
m(T,'computeAutocov',"(T ^ l * Sigma) i j","(T ^ (l+1) * Sigma) i j",'C143 lag zero')
m(T,'computeAutocov',"Real.sqrt (Sigma i i)","Sigma i i",'C143 correlations')
m(T,'computeAutocov',"T ^ l * Sigma","Sigma * T ^ l",'C143 correlations')
U='Simulate'
m(U,'simulateOne',"(R *ᵥ e))","(R *ᵥ e + fun _ => 1))",'C144 at rest')
m(U,'simulateOne',"| e :: es => .ok (es.scanl","| e :: es => .ok ((es.drop 1).scanl",'C144 length')
P='PFSolve'
m(P,'steadyDicts',".steady d => .ok (d, d)",".steady d => .ok (d, [])",'C144 boundary')
m(P,'guessVector',"[i % names.length]?).getD 0","[i / names.length]?).getD 0",'C144 starts at rest')
m(P,'guessVector',"(ssToArray init names)","(ssToArray init names).reverse",'C144 starts at rest',1,1)
B='BKReport'
m(B,'bkMessage',"(if nForward = nUnstable then [] else \" NOT\".toList)","(if nForward ≤ nUnstable then [] else \" NOT\".toList)",'C139 message verdict')
m(B,'bkMessage',"else if nForward < nUnstable then","else if nUnstable < nForward then",'C139 message reason')
out=[]
for i,(f,d,o,n,c,cnt,nth) in enumerate(L):
    s=open(f'/verif/lean/Verif/Model/{f}.lean').read()
    k=s.count(o)
    r=dict(id=f'y{i:03d}',file=f,old=o,new=n,claim=c,edit=f'`{o}` -> `{n}`',count=cnt,**{'def':d})
    if k!=cnt or k==0: print('BAD',r['id'],f,d,k); continue
    out.append(r)
json.dump(out,open('m20.json','w'),indent=1); print(len(out))
