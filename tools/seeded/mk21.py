import json
L=[]
def m(file,d,old,new,claim,count=1,nth=None): L.append((file,d,old,new,claim,count,nth))
N='NodeText'
m(N,'exprStr',"if v.den = 1 then intText v.num else num v","num v",'C147 whole numbers are printed without a point')
m(N,'exprStr',"n ++ indexText t","n ++ indexText (.t 0)",'C147 dates are printed')
m(N,'exprStr',"'(' :: (exprStr num l ++ ' ' :: opText o :: ' ' :: exprStr num r ++ [')'])","exprStr num l ++ ' ' :: opText o :: ' ' :: exprStr num r",'C147 parentheses around operations')
m(N,'exprStr',"exprStr num l ++ ' ' :: opText o :: ' ' :: exprStr num r ++","exprStr num r ++ ' ' :: opText o :: ' ' :: exprStr num l ++",'C147 operands in order')
m(N,'exprStr',"'(' :: '-' :: (exprStr num e ++ [')'])","'-' :: exprStr num e",'C147 parentheses around negations')
m(N,'exprStr',"f ++ '(' :: (argsStr num as ++ [')'])","'(' :: (argsStr num as ++ [')'])",'C147 the function is printed')
m(N,'exprStr',"'E' :: '[' :: ']' :: '[' :: (exprStr num e ++ [']'])","exprStr num e",'C147 expectations are printed')
m(N,'argsStr',"exprStr num a ++ ',' :: ' ' :: argsStr num as","exprStr num a ++ ' ' :: argsStr num as",'C147 commas between arguments')
m(N,'argsStr',"| a :: as => exprStr num a ++ ',' :: ' ' :: argsStr num as","| a :: _ => exprStr num a",'C147 all arguments are printed')
m(N,'tagStr',"\"@minimize\".toList","\"@maximize\".toList",'C147 tags are printed')
m(N,'sortedTags',"[.exclude, .maximize, .minimize]","[.exclude, .maximize]",'C147 all tags are printed')
m(N,'eqnStr',"joinText ['\\n'] (","joinText [] (",'C147 an equation with two tags reads back')
m(N,'eqnStr',"exprStr num e.lhs ++ \" = \".toList ++ exprStr num e.rhs","exprStr num e.rhs ++ \" = \".toList ++ exprStr num e.lhs",'C147 sides in order')
m(N,'eqnStr',"\" -> \".toList ++ n","\" : \".toList ++ n",'C147 the arrow is printed')
m(N,'eqnStr',"(match given e.calibrating with | some n => \" -> \".toList ++ n | none => [])","[]",'C147 the calibrated parameter is printed')
m(N,'eqnStr',"\" : \".toList ++ n | none => [])","\" : \".toList ++ n ++ \"[]\".toList | none => [])",'C147 (repair) multiplier with its brackets')
m(N,'distStr',"d.kwargs.map fun p => p.1 ++ '=' :: valText num p.2","d.kwargs.map fun p => valText num p.2",'C147 names of arguments of a prior')
m(N,'distStr',"++ \", \".toList ++ wk ++ [')']","++ wk ++ [')']",'C147 a comma before the arguments of the wrapper')
m(N,'distStr',"if wk = [] then c :: w ++ '(' :: (inner ++ [')']) else","if wk = [] then inner else",'C147 a wrapper without arguments is kept')
m(N,'distStr',"some v => \" = \".toList ++ num v","some v => num v",'C147 the starting value is printed')
m(N,'distStr',"d.param ++ \" ~ \".toList ++ full","full",'C147 the parameter of a prior is printed')
m(N,'visited',".neg e :: visited e","[.neg e]",'C147 variables under a minus are collected')
m(N,'visited',".expect e :: visited e","[.expect e]",'C147 variables in expectations are collected')
m(N,'visited',"(visited l ++ visited r)","(visited l)",'C147 variables on the right of an operation are collected')
m(N,'visitedArgs',"visited a ++ visitedArgs as","visited a",'C147 variables in all arguments are collected')
m(N,'asVariable',"some (n, t)","some (n, .t 0)",'C147 dates are collected')
m(N,'collectVariables',".filterMap asVariable).eraseDups",".filterMap asVariable)",'C147 each variable once')
m(N,'collectParameters',".filterMap asParameter).eraseDups",".filterMap asParameter)",'C147 each parameter once')
m(N,'allEquations',"b.definitions ++ b.objective ++ b.constraints ++ b.identities","b.objective ++ b.constraints ++ b.identities",'C147 definitions are equations')
m(N,'allEquations',"b.definitions ++ b.objective ++ b.constraints ++ b.identities","b.definitions ++ b.objective ++ b.constraints",'C147 identities are equations')
m(N,'allVariables',"collectVariables e.lhs ++ collectVariables e.rhs","collectVariables e.rhs",'C147 variables of the left side')
m(N,'allParameters',"collectParameters e.lhs ++ collectParameters e.rhs","collectParameters e.lhs",'C147 parameters of the right side')
m(N,'allVariables',"collectVariables e.rhs).eraseDups","collectVariables e.rhs)",'C147 each variable of the model once')
m(N,'getBlock',"b.name = name","lowerStr b.name = lowerStr name",'C147 get_block by exact name')
m(N,'hasOptimization',"decide (b.controls.length > 0) && decide (b.objective.length > 0)","decide (b.objective.length > 0)",'C147 a problem has controls and an objective')
K='Loader'
m(K,'mergeVariables',"sortByName ((blocks.flatMap Prod.snd).map TSym.now)","((blocks.flatMap Prod.snd).map TSym.now).eraseDups",'C148 shocks do not depend on the order of blocks')
m(K,'mergeVariables',"sortByName (((blocks.flatMap Prod.fst).map TSym.now).filter fun x => x ∉ shocks)","(((blocks.flatMap Prod.fst).map TSym.now).filter fun x => x ∉ shocks).eraseDups",'C148 variables do not depend on the order of blocks')
m(K,'sortToString',"sortBy (fun a b => strLe a.1 b.1) (dupdate [] (d.map fun p => (p.1.toStr, p.2)))","dupdate [] (d.map fun p => (p.1.toStr, p.2))",'C148 parameters do not depend on the order of blocks')
m(K,'mergeLoop',"(dkeys d).filter fun k => k ∈ dkeys acc)","(dkeys d).filter fun k => k ∈ dkeys acc ∧ acc.length < 3)",'C148 success does not depend on the order of blocks')
m(K,'blockDictLoop',"if isSkippedName b.name then blockDictLoop asm ss bs acc","if isSkippedName b.name then .ok acc",'C148 blocks after the steady state are read')
m(K,'blockDictLoop',"(dset acc r.block.name r)","[(r.block.name, r)]",'C148 all blocks are kept')
m(K,'mergeVariables',"(blocks.flatMap Prod.snd).map TSym.now","((blocks.take 1).flatMap Prod.snd).map TSym.now",'C148 shocks of any block')
m(K,'loadRest',"equations := bs.flatMap Built.equations","equations := (bs.take 1).flatMap Built.equations",'C148 equations of all blocks')
out=[]
for i,(f,d,o,n,c,cnt,nth) in enumerate(L):
    s=open(f'/verif/lean/Verif/Model/{f}.lean').read()
    k=s.count(o)
    r=dict(id=f'z{i:03d}',file=f,old=o,new=n,claim=c,edit=f'`{o}` -> `{n}`',count=cnt,**{'def':d})
    if k!=cnt or k==0: print('BAD',r['id'],f,d,k); continue
    out.append(r)
json.dump(out,open('m21.json','w'),indent=1); print(len(out))
