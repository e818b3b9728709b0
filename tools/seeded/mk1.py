import json
L=[]
def m(file,d,old,new,claim,edit=None,count=1,**k):
    L.append(dict(id=f"a{len(L)+1:03d}",file=file,**{'def':d},old=old,new=new,claim=claim,edit=edit or f"`{old.strip()}` -> `{new.strip()}`",count=count,**k))
# Time
m('Time','createName',"if idx = ['0'] then s.base ++ ['_', 't']","if idx = ['0'] then s.base ++ ['_', 't'] else if k = 1 then s.base ++ ['_', 't']","C01 names identify symbols")
m('Time','determineOperator',"if k > 0 then ['+'] else if k < 0 then ['-'] else []","if k > 0 then ['+'] else if k < -1 then ['-'] else []","C01 x(t-1) printed like x_t1")
m('Time','determineOperator',"if k > 0 then ['+'] else if k < 0 then ['-'] else []","[]","C01 sign dropped from names")
m('Time','stepForward',"{ s with idx := .t (k + 1) }","{ s with idx := .t (k + 2) }","C02 forward then backward is the identity")
m('Time','stepBackward',"| .t k => .ok { s with idx := .t (k - 1) }\n  | .ss => .error .typeError","| .t k => .ok { s with idx := .t (k - 1) }\n  | .ss => .ok s","C02 stepping a steady-state symbol raises")
m('Time','setT',"if w ≠ ['s', 's'] then .error .valueError else .ok { s with idx := .ss }",".ok { s with idx := .ss }","C02 set_t rejects other strings")
m('Time','exitSS',"| .t _ => s","| .t _ => { s with idx := .t 0 }","C02 exit_ss leaves dated symbols alone")
m('Time','replacePM',"(s.map fun c => if c = '+' then 'p' else c)","(s.map fun c => if c = '+' then 'm' else c)","C01 safe names identify symbols")
m('Time','toSS',"{ s with idx := .ss }","{ s with idx := .ss, asm := [] }","C02 to_ss keeps the assumptions",nth=0,count=2)
# Containers
m('Containers','safeStringToIndex',"(['t','p','1'], .t 1), (['t','m','1'], .t (-1))","(['t','p','1'], .t (-1)), (['t','m','1'], .t 1)","C03 round trip")
m('Containers','hasTimeSuffix',"[['_','t'], ['_','t','p','1'], ['_','t','m','1'], ['_','s','s']]","[['_','t'], ['_','t','p','1'], ['_','s','s']]","C03 round trip of lags")
m('Containers','keyToSympy',"(dget m.isVar s).getD true = false ∨ hasTimeSuffix s = false","hasTimeSuffix s = false","C03 parameter named like a variable keeps its kind")
m('Containers','saveKey',"| .par n a => { asm := dset m.asm n a, isVar := dset m.isVar n false }","| .par n a => { asm := dset m.asm n a, isVar := dset m.isVar n true }","C03 parameter kind is recorded")
m('Containers','saveKey',"| .var s => { asm := dset m.asm s.base s.asm,","| .var s => { asm := dset m.asm s.base [],","C03 assumptions are restored")
m('Containers','SDict.new',"if items.any (fun q => q.1.isSym ≠ isSympy) then .error .keyError\n    else if","if","C04 the constructor rejects mixed keys")
m('Containers','SDict.setItem',"if d.isSympy ≠ k.isSym then .error .keyError\n  else","if false then .error .keyError\n  else","C04 setitem rejects keys of the other kind")
m('Containers','SDict.setItem',"let d := if d.items.isEmpty then { d with isSympy := k.isSym } else d","let d := { d with isSympy := k.isSym }","C04 setitem on a non-empty dict keeps the mode")
m('Containers','SDict.or',"else if o.isSympy ≠ d.isSympy then .error .valueError\n","","C04 or of dicts with different modes raises")
m('Containers','SDict.updateDict',"let h := h.put d.ref ((h.get d.ref).update (h.get o.ref))","let h := h.put o.ref ((h.get d.ref).update (h.get o.ref))","C05 update does not write into the operand")
m('Containers','SDict.updateDict',"let items := dupdate d.items o.items\n  let h","let items := dupdate o.items d.items\n  let h","C05 merge: right operand wins")
m('Containers','stepItems',"stepItems f (dset acc k' v) rest","stepItems f (match dget acc k' with | some _ => acc | none => dset acc k' v) rest","C06 last value per variable is kept")
m('Containers','stepKey',"| .ss => .ok (.var (toSS s))","| .ss => .ok (.var s)","C06 keys become steady-state symbols")
m('Containers','SDict.toStr',"return (s, h.put s.ref (h.get c.ref))","return (s, h)","C03 to_string keeps the metadata needed to convert back")
m('Containers','SDict.cleanUpdate',"SDict.updateDict h' { d with items := [] } o","SDict.updateDict h' d o","C03 in-place conversion replaces the old keys")
# ExpandTime
m('ExpandTime','collectVar',"if k < -1 then { d","if k < -2 then { d","C07 only one-period lags remain")
m('ExpandTime','collectVar',"if k < -1 then { d","if k ≤ -1 then { d","C09 shallow blocks are returned unchanged")
m('ExpandTime','collectVar',"(min ((dget d.lags x).getD 0) k)","k","C08 meaning preserved: deepest lag defines the chain")
m('ExpandTime','collectVar',"(max ((dget d.leads x).getD 0) k)","(min ((dget d.leads x).getD 9) k)","C08 deepest lead defines the chain")
m('ExpandTime','replaceVar',"(makeLagName x (k.natAbs - 1), .t (-1))","(makeLagName x k.natAbs, .t (-1))","C08 meaning preserved")
m('ExpandTime','replaceVar',"(makeLeadName x (k.natAbs - 1), .t 1)","(makeLagName x (k.natAbs - 1), .t 1)","C08 leads are replaced by lead auxiliaries")
m('ExpandTime','lagLink',"else makeLagName x (level - 1)) (.t (-1))","else makeLagName x (level - 1)) (.t 0)","C08 chain equations shift by one")
m('ExpandTime','createLeadChain',"(List.range' 1 depth).map (leadLink x)","(List.range' 1 (depth - 1)).map (leadLink x)","C10 one equation per auxiliary variable")
m('ExpandTime','auxIdentities',"d.leads.flatMap (fun p => createLeadChain p.1 (p.2.natAbs - 1))","[]","C10 one equation per auxiliary variable")
m('ExpandTime','blockDeep',"let c := b.controls.foldl (fun s v => collectVar s v.name v.t) ({} : Deep)","let c : Deep := {}","C07 deep controls are expanded too")
m('ExpandTime','expandBlock',"constraints := b.constraints.map (replaceEqn d)","constraints := b.constraints","C07 constraints keep deep lags")
m('ExpandTime','expandBlock',"objective := b.objective.map (replaceEqn d)","objective := []","C08 objective preserved")
m('ExpandTime','expandBlock',"shockDists := b.shockDists\n","","C08 shock distributions preserved")
m('ExpandTime','expandBlock',"(b.identities ++ auxIdentities d).map (replaceEqn d)","(auxIdentities d).map (replaceEqn d)","C08 user identities preserved")
m('ExpandTime','replaceEqn',"{ e with lhs := replaceExpr d e.lhs, rhs := replaceExpr d e.rhs }","{ lhs := replaceExpr d e.lhs, rhs := replaceExpr d e.rhs }","C08 multipliers/calibrating params/tags carried over")
m('ExpandTime','expandModel',"{ m with blocks := m.blocks.map expandBlock }","{ m with blocks := (m.blocks.take 1).map expandBlock }","C07 every block is expanded")
# Printer
m('Printer','prec',".mul => 2 | .div => 2 | .pow => 3",".mul => 2 | .div => 2 | .pow => 2","C11 print/parse round trip")
m('Printer','rightPrec',"if o = .pow then prec o - 1 else prec o","prec o","C11 counts of parentheses in right operand")
m('Printer','Expr.toks',"if prec o < p then","if prec o ≤ p then","C11 no redundant parentheses (not claimed)")
m('Printer','negPrec',"def negPrec : Nat := 4","def negPrec : Nat := 0","C11 -(a+b) printed without parentheses")
m('Printer','Eqn.toks',"[.arrow, .id (c :: cs)] | _ => [])","[] | _ => [])","C11 calibrating parameter lost in print")
m('Printer','pLagrange',"| .colon :: .id n :: .tix _ :: ts => (some n, ts)","| .colon :: .id _ :: .tix _ :: ts => (none, ts)","C11 multiplier lost in parsing")
m('Printer','pArgs',"some (as, r') => some (a :: as, r')","some (as, r') => some (as, r')","C11 call arguments lost")
m('Printer','pAddLoop',"pAddLoop f (.bin .sub a b) r","pAddLoop f (.bin .sub b a) r","C11 subtraction operands swapped")
m('Printer','Blk.addComp',"| .shocks vs ds => { b with shocks := vs, shockDists := ds }","| .shocks vs _ => { b with shocks := vs }","C43 shock distributions lost in parsing")
m('Printer','Blk.addComp',"| .constraints es => { b with constraints := es }","| .constraints es => { b with identities := es }","C43 component stored in wrong field")
m('Printer','Blk.printComps',"++ (if b.calibration.isEmpty then [] else","++ (if b.calibration.length ≤ 1 then [] else","C11 single calibration equation not printed")
# Sym
m('Sym','descT',"| .t i, .t j => j ≤ i","| .t i, .t j => i ≤ j","C12 stepping forward in the wrong order")
m('Sym','stepFwdIn',"let w ← stepForward v","let w ← stepBackward v","C12 forward steps backward")
m('Sym','stepBwd',"stepBwdIn ((e.tsyms.eraseDups).mergeSort ascT) e","stepBwdIn ((e.tsyms.eraseDups).mergeSort descT) e","C12 stepping backward in the wrong order")
m('Sym','eqToSSIn',"(shocks.map fun x => (.tv (toSS x), .num 0))","[]","C13 shocks are zero in the steady state")
m('Sym','SExpr.diff',"| .mul a b => .add (.mul (a.diff x) b) (.mul a (b.diff x))","| .mul a b => .mul (a.diff x) (b.diff x)","C14 derivative wrong")
m('Sym','SExpr.diff',"| .pow a b => .mul (.pow a b) (.add (.mul (b.diff x) (.log a)) (.mul (a.diff x) (div b a)))","| .pow a b => .mul (.pow a b) (.mul (a.diff x) (div b a))","C14 derivative with respect to the exponent missing")
m('Sym','dttLoop',"| .ok b' => dttLoop x n (b.times e') b' total","| .ok b' => dttLoop x n (b'.times e') b' total","C14 discount factor taken one period late")
m('Sym','dttLoop',"dttLoop x n (b.times e') b' total","dttLoop x n e' b' total","C14 future terms not discounted")
m('Sym','diffThroughTime',"(max 0 (k - m)).toNat + 1","(max 0 (k - m)).toNat","C14 last lag dropped")
m('Sym','minTime',"| .t k :: ts => (minTime ts).map (min k)","| .t k :: ts => (minTime ts).map (max k)","C14 deepest lag missed")
m('Sym','timesOf',"e.tsyms.filter fun s => s.base = base","e.tsyms.filter fun s => s.base = base ∧ s.idx ≠ .t (-1)","C14 lags missed")
m('Sym','resolve',"else if key ∈ st.visiting then some none","else if key ∈ st.visiting then some (some st)","C15 cycles are reported")
m('Sym','resolve',"subsSeq\n          ((flatDeps d key).map fun k => (k, (dget st'.flat k).getD (.sym k)))","subsSeq\n          ((flatDeps d key).map fun k => (k, (dget d k).getD (.sym k)))","C15 every value is fully resolved")
m('Sym','resolve',"visiting := st'.visiting.erase key","visiting := st'.visiting","C15 acyclic dictionaries resolve (diamond)")
m('Sym','flattenSubs',"(resolveAll d (d.length + 1) (dkeys d) {})","(resolveAll d (d.length + 1) ((dkeys d).take 1) {})","C15 every key is resolved")
# ToSympy
m('ToSympy','convBin',"| .sub, a, b => a.sub b","| .sub, a, b => b.sub a","C51 value preserved")
m('ToSympy','convBin',"| .div, a, b => a.div b","| .div, a, b => .mul a b","C51 value preserved")
m('ToSympy','convCall',"SExpr.div (.log a) (.log b)","SExpr.div (.log b) (.log a)","C51 log base")
m('ToSympy','convCall',".pow a (.num (1/2))",".pow a (.num 2)","C51 sqrt")
m('ToSympy','toSympy',"| .ok a => .ok a.neg","| .ok a => .ok a","C51 unary minus")
m('ToSympy','eqnToSympy',"r.sub l⟩","r⟩","C21 calibrating equation is rhs - lhs = 0")
m('ToSympy','convVar',"⟨n, t, mergeAssumptions (dget asm n)⟩","⟨n, .t 0, mergeAssumptions (dget asm n)⟩","C51 dates preserved")
m('ToSympy','convVar',"mergeAssumptions (dget asm n)⟩","mergeAssumptions none⟩","C44 variables get declared assumptions")
json.dump(L,open('m1.json','w'),indent=1)
print(len(L))
