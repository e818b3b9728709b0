import json
F=('ValidationText','DirectConvert','FigAcf','Figures')
src={f:open(f'/tmp/mut/pristine/Verif/Model/{f}.lean').read() for f in F}
L=[]
def m(file,d,old,new,claim,count=1,nth=None): L.append((file,d,old,new,claim,count,nth))
V='ValidationText'
m(V,'splitlines',"| '\\r' :: '\\n' :: cs => [] :: splitlines cs\n","",'C126 lines of a CRLF file')
m(V,'splitlines',"| [] => [[c]]\n","| [] => [[c], []]\n",'C126 no line after the last break')
m(V,'rstripPy',"((s.reverse).dropWhile isSpace).reverse","s.dropWhile isSpace",'C126 trailing blanks')
m(V,'padTo',"List.replicate (width - (natStr n).length) ' ' ++ natStr n","natStr n ++ List.replicate (width - (natStr n).length) ' '",'C126 line numbers right-aligned')
m(V,'vRow',"if t ≠ [] then","if line ≠ [] then",'C126 empty line has no trailing blank')
m(V,'vCarets',"((width + 5 : Nat) + (l.column - 1)).toNat","((width + 4 : Nat) + (l.column - 1)).toNat",'C126 carets under the column')
m(V,'vCarets',"((width + 5 : Nat) + (l.column - 1)).toNat","((width + 5 : Nat) + l.column).toNat",'C126 carets under the column')
m(V,'vCarets',"(max 1 (e - l.column)).toNat","(e - l.column).toNat",'C126 at least one caret')
m(V,'vCarets',"| none => 3","| none => 1",'C126 three carets without end')
m(V,'vCarets',"if annotation ≠ [] then ' ' :: annotation else []","annotation",'C126 annotation after a blank')
m(V,'vRows',"lines[a - 1]?.getD []","lines[a]?.getD []",'C126 the line shown is the numbered one')
m(V,'vRows',"if a = l.line then","if a + 1 = l.line then",'C126 carets under the line of the error')
m(V,'withSource',"l.line < 1 ∨ lines.length < l.line","lines.length < l.line",'C126 line zero')
m(V,'withSource',"l.line < 1 ∨ lines.length < l.line","l.line < 1 ∨ lines.length ≤ l.line",'C126 last line shown')
m(V,'withSource',"let start := l.line - 2","let start := l.line - 3",'C126 window')
m(V,'withSource',"let stop := min lines.length (l.line + 2)","let stop := min lines.length (l.line + 1)",'C126 window')
m(V,'withSource',"let stop := min lines.length (l.line + 2)","let stop := l.line + 2",'C126 window within the file')
m(V,'withSource',"(if l.column = 0 then 1 else l.column)","l.column",'C126 column shown')
m(V,'withSource',"if e.filepath ≠ [] then e.filepath else \"<source>\".toList","e.filepath",'C126 file shown')
m(V,'withSource',"e.notes.map (\"   = note: \".toList ++ ·)","(e.notes.take 1).map (\"   = note: \".toList ++ ·)",'C126 all notes')
m(V,'text',"| some s, some l => withSource e s l\n","| some s, _ => withSource e s ⟨1, 1, none⟩\n",'C126 no place, no excerpt')
m(V,'dynamicCalibrating',"code := \"V001\".toList","code := \"V002\".toList",'C126 codes')
m(V,'controlNotFound',"control ++ \"' in block \".toList ++ block","block ++ \"' in block \".toList ++ control",'C126 message names')
m(V,'duplicateParameter',"joinText \", \".toList names","joinText \", \".toList (names.take 1)",'C126 all duplicated names')
m(V,'duplicateParameter',"if block ≠ [] then \"block \".toList ++ block else \"calibration blocks\".toList","\"calibration blocks\".toList",'C126 block named')
m(V,'noteLoc',"| (some n, some l) => dset d n l","| (some n, some l) => if n ∈ dkeys d then d else dset d n l",'C126 last place wins')
m(V,'symbolLocations',"b.controls ++ b.shocks","b.shocks ++ b.controls",'C126 order of places')
m(V,'symbolLocations',"b.controls ++ b.shocks","b.controls",'C126 places of shocks')
m(V,'symbolLocations',"(b.calibration.foldl noteLoc [])","[]",'C126 places of parameters')
m(V,'duplicateError',"(dget (symbolLocations b) n)","(dget (symbolLocations b) (ns.getLastD n))",'C126 place of the first duplicate')
m(V,'duplicateError',"| [] => none\n","| [] => some (duplicateParameter [] block source none)\n",'C126 no duplicates, no error')
m(V,'controlError',"(dget (symbolLocations b) name)","(dget (symbolLocations b) control)",'C126 place of a control')
m(V,'calibratingError',"(dget (symbolLocations b) param)","none",'C126 place of a calibrating equation')
D='DirectConvert'
m(D,'eqMeta',"isCalibrating := e.calibrating.isSome","isCalibrating := (match e.calibrating with | some (_ :: _) => true | _ => false)",'C127 calibrating flag')
m(D,'eqMeta',"some (.par (c :: p))","some (.par p)",'C127 parameter name')
m(D,'eqMeta',"(convVar asm (c :: p) (.t 0))","(convVar asm (c :: p) .ss)",'C127 multiplier dated now')
m(D,'eqMeta',"(convVar asm (c :: p) (.t 0))","(convVar [] (c :: p) (.t 0))",'C127 multiplier assumptions')
m(D,'convertAll',"| .ok ss => .ok (s :: ss)","| .ok ss => .ok (ss ++ [s])",'C127 order')
m(D,'calibEqns',"| .dist _ :: cs => calibEqns cs","| .dist _ :: _ => []",'C127 equations after a prior')
m(D,'blockToSympy',".ok ⟨ds, os, cs, is, ks⟩",".ok ⟨ds, os, is, cs, ks⟩",'C127 components')
m(D,'blockToSympy',"convertAll asm b.objective","convertAll asm (b.objective.take 1)",'C127 all objectives')
m(D,'modelToSympyLoop',"(dset acc b.name r)","(if b.name ∈ dkeys acc then acc else dset acc b.name r)",'C127 last block of a name wins')
m(D,'blockToEquations',"{ b with calibration := [] }","b",'C127 no calibration')
m(D,'assignKey',"| .sym (.tv x) => createName x","| .sym (.tv x) => x.base",'C127 key of an assignment')
m(D,'calibrationLoop',"priors := dset acc.priors d.param c","priors := dset acc.priors d.name c",'C127 prior by parameter')
m(D,'calibrationLoop',"| some v => { acc with params := dset acc.params d.param (.num v) }","| some _ => acc",'C127 initial value')
m(D,'calibrationLoop',"if pz c then","if true then",'C127 PreliZ refusal raises')
m(D,'calibrationLoop',"dset acc.calib p ⟨l, r⟩","dset acc.calib p ⟨r, l⟩",'C127 sides')
m(D,'calibrationLoop',"dset acc.params (assignKey shown l) r","dset acc.params (assignKey shown l) l",'C127 value')
m(D,'lhsVars',"x.now :: xs","x :: xs",'C127 dated now')
m(D,'lhsVars',"| _ => xs","| _ => []",'C127 later variables')
m(D,'blockToVariables',"b.definitions ++ b.identities ++ b.objective ++ b.constraints","b.identities ++ b.objective ++ b.constraints",'C127 definitions')
m(D,'blockToVariables',"((b.controls.map fun v => (convVar asm v.name v.t).now) ++ xs).eraseDups","(b.controls.map fun v => (convVar asm v.name v.t).now) ++ xs",'C127 each once')
m(D,'blockToVariables',"(b.shocks.map fun v => (convVar asm v.name v.t).now).eraseDups","(b.shocks.map fun v => (convVar asm v.name v.t)).eraseDups",'C127 shocks dated now')
A='FigAcf'
m(A,'present',"sample.filter fun d => d ∈ t.dims","sample",'C128 sample dimensions')
m(A,'varDims',"decide (d ≠ \"lag\".toList) && decide (d ∉ t.present sample)","decide (d ∉ t.present sample)",'C128 lag is not a variable')
m(A,'collectDims',"| [d, _] => collectDims sample rest (some d)","| [_, d] => collectDims sample rest (some d)",'C128 first dimension')
m(A,'collectDims',"| _ => .error .valueError","| _ => collectDims sample rest none",'C128 refused')
m(A,'diagLabels',"if d = dim then .ok (t.labels d) else .error .keyError",".ok (t.labels d)",'C128 other dimension raises')
m(A,'sortedProbs',"if p.1 ≤ p.2 then p else (p.2, p.1)","p",'C128 intervals sorted')
m(A,'drawModel',"if t.lags.length = lags.length then","if True then",'C128 lags mismatch raises')
m(A,'drawModel',"if (t.present sample).isEmpty then","if ¬ (t.present sample).isEmpty then",'C128 stem or forest')
m(A,'drawModel',"(p.1 + offset, t.value i i p.2)","(p.1 + offset, t.value i 0 p.2)",'C128 diagonal')
m(A,'drawModel',"(p.1 + offset, t.value i i p.2)","(p.1 - offset, t.value i i p.2)",'C128 offset')
m(A,'drawModel',"t.hdi ps.1 i i p.2, t.hdi ps.2 i i p.2","t.hdi ps.2 i i p.2, t.hdi ps.1 i i p.2",'C128 inner and outer')
m(A,'drawModels',"(labels.idxOf v) lags","0 lags",'C128 variable of the panel')
m(A,'drawModels',"else drawModels sample dim v lags ci rest","else .ok []",'C128 later models')
m(A,'drawReference',"(labels.idxOf v) p.2","p.2 (labels.idxOf v)",'C128 reference')
m(A,'drawReference',"(p.1, r.value","(p.1 + 1, r.value",'C128 reference at its lags')
m(A,'drawPanels',"⟨v, loc, ms ++ drawReference r v⟩","⟨v, loc, ms⟩",'C128 reference drawn')
m(A,'offsetOf',"if 1 < n then dodge else 0","dodge",'(equivalent for one model)')
m(A,'offsetOf',"((n : ℝ) - 1) / 2","(n : ℝ) / 2",'C128 centred')
m(A,'legend',"if 1 < labels.length then","if 0 < labels.length then",'C128 no legend for one model')
m(A,'legend',".model p.2 p.1",".model 0 p.1",'C128 legend colours')
m(A,'plotAcf',"if vs.all fun v => v ∈ available then","if True then",'C128 unknown variable refused')
m(A,'plotAcf',"prepareGrid (min c vs.length) vs.length","prepareGrid c vs.length",'C128 columns')
m(A,'plotAcf',"offsetOf models.length dodge p.2, p.2)","offsetOf models.length dodge 0, p.2)",'C128 offsets differ')
m(A,'plotAcf',"reference.isSome⟩","false⟩",'C128 legend of the data')
G='Figures'
m(G,'select',"(t.rows.idxOf (rs.getD i [])) (t.cols.idxOf (cs.getD j []))","i j",'C129 selected entries')
m(G,'select',"(t.rows.idxOf (rs.getD i [])) (t.cols.idxOf (cs.getD j []))","(t.rows.idxOf (rs.getD i [])) (t.rows.idxOf (cs.getD j []))",'C129 selected entries')
m(G,'heatTicks',"if t.cols.length = t.rows.length then","if True then",'C129 non-square raises')
m(G,'heatTicks',"(List.range t.rows.length).zip t.cols, (List.range t.cols.length).zip t.rows","(List.range t.rows.length).zip t.rows, (List.range t.cols.length).zip t.cols",'C129 labels')
m(G,'norm',"(v - lo) / (hi - lo)","(v - lo) / hi",'C129 norm')
m(G,'annotate',"threshold < norm lo hi (t.value i j)","threshold ≤ norm lo hi (t.value i j)",'C129 text colour')
m(G,'annotate',"⟨j, i, t.value i j","⟨i, j, t.value i j",'C129 position')
m(G,'annotate',"norm lo hi hi / 2","norm lo hi hi",'C129 threshold')
m(G,'plotCovariance',"t.select vs vs","t.select vs t.cols",'C129 both axes selected')
m(G,'plotMatrix',"decide (i ≤ j) && symmetrical","decide (i < j) && symmetrical",'C129 diagonal hidden')
m(G,'plotMatrix',"(i, j), if j = 0","(j, i), if j = 0",'C129 entry shown')
m(G,'plotMatrix',"if i = names.length - 1 then names[j]?","if i = names.length then names[j]?",'C129 labels below')
m(G,'variance',"(xs.length - 1))","(xs.length))",'C129 sample variance')
m(G,'isConstant',"| none => false","| none => true",'C129 one draw')
m(G,'solvParams',"decide (c.name ∉ metaCols) && !isConstant c","decide (c.name ∉ metaCols)",'C129 constants dropped')
m(G,'solvParams',"decide (c.name ∉ metaCols) && !isConstant c","!isConstant c",'C129 meta columns dropped')
m(G,'solvParams',".filter fun n => n ≠ \"success\".toList",".filter fun _ => true",'C129 success dropped')
m(G,'plotSolvability',"decide (c.2 ≤ r.2)","decide (c.2 < r.2)",'C129 diagonal drawn')
m(G,'plotSolvability',"⟨r.2, c.2, c.1, r.1,","⟨r.2, c.2, r.1, c.1,",'C129 axes')
m(G,'plotSolvability',"if use.length = 0 then .error .valueError\n    else","if False then .error .valueError\n    else",'C129 empty refused')
m(G,'plotTimeseries',"(nCols.getD (min 4 columns.length))","(nCols.getD (min 4 vs.length))",'C129 default columns')
m(G,'plotTimeseries',"if vs.all fun v => decide (v ∈ columns) then","if True then",'C129 unknown column')
m(G,'sensParams',"if ps.all fun p => decide (p ∈ all) then .ok ps else .error .valueError",".ok (ps.filter fun p => decide (p ∈ all))",'C129 unknown parameter refused')
m(G,'sensValue',"kwargs.filter fun k => k.1 ∈ dkeys defaults","kwargs.filter fun _ => true",'C129 unknown keywords ignored')
m(G,'sensValue',".getD 1",".getD 0",'C129 default one')
m(G,'sensCols',"| some 0 => min 4 n","| some 0 => 0",'C129 zero columns')
m(G,'plotSensitivity',"decide (q.2 = 0)⟩","true⟩",'C129 legend in the first panel')
m(G,'plotSensitivity',"s.params.idxOf q.1.1","q.2",'C129 arrows of the parameter')
m(G,'shockLegend',"(p.lines.take ss.length).zip ss","p.lines.zip ss",'(equivalent: zip)')
m(G,'shockLegend',"(p.lines.take ss.length).zip ss","(p.lines.take ss.length).zip ss.reverse",'C129 shock labels')
m(G,'scenarioLegend',"1 < names.length ∧ n ≠ []","1 < names.length",'C129 empty first name')
m(G,'scenarioLegend',"(p.2 % 4, p.1)","(p.2, p.1)",'C129 styles repeat')
out=[]
for i,(f,d,o,n,c,cnt,nth) in enumerate(L):
    k=src[f].count(o)
    if k!=cnt: print('COUNT',i,f,d,k,repr(o))
    r=dict(id=f'r{i:03d}',file=f,old=o,new=n,claim=c,edit=f'`{o}` -> `{n}`',count=cnt); r['def']=d
    if nth is not None: r['nth']=nth
    out.append(r)
json.dump(out,open('/tmp/mut/m16.json','w'),indent=1); print(len(out))
