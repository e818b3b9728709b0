import json
src={f:open(f'/verif/lean/Verif/Model/{f}.lean').read() for f in ('ErrorText','Pipeline','Plotting')}
L=[]
def m(file,d,old,new,claim,count=1): L.append((file,d,old,new,claim,count))
E='ErrorText';I='Pipeline';P='Plotting'
m(E,'rfindNl',"if c = '\\n' then i else acc","if c = '\\n' then i + 1 else acc",'C110 columns')
m(E,'lineno',"(s.take loc).count '\\n' + 1","(s.take loc).count '\\n'",'C110 lines')
m(E,'lineno',"(s.take loc).count","(s.take (loc + 1)).count",'C110 lines')
m(E,'col',"then 1 else loc - rfindNl s loc","then 0 else loc - rfindNl s loc",'equivalent? C110 columns at line start')
m(E,'col',"then 1 else loc - rfindNl s loc","then 1 else loc - rfindNl s loc + 1",'C110 columns')
m(E,'splitNl',"if c = '\\n' then [] :: splitNl cs","if c = ';' then [] :: splitNl cs",'C110 source line')
m(E,'expandTabs',"8 - k % 8","8",'C110 tabs')
m(E,'expandTabs',"++ expandTabs 0 cs","++ expandTabs (k + 1) cs",'C110 tabs')
m(E,'splitSep',"cur :: go cs (sep.length - 1) []","cur :: go cs sep.length []",'C109 separator')
m(E,'stripQuotes',"(((s.dropWhile q).reverse).dropWhile q).reverse","s.dropWhile q",'C110 end column')
m(E,'encode',"joinText separator [f.msg, f.code, f.found,","joinText separator [f.msg, f.found, f.code,",'C109 order of fields')
m(E,'encode',"joinText [','] f.suggestions]","joinText [';'] f.suggestions]",'C109 suggestions')
m(E,'decode','if c ∈ codes then c else "E000".toList, f,','"E000".toList, f,','C109 code')
m(E,'decode',"(splitSep [','] s).filter (· ≠ [])","(splitSep [','] s)",'C109 no suggestions')
m(E,'decode','else ⟨msg, "E000".toList, excFound, []⟩','else ⟨msg, "E000".toList, [], []⟩','C109 plain failures')
m(E,'copyMsg',"(splitSep separator m).headD []","m",'C109 copies')
m(E,'codes','"E013".toList, ','','C109 codes')
m(E,'gcnLocation',"some (c + clean.length)","some (c + found.length)",'C110 end column')
m(E,'gcnLocation',"(splitNl text)[line - 1]?","(splitNl text)[line]?",'C110 source line')
m(E,'gcnLocation',"let s := expandTabs 0 text","let s := text",'C110 tabs')
m(E,'gcnLocation',"endLine := e.map fun _ => line","endLine := none",'C110 end line')
m(E,'parameterLocation',"some (col s loc + name.length),\n    sourceLine","some (col s loc + 1),\n    sourceLine",'C110 parameter span')
m(E,'variableLocation',"(name.length + 2 + timeStr.length : Nat)","(name.length + timeStr.length : Nat)",'C110 variable span')
m(E,'variableLocation',"if t = .t 0 then [] else indexText t","indexText t",'C110 variable span')
m(E,'Loc.carets',"(max 1 (e - l.column)).toNat","(e - l.column).toNat",'C111 at least one caret')
m(E,'Loc.carets',"if l.endLine = some l.line then","if l.endLine = none then",'C111 carets')
m(E,'Loc.pointer',"(max 0 (l.column - 1)).toNat","(max 0 l.column).toNat",'C111 pointer')
m(E,'Loc.lsp',"(l.line - 1, l.column - 1,","(l.line, l.column - 1,",'C110 lsp')
m(E,'Loc.lsp',"(l.endColumn.getD (l.column + 1)) - 1)","(l.endColumn.getD l.column) - 1)",'C110 lsp')
m(E,'Loc.text',"intText l.column\n\n","intText (l.column - 1)\n\n",'C111 location text')
m(E,'grammarMessage',"if expected ≠ [] ∧ found ≠ [] then message ++ one expected ++","if expected ≠ [] ∧ found ≠ [] then message ++",'C111 expected')
m(E,'grammarMessage',"else if found ≠ [] then message ++ \". Found \".toList ++ quoted found","else if found ≠ [] then message",'C111 found')
m(E,'Error.rebuild',"{ e with expected := [], found := [], symbolName := [] }","e",'C111 rebuilt errors')
m(E,'Error.withLocation',"{ e with location := some l }.rebuild","e.rebuild",'C111 with_location')
m(E,'Error.withContext',"{ e with context := c }.rebuild","{ e with message := c }.rebuild",'C111 with_context')
m(E,'Error.lines','(if e.context ≠ [] then ["  in ".toList ++ e.context] else [])','[]','C111 context shown')
m(E,'Error.lines','++ l.pointer.map ("    ".toList ++ ·)','++ l.pointer','C111 pointer aligned')
m(E,'semanticNotes',"if notes.any (isIn \"Did you mean\".toList) then notes else","if notes = [] then notes else",'C111 suggestions')
m(E,'semanticNotes',"else []) ++ fixes f.code","else [])",'C111 fixes')
m(E,'convertFailure',"message := grammarMessage f.msg [] f.found","message := f.msg",'C111 message')
m(E,'convertFailure',"code := some f.code","code := none",'C111 code')
m(E,'pad4',"4 - (natStr n).length","3 - (natStr n).length",'C111 aligned numbers')
m(E,'sourceRow',"let t := rstrip line","let t := line",'C111 rows')
m(E,'pointerRow',"(column - 1).toNat","column.toNat",'C111 pointer')
m(E,'pointerRow',"(max 1 length).toNat '^'","length.toNat '^'",'C111 at least one caret')
m(E,'Loc.span',"e - l.column else 1","e - l.column + 1 else 1",'C111 carets')
m(E,'contextRows',"if a = l.line then","if a + 1 = l.line then",'C111 under the right line')
m(E,'contextRows',"lines[a - 1]?.getD []","lines[a]?.getD []",'C111 right line')
m(E,'formatError',"max 1 (l.line - context)","max 1 (l.line - context - 1)",'C111 context lines')
m(E,'formatError',"min lines.length (l.line + context)","l.line + context",'C111 context lines')
m(E,'formatError',"l.line ≤ lines.length then","l.line < lines.length then",'C111 last line')
m(E,'formatError',"++ helpRows e.suggestions\n","",'C111 help')
m(E,'formatError',"++ e.notes.map","++ (e.notes.take 1).map",'C111 notes')
m(I,'argVal',"| .str s => some (.inr s)","| .str _ => none",'C112 parameters of priors')
m(I,'GDist.toDist',"  wrapper := d.wrapper\n","  wrapper := none\n",'C112 wrappers')
m(I,'GDist.toDist',"  initial := d.initial","  initial := none",'C112 initial values')
m(I,'GDist.toDist',"  param := d.param","  param := d.dist",'C112 name of the parameter')
m(I,'GCal.toCalib',"| .prior d => .dist d.toDist","| .prior d => .dist { d.toDist with initial := none }",'C112 initial values')
m(I,'GBlock.toBlk',"  definitions := b.definitions","  definitions := []",'C112 definitions')
m(I,'GBlock.toBlk',"  identities := b.identities","  identities := b.constraints",'C112 identities')
m(I,'GBlock.toBlk',"  constraints := b.constraints","  constraints := b.constraints.drop 1",'C112 constraints')
m(I,'GBlock.toBlk',"  controls := b.controls","  controls := b.controls.drop 1",'C112 controls')
m(I,'GBlock.toBlk',"  objective := b.objective","  objective := b.objective.take 0",'C112 objective')
m(I,'GBlock.toBlk',"  shocks := b.shocks\n","  shocks := []\n",'C112 shocks')
m(I,'GBlock.toBlk',"b.shockDists.map GDist.toDist","[]",'C112 shock distributions')
m(I,'GBlock.toBlk',"b.calibration.map GCal.toCalib","[]",'C112 calibration')
m(I,'GFile.toMdl',"m.blocks.map GBlock.toBlk","(m.blocks.drop 1).map GBlock.toBlk",'C112 all blocks')
m(I,'GFile.toMdl',"tryreduce := m.tryreduce","tryreduce := []",'C112 tryreduce')
m(I,'GFile.toMdl',"assumptions := m.assumptions","assumptions := []",'C112 assumptions')
# plotting
m(P,'prepareGrid',"let extra := if 0 < remainder then 1 else 0","let extra := if 1 < remainder then 1 else 0",'C113 number of rows')
m(P,'prepareGrid',"(List.range (nRows - extra)).flatMap","(List.range nRows).flatMap",'C113 full rows')
m(P,'prepareGrid',"(nCols - remainder) + j * 2, (nCols - remainder) + (j + 1) * 2","j * 2, (j + 1) * 2",'C113 centred')
m(P,'prepareGrid',"⟨(nRows - 1) * 2, nRows * 2,","⟨nRows * 2, (nRows + 1) * 2,",'C113 last row')
m(P,'prepareGrid',"⟨i * 2, (i + 1) * 2, j * 2, (j + 1) * 2⟩","⟨i * 2, (i + 1) * 2, j * 2, (j + 2) * 2⟩",'C113 disjoint')
m(P,'prepareGrid',"fun i => (List.range nCols).map fun j => ⟨i * 2, (i + 1) * 2, j * 2, (j + 1) * 2⟩","fun i => (List.range nCols).map fun j => ⟨j * 2, (j + 1) * 2, i * 2, (i + 1) * 2⟩",'C113 rows and columns')
m(P,'chosenCols',"min 4 nPlots","4",'equivalent for four or more panels; C113 default columns')
m(P,'irfGrid',"l.bottom / 2 - 1","l.top / 2 - 1",'C113 rows of the panels')
m(P,'irfGrid',"rows.drop (rows.length - 2)","rows.drop (rows.length - 1)",'C113 labels above a gap')
m(P,'irfGrid',"rowIdxs.count i = c","rowIdxs.count i ≤ c",'C113 labels above a gap')
m(P,'irfGrid',"match rows.getLast? with","match rows.head? with",'C113 labels at the bottom')
m(P,'resolveList',"if l.all fun v => v ∈ available then .ok l","if l.any fun v => v ∈ available then .ok l",'C114 unknown names')
m(P,'resolveList',"| .all => .ok available","| .all => .ok (available.take 1)",'C114 all by default')
m(P,'irfToMapping',"natStr p.2, p.1)","natStr (p.2 + 1), p.1)",'C114 scenario names')
m(P,'resolveVarsShocks',"match resolveList vars a.vars with","match resolveList shocks a.vars with",'C114 swapped arguments')
m(P,'resolveVarsShocks',"| .ok s => .ok (vs, some s)","| .ok _ => .ok (vs, some ss)",'C114 selected shocks')
m(P,'scenarioLines',"then .ok (s.map fun x => ⟨name, idx % 4, some x⟩)","then .ok (ss.map fun x => ⟨name, idx % 4, some x⟩)",'C114 selected shocks')
m(P,'scenarioLines',"| none, none => .ok [⟨name, idx % 4, none⟩]","| none, none => .ok [⟨name, 0, none⟩]",'C114 styles')
m(P,'panelLines',"| .ok ls => .ok (l ++ ls)","| .ok ls => .ok (ls ++ l)",'C114 order of scenarios')
m(P,'irfPanels',"⟨v, loc, ls, decide (r ∈ lastRows)⟩","⟨v, loc, ls, decide (r ∉ lastRows)⟩",'C114 tick labels')
m(P,'irfPanels',"match g.locs[i]?, rowIdxs[i]?,","match g.locs[0]?, rowIdxs[i]?,",'C114 places')
m(P,'plotIrf',"irfGrid vs.length nCols","irfGrid (vs.length + 1) nCols",'C114 grid')
m(P,'simPanels',"    if v ∈ available then\n      match locs[i]?","    if v ∈ available ∨ i = 0 then\n      match locs[i]?",'C114 unknown variables')
m(P,'plotSimulation',"vars.getD available","available",'C114 requested variables')
m(P,'plotPriors',"dupdate priors hyper","dupdate hyper priors",'C114 hyper-priors replace')
m(P,'plotPriors',".ok (all.zip g.locs)",".ok (priors.zip g.locs)",'C114 hyper-priors shown')
m(P,'initialMark',"if mark = true ∧ v ≠ 0 then","if mark = true ∧ v > 0 then",'C114 negative initial values')
m(P,'plotCorner',"decide (c.2 ≤ r.2)","decide (c.2 < r.2)",'C114 diagonal')
m(P,'plotCorner',"fun c => (r.1, c.1)","fun c => (c.1, r.1)",'C114 which axis')
m(P,'kalmanGroup',"output ++ ['_'] ++ group","group ++ ['_'] ++ output",'C114 group name')
m(P,'F.above',"| .inf => True | .nan => False","| .inf => False | .nan => False",'C115 infinite eigenvalues')
m(P,'plotEigenvalues',"decide (p.1.above 1))","decide (p.1.above 10))",'C115 colour')
m(P,'plotEigenvalues',"decide (m.above 10)","decide (m.above 9)",'C115 count')
m(P,'finiteMods',"if x < 1000000 then","if x < 1 then",'C115 default tolerance')
m(P,'infTol',"max (10 * xs.foldl max x) 10","10 * xs.foldl max x",'C115 default tolerance')
m(P,'infTol',"xs.foldl max x) 10","xs.foldl min x) 10",'C115 default tolerance')
m(P,'infTol',"| some t => t","| some t => 10 * t",'C115 given tolerance')
m(P,'filterEigenvalues',"(!infinite || decide (m.below t))","(!infinite && decide (m.below t))",'C115 filters')
m(P,'filterEigenvalues',"mods.length - kept.length","kept.length",'C115 count')
m(P,'axisLimits',"let half := max (xlim.2 - xlim.1) (ylim.2 - ylim.1) / 2","let half := min (xlim.2 - xlim.1) (ylim.2 - ylim.1) / 2",'C115 axes contain all')
m(P,'axisLimits',"let y := (ylim.1 + ylim.2) / 2","let y := (xlim.1 + xlim.2) / 2",'C115 centre')
m(P,'axisLimits',"max (reMax - reMin) (1 / 10) * (3 / 10)","(reMax - reMin) * (3 / 10)",'C115 one point')
m(P,'arrows',"let delta := param * perturbation","let delta := perturbation",'C115 relative change')
m(P,'arrows',"p.1.1.2 + p.1.2.1.2 * delta","p.1.1.2 + p.1.2.1.1 * delta",'C115 imaginary part')
m(P,'arrows',"decide (maxGrad * minFrac < p.1.2.2)","decide (maxGrad < p.1.2.2)",'C115 fastest')
m(P,'summaryOrder','some "perturbation".toList, ','','C116 all stages')
m(P,'summaryBars',"summaryBars draws ls (left + frac)","summaryBars draws ls frac",'C116 side by side')
m(P,'summaryBars',"(draws.count l : Rat) / draws.length","(draws.count l : Rat)",'C116 shares')
m(P,'summaryBars',"if frac = 0 then summaryBars draws ls left","if frac = 1 then summaryBars draws ls left",'C116 a single outcome')
m(P,'offDiagonal',"(failed.filter fun p => p.2 = r)","failed",'C116 series')
m(P,'offDiagonal',".eraseDups.flatMap fun r",".flatMap fun r",'C116 once')
m(P,'offDiagonal',"filter fun p => p.1.isNone).map fun p => (p.2, none)","filter fun p => !p.1.isNone).map fun p => (p.2, none)",'C116 successes')
m(P,'diagonal',"filter fun p => !p.1.isNone).map Prod.snd].filter","filter fun p => p.1.isNone).map Prod.snd].filter",'C116 failures in a density')
m(P,'diagonal',"2 ≤ l.length","1 ≤ l.length",'C116 two draws')
m(P,'diagonal',"[(draws.zipIdx.filter fun p => p.1.isNone).map Prod.snd, (draws","[(draws",'C116 both densities')
out=[]
for i,(f,d,o,n,c,k) in enumerate([x for x in L if x[5]]):
    if src[f].count(o)!=k: print('BAD',d,o,src[f].count(o)); continue
    out.append(dict(id=f'k{i:03d}',file=f,**{'def':d},old=o,new=n,claim=c,edit=f'`{o}` -> `{n}`',count=k))
json.dump(out,open('m11.json','w'),indent=0); print(len(out))
