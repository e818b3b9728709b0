import json,os
T={'a019':['C05_update_partial'],'a020':['C05_update_partial'],'a024':['C03_inplace_roundtrip_partial'],'a040':['C08_model'],'a037':['C08_model'],
'b008':['C67_accepted_iff','C67_errors'],'b009':['C67_accepted_iff','C67_errors'],'b010':['C67_accepted_iff','C67_errors'],'b011':['C67_accepted_iff','C67_errors'],
'b012':['C49_consolidate','C49_consolidate_closed_partial'],'b016':['C21_computed_rejected'],'b042':['C16 specification Blk.calibrated made independent of the model'],
'b052':['C53_skipped_names'],'b053':['C54_ss_names'],'b069':['C55_entry_iff']}
T.update(json.load(open('/tmp/mut/tight.json')) if os.path.exists('/tmp/mut/tight.json') else {})
N=json.load(open('/tmp/mut/notes.json')) if os.path.exists('/tmp/mut/notes.json') else {}
fs=[f for f in ('m1','m2','m2b','m3','m3b','m4','m4b','m5','m5b','m6','m6b','m7','m7b','m8','m8b','m9','m9b','m10','m10b','m11','m11b','m12','m12b','m13','m13b','m14','m14b','m15','m15b','m16','m16b','m17','m17b','m18','m18b','m19','m19b','m20','m20b','m21','m21n','m21o','m22','m23','m24') if os.path.exists(f'/tmp/mut/{f}.json') and os.path.exists(f'/tmp/mut/{f}.res.jsonl')]
M={}; out=[]
for f in fs:
    for m in json.load(open(f'/tmp/mut/{f}.json')): M[m['id']]=m
for f in fs:
    for l in open(f'/tmp/mut/{f}.res.jsonl'):
        r=json.loads(l); m=M[r['id']]; again=f.endswith('b')
        d=dict(id=r['id'],round=f,definition='GE.'+m['def']+' (lean/Verif/Model/'+m['file']+'.lean)',edit=m['edit'],claim_broken=m['claim'],
          outcome={'killed':'a theorem of the claim fails','killed-elsewhere':'other theorems fail','SURVIVED':'every theorem still proves','INVALID':'edited model does not compile; not counted'}[r['status']],
          theorems_failed=r['fails'],theorems_tightened=T.get(r['id'],[]) if not again else [])
        if r['propfail']: d['modules_failed']=r['propfail']
        if r['status']=='killed-elsewhere': d['note']='The claim\'s own theorems are in the failed modules (a lemma they use fails) or in modules that import them and are not built after the failure.'
        if r['id'] in N: d['note']=N[r['id']]
        if again: d['note']=d.get('note','')+' Re-run after tightening.' 
        out.append(d)
open('/verif/seeded/LOG.jsonl','w').write(''.join(json.dumps(d,ensure_ascii=False)+'\n' for d in out))
print(len(out))
