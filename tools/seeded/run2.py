"""usage: run.py mutants.json  -- list of {id,file,def,old,new,edit,claim,(count)}"""
import sys,json,os,shutil,subprocess,re
P='/tmp/mut/pristine2'; W=sys.argv[2] if len(sys.argv)>2 else '/tmp/mut/work2'
ms=json.load(open(sys.argv[1])); out=sys.argv[1].replace('.json','.res.jsonl')
done=set()
if os.path.exists(out):
    done={json.loads(l)['id'] for l in open(out)}
for m in ms:
    if m['id'] in done: continue
    src=open(f"{P}/Verif/Model/{m['file']}.lean").read()
    n=src.count(m['old'])
    if n!=m.get('count',1):
        print(m['id'],'BAD MATCH',n,flush=True); continue
    if os.path.isdir(W): shutil.rmtree(W)
    shutil.copytree(P,W,symlinks=True)
    if 'nth' in m:
        parts=src.split(m['old']); k=m['nth']
        new=m['old'].join(parts[:k+1])+m['new']+m['old'].join(parts[k+1:])
    else: new=src.replace(m['old'],m['new'])
    open(f"{W}/Verif/Model/{m['file']}.lean",'w').write(new)
    import time,signal,threading
    pr=subprocess.Popen(['lake','build'],cwd=W,stdout=subprocess.PIPE,stderr=subprocess.STDOUT,text=True,start_new_session=True)
    buf=[];t0=time.time();first=[None]
    def rd():
        for l in pr.stdout:
            buf.append(l)
            if first[0] is None and (l.startswith('error: Verif/')): first[0]=time.time()
    th=threading.Thread(target=rd,daemon=True);th.start()
    to=''
    while pr.poll() is None:
        time.sleep(0.5)
        if first[0] and time.time()-first[0]>25 or time.time()-t0>1200:
            if not first[0]: to='TIMEOUT'
            os.killpg(pr.pid,signal.SIGKILL);pr.wait();break
    th.join(5)
    o=''.join(buf)+to
    fails=sorted(set(re.findall(r'FAILTHM (GE\.\S+)',o)))
    fails=[f[3:] for f in fails]
    modfail=[l for l in o.split('\n') if l.startswith('error: ') and 'Verif/Model' in l]
    propfail=sorted(set(re.findall(r'error: (Verif/Props/\w+)\.lean',o)))
    st='TIMEOUT' if to else 'INVALID' if modfail else ('killed' if (fails or propfail) else 'SURVIVED')
    cl=m['claim'].split()[0].rstrip(':')
    hit=any(f.startswith(cl+'_') for f in fails)
    if st=='killed' and not hit: st='killed-elsewhere'
    rec=dict(id=m['id'],status=st,fails=fails,propfail=propfail,modfail=modfail[:3])
    open(out,'a').write(json.dumps(rec)+'\n')
    print(m['id'],st,cl,fails[:6],propfail,modfail[:1],flush=True)
