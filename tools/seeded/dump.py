import re,sys,subprocess
un=subprocess.run(['python3','unm.py'],capture_output=True,text=True).stdout.split('\n')[1:]
sel=sys.argv[1:]
for l in un:
    if not l: continue
    k,_,*v=l.split()
    if k not in sel: continue
    s=open(f'/verif/lean/Verif/Model/{k}.lean').read()
    for d in v:
        m=re.search(r'^(?:@\[[^\]]*\] )?(?:noncomputable )?(?:partial )?def '+re.escape(d)+r'[ \n].*?(?=\n\n|\Z)',s,re.M|re.S)
        print('##',k,d); print(m.group(0) if m else 'NOTFOUND')
