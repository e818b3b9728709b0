import re,sys,subprocess,os
out=subprocess.run(['python3','defcov.py'],capture_output=True,text=True).stdout
want=sys.argv[1:]
for l in out.split('\n'):
    m=re.match(r"(\w+) \d+ \d+ MISS (\[.*\])",l)
    if not m or m.group(1) not in want: continue
    b=m.group(1); miss=eval(m.group(2))
    s=open(f'/verif/lean/Verif/Model/{b}.lean').read()
    print('=====',b)
    for n in miss:
        x=re.search(r'^(?:noncomputable )?(def|abbrev|partial def) '+re.escape(n)+r'(?=[\s(:{\[])',s,re.M)
        e=s.find('\n\n',x.start())
        print(s[x.start():e][:1500]); print()
