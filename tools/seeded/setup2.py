import os,glob,shutil,subprocess
P='/tmp/mut/pristine2'
tail='''

open Lean Elab Command in
run_cmd do
  let env ← getEnv
  for (n, c) in env.constants.map₂.toList do
    if n.getPrefix == `GE && c.isTheorem then
      let s := n.toString
      if s.startsWith "GE.C" then
        let ax ← liftCoreM (collectAxioms n)
        if ax.contains ``sorryAx then
          logInfo m!"FAILTHM {s}"
'''
if not os.path.isdir(P):
    shutil.copytree('/verif/lean',P,symlinks=True)
for root,d,fs in os.walk('/verif/lean'):
    if '.lake' in root: continue
    for f in fs:
        src=os.path.join(root,f); dst=src.replace('/verif/lean',P)
        s=open(src,'rb').read()
        if '/Props/' in src and f.endswith('.lean'): s=b'import Lean\n'+s+tail.encode()
        os.makedirs(os.path.dirname(dst),exist_ok=True)
        if not os.path.exists(dst) or open(dst,'rb').read()!=s: open(dst,'wb').write(s)
r=subprocess.run(['lake','build'],cwd=P,capture_output=True,text=True)
print('\n'.join(l for l in (r.stdout+r.stderr).split('\n') if 'error' in l.lower() or 'FAILTHM' in l or 'complete' in l)[:3000])
