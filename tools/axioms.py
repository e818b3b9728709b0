"""regenerate tools/axioms.txt (needs a built project): axioms of every theorem of the manifest"""
import json, re, subprocess, os
r = '/verif'
names = [t for c in json.load(open(f'{r}/MANIFEST.json'))['claims'] for t in c['theorems']]
src = 'import Verif\n' + ''.join(f'#print axioms {n if n.startswith("GE.") else "GE." + n}\n' for n in names)
os.makedirs('/tmp/w', exist_ok=True)
open('/tmp/w/Ax.lean', 'w').write(src)
t = subprocess.run(['lake', 'env', 'lean', '/tmp/w/Ax.lean'], cwd=f'{r}/lean', capture_output=True, text=True).stdout
t = re.sub(r'\n\s+', ' ', t)
L = sorted(l for l in t.split('\n') if l.strip())
open(f'{r}/tools/axioms.txt', 'w').write('\n'.join(L) + '\n')
ok = {'propext', 'Classical.choice', 'Quot.sound'}
bad = [l for l in L if not ('does not depend' in l or ('depends on axioms: [' in l and set(x.strip() for x in re.search(r'\[(.*)\]', l).group(1).split(',')) <= ok))]
print(len(L), len(names), 'bad:', bad[:5])
