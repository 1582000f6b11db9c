#!/usr/bin/env python3
"""Write AXIOMS.md: the axioms every property theorem depends on (run after `lake build`)."""
import glob, os, re, subprocess, tempfile
root = os.path.dirname(os.path.dirname(os.path.abspath(__file__)))
names = []
for f in sorted(glob.glob(root + '/lean/Verif/Props/*.lean')):
    src = open(f).read()
    for m in re.finditer(r'^theorem\s+(C\d\d_\w+)', src, re.M):
        names.append(re.findall(r'^namespace (\S+)', src[:m.start()], re.M)[-1] + '.' + m.group(1))
names.sort(key=lambda n: n.split('.')[-1])
with tempfile.NamedTemporaryFile('w', suffix='.lean', delete=False) as t:
    t.write('import Verif\n' + '\n'.join('#print axioms ' + n for n in names) + '\n')
out = subprocess.run(['lake', 'env', 'lean', t.name], cwd=root + '/lean', capture_output=True, text=True).stdout
rows = re.findall(r"'(\S+)' (does not depend on any axioms|depends on axioms: \[(.*?)\])", out, re.S)
with open(root + '/AXIOMS.md', 'w') as o:
    o.write('# Axioms of each property theorem (output of `#print axioms`)\n\n| theorem | axioms |\n|---|---|\n')
    for n, _, a in rows:
        o.write(f"| `{n}` | {' '.join(a.split()) or 'none'} |\n")
print(len(rows), 'of', len(names))
