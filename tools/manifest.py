#!/usr/bin/env python3
"""Regenerate MANIFEST.json from the theorem names C??_* in lean/Verif/Props and the notes below."""
import re, json, glob, os
root = os.path.dirname(os.path.dirname(os.path.abspath(__file__)))
notes = json.load(open(os.path.join(root, 'tools', 'notes.json')))
thms = {}
for f in sorted(glob.glob(root + '/lean/Verif/Props/*.lean')):
    src = open(f).read()
    for m in re.finditer(r'^theorem\s+(C(\d\d)_\w+)', src, re.M):
        ns = re.findall(r'^namespace (\S+)', src[:m.start()], re.M)[-1] + '.'
        thms.setdefault('C' + m.group(2), []).append(ns + m.group(1))
claims = []
for l in open(root + '/properties.jsonl'):
    i = json.loads(l)['id']
    if i not in thms:
        print('no theorem for', i); continue
    n = notes.get(i, {})
    claims.append({'property': i, 'status': n.get('status', 'proved'), 'theorems': thms[i], 'note': n.get('note', '')})
with open(root + '/MANIFEST.json', 'w') as o:
    o.write('{"claims": [\n' + ',\n'.join(' ' + json.dumps(c) for c in claims) + '\n]}\n')
