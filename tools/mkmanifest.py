#!/usr/bin/env python3
"""Writes /verif/MANIFEST.json. Theorem names are collected from lean/Verif/Props by their C<nn>_ prefix."""
import re, json, glob, os
root = os.path.dirname(os.path.dirname(os.path.abspath(__file__)))
ths = {}
for f in sorted(glob.glob(root + '/lean/Verif/Props/*.lean')):
    for m in re.finditer(r'^theorem (C(\d\d\d?)_[A-Za-z0-9_\']+)', open(f).read(), re.M):
        ths.setdefault('C' + m.group(2), []).append('Verif.Props.' + m.group(1))
# status overrides and notes: proved = the property as written (with its stated exceptions) is proved
notes = json.load(open(root + '/tools/notes.json'))
props = [json.loads(l) for l in open(root + '/properties.jsonl')]
claims = []
for p in props:
    i = p['id']
    n = notes.get(i, {})
    t = ths.get(i, [])
    st = n.get('status', 'proved' if t else None)
    if st is None: continue
    claims.append({'property': i, 'status': st, 'theorems': t, 'note': n.get('note', '')})
json.dump({'claims': claims}, open(root + '/MANIFEST.json', 'w'), indent=1)
print(len(claims), 'claims;', 'missing:', [p['id'] for p in props if not any(c['property'] == p['id'] for c in claims)])
