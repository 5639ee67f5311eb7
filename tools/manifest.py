#!/usr/bin/env python3
"""Writes MANIFEST.json from the theorem names found in lean/Verif/Props and the table below."""
import json, re, glob, os
root = os.path.dirname(os.path.dirname(os.path.abspath(__file__)))
status = {}
exec(open(os.path.join(root, 'tools', 'status.py')).read())
thms = {}
for f in sorted(glob.glob(root + '/lean/Verif/Props/*.lean')):
    for m in re.finditer(r'^theorem (C(\d\d)_\w+)', open(f).read(), re.M):
        thms.setdefault('C' + m.group(2), []).append('PJ.' + m.group(1))
claims = []
for l in open(root + '/properties.jsonl'):
    i = json.loads(l)['id']
    st, note = status.get(i, ('partial', 'Not proved yet; the model of this part is under construction.'))
    claims.append({'property': i, 'status': st, 'theorems': thms.get(i, []), 'note': note})
json.dump({'claims': claims}, open(root + '/MANIFEST.json', 'w'), indent=1)
names = [t for c in claims for t in c['theorems']]
with open('/tmp/axioms.lean', 'w') as o:
    o.write('import Verif\n' + ''.join('#print axioms %s\n' % n for n in names))
