#!/usr/bin/env python3
"""Collect every property theorem (named Cnn_...) under lean/Verif/Props into MANIFEST.json."""
import re, glob, json, os
root = os.path.dirname(os.path.dirname(os.path.abspath(__file__)))
props = [json.loads(l) for l in open(root + '/properties.jsonl') if l.strip()]
notes = json.load(open(root + '/tools/notes.json'))
thms = {}
for f in sorted(glob.glob(root + '/lean/Verif/Props/*.lean')):
    for m in re.finditer(r'^(?:private )?theorem (C(\d+)_\S+)', open(f).read(), re.M):
        thms.setdefault('C%02d' % int(m.group(2)), []).append('ImgReg.' + m.group(1))
claims = []
for p in props:
    i = p['id']
    t = thms.get(i, [])
    n = notes.get(i, {})
    if not t:
        status = n.get('status', 'not_applicable')
        note = n.get('note', 'not yet proved')
    else:
        status = n.get('status', 'partial' if all('_partial' in x for x in t) else 'proved')
        note = n.get('note', p['title'])
    claims.append({'property': i, 'status': status, 'theorems': t, 'note': note})
json.dump({'claims': claims}, open(root + '/MANIFEST.json', 'w'), indent=1)
from collections import Counter
print(Counter(c['status'] for c in claims), [c['property'] for c in claims if not c['theorems']])
