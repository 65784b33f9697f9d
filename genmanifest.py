#!/usr/bin/env python3
"""Regenerate MANIFEST.json from the theorems named C<nn>_... in lean/Verif/Props and the notes in notes.json."""
import json, re, glob, os
root = os.path.dirname(os.path.abspath(__file__))
thms = {}
for f in sorted(glob.glob(root + '/lean/Verif/Props/**/*.lean', recursive=True)):
    s = open(f).read()
    for m in re.finditer(r'^theorem (C\d\d+)(_\w+)', s, re.M):
        thms.setdefault(m.group(1), []).append('MFA.' + m.group(1) + m.group(2))
notes = json.load(open(root + '/notes.json'))
claims = []
for line in open(root + '/properties.jsonl'):
    p = json.loads(line)
    i = p['id']
    t = thms.get(i, [])
    n = notes.get(i, '')
    if not t:
        if n.startswith('N/A'):
            claims.append(dict(property=i, status='not_applicable', theorems=[], note=n))
        continue
    st = 'partial' if any(x.endswith('_partial') for x in t) or n.startswith('PARTIAL') else 'proved'
    claims.append(dict(property=i, status=st, theorems=t, note=n))
json.dump({'claims': claims}, open(root + '/MANIFEST.json', 'w'), indent=1)
print(len(claims), 'claims;', 'missing:', [json.loads(l)['id'] for l in open(root + '/properties.jsonl') if json.loads(l)['id'] not in [c['property'] for c in claims]])
