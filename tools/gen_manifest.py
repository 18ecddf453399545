#!/usr/bin/env python3
"""Regenerate MANIFEST.json and lean/Verif.lean: theorems are found by name (Cnn_...) in lean/Verif/Props/*.lean.
Status: 'partial' when any theorem of the property is a _partial or _violated one (or listed in OVERRIDE)."""
import json, re, glob, os
root = os.path.join(os.path.dirname(__file__), '..')
props = [json.loads(l) for l in open(os.path.join(root, 'properties.jsonl'))]
notes = json.load(open(os.path.join(root, 'tools', 'notes.json')))
thms = {}
for f in sorted(glob.glob(os.path.join(root, 'lean/Verif/Props/**/*.lean'), recursive=True)):
    ns = 'Neo.Props'
    src = open(f).read()
    for m in re.finditer(r'^theorem (C(\d\d+)_[\w\']+)', src, re.M):
        thms.setdefault('C' + m.group(2), []).append('Neo.Props.' + m.group(1))
claims = []
for p in props:
    i = p['id']
    t = thms.get(i, [])
    n = notes.get(i, {})
    status = n.get('status') or ('partial' if not t or any(x.endswith(('_partial', '_violated')) for x in t) else 'proved')
    t = t + n.get('also', [])
    claims.append({'property': i, 'status': status, 'theorems': t, 'note': n.get('note', '' if t else 'not proved yet')})
json.dump({'claims': claims}, open(os.path.join(root, 'MANIFEST.json'), 'w'), indent=1, ensure_ascii=False)
mods = []
for base, _, files in os.walk(os.path.join(root, 'lean/Verif')):
    for f in files:
        if f.endswith('.lean'):
            rel = os.path.relpath(os.path.join(base, f), os.path.join(root, 'lean'))
            mods.append(rel[:-5].replace('/', '.'))
open(os.path.join(root, 'lean/Verif.lean'), 'w').write(''.join(f'import {m}\n' for m in sorted(mods)))
print(sum(1 for c in claims if c['status'] == 'proved'), 'proved', sum(1 for c in claims if c['status'] == 'partial'), 'partial',
      sum(len(c['theorems']) for c in claims), 'theorems', [c['property'] for c in claims if not c['theorems']])
