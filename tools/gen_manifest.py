#!/usr/bin/env python3
"""Regenerate MANIFEST.json from the names of the theorems in lean/Verif/Props."""
import json, re, glob, os
ROOT = os.path.dirname(os.path.dirname(os.path.abspath(__file__)))
props = [json.loads(l) for l in open(os.path.join(ROOT, 'properties.jsonl')) if l.strip()]
thms = {}
for f in sorted(glob.glob(os.path.join(ROOT, 'lean/Verif/Props/*.lean'))):
    for m in re.finditer(r'^(?:@\[[^\]]*\]\s*)?theorem (C(\d+)_\w+)', open(f).read(), re.M):
        thms.setdefault('C' + m.group(2), []).append('Verif.Props.' + m.group(1))
notes = {}
p = os.path.join(ROOT, 'tools/manifest_notes.json')
if os.path.exists(p):
    notes = json.load(open(p))
claims = []
for q in props:
    i = q['id']
    n = notes.get(i, {})
    t = thms.get(i, [])
    if not t and n.get('status') != 'not_applicable':
        continue
    st = n.get('status') or ('partial' if all(x.endswith('_partial') for x in t) else 'proved')
    claims.append({'property': i, 'status': st, 'theorems': t, 'note': n.get('note', '')})
json.dump({'claims': claims}, open(os.path.join(ROOT, 'MANIFEST.json'), 'w'), indent=1)
print(len(claims), 'claims;', sum(len(c['theorems']) for c in claims), 'theorems;',
      'missing:', [q['id'] for q in props if q['id'] not in {c['property'] for c in claims}])
