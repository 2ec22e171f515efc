#!/usr/bin/env python3
"""Write MANIFEST.json: theorems named Cnn_* under Verif/Props are attached to property Cnn."""
import json, re, glob, os
root = os.path.dirname(os.path.dirname(os.path.abspath(__file__)))
props = [json.loads(l) for l in open(root + '/properties.jsonl')]
thms = {}
for f in sorted(glob.glob(root + '/lean/Verif/Props/*.lean')):
    ns = []
    for l in open(f):
        if m := re.match(r'namespace (\S+)', l):
            ns.append(m[1])
        elif re.match(r'end (\S+)', l) and ns:
            ns.pop()
        elif m := re.match(r'theorem (C(\d\d)\w*)', l):
            thms.setdefault('C' + m[2], []).append('.'.join(ns + [m[1]]))
notes = json.load(open(root + '/tools/notes.json'))
claims = []
for p in props:
    t = thms.get(p['id'], [])
    n = notes.get(p['id'], {})
    status = n.get('status') or ('partial' if any(x.endswith('_partial') for x in t) else 'proved')
    if not t:
        if status == 'proved':
            continue
    claims.append({'property': p['id'], 'status': status, 'theorems': t, 'note': n.get('note', '')})
json.dump({'claims': claims}, open(root + '/MANIFEST.json', 'w'), indent=1)
print(len(claims), 'claims;', [p['id'] for p in props if p['id'] not in {c['property'] for c in claims}], 'missing')
