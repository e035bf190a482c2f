#!/usr/bin/env python3
"""Regenerate MANIFEST.json from the theorem names in lean/Verif and the notes in notes.json."""
import json, re, os, collections
root = os.path.dirname(os.path.dirname(os.path.abspath(__file__)))
thms = collections.OrderedDict()
for d, _, fs in sorted(os.walk(os.path.join(root, 'lean', 'Verif'))):
    for f in sorted(fs):
        if not f.endswith('.lean'):
            continue
        ns = []
        for line in open(os.path.join(d, f)):
            m = re.match(r'namespace (\S+)', line)
            if m:
                ns.append(m.group(1))
            m = re.match(r'end (\S+)', line)
            if m and ns and ns[-1] == m.group(1):
                ns.pop()
            m = re.match(r'(?:protected )?theorem (C(\d\d+)_\S+)', line)
            if m:
                thms.setdefault('C' + m.group(2), []).append('.'.join(ns + [m.group(1)]))
notes = json.load(open(os.path.join(root, 'scripts', 'notes.json')))
claims = []
ids = [json.loads(l)['id'] for l in open(os.path.join(root, 'properties.jsonl')) if l.strip()]
for i in ids:
    n = notes.get(i)
    if n is None and i not in thms:
        continue
    n = n or {'status': 'partial', 'note': ''}
    claims.append({'property': i, 'status': n['status'], 'theorems': thms.get(i, []), 'note': n['note']})
json.dump({'claims': claims}, open(os.path.join(root, 'MANIFEST.json'), 'w'), indent=1, ensure_ascii=False)
missing = [i for i in ids if i not in thms]
print(len(claims), 'claims;', sum(len(c['theorems']) for c in claims), 'theorems; no theorem yet:', missing)
print('unlisted:', [k for k in thms if k not in ids])
