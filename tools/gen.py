#!/usr/bin/env python3
"""Rewrites properties.jsonl from tools/properties.py and MANIFEST.json from the theorem names in
lean/Verif/Props/*.lean (a theorem belongs to property Cnn if its name starts with Cnn_ )."""
import json, re, os, glob, sys
root = os.path.dirname(os.path.dirname(os.path.abspath(__file__)))
sys.path.insert(0, os.path.join(root, 'tools'))
from properties import PROPS
names = {}
for f in sorted(glob.glob(root + '/lean/Verif/Props/*.lean')):
    ns = []
    for line in open(f):
        if m := re.match(r'namespace (\S+)', line): ns.append(m.group(1))
        elif (m := re.match(r'end (\S+)', line)) and ns and ns[-1] == m.group(1): ns.pop()
        elif m := re.match(r'theorem ((?:C\d\d_)+)(\w+)', line):
            full = '.'.join(ns + [m.group(1) + m.group(2)])
            for c in re.findall(r'C\d\d', m.group(1)):
                names.setdefault(c, []).append(full)
with open(root + '/properties.jsonl', 'w') as out:
    for p in PROPS:
        out.write(json.dumps({k: p[k] for k in ('id', 'title', 'statement', 'quantifier', 'why_tests_cant', 'anchors')}) + '\n')
claims = []
for p in PROPS:
    th = list(names.get(p['id'], [])) + p.get('theorems', [])
    status = p.get('status', 'proved' if th else 'not_applicable')
    if not th and status != 'not_applicable': raise SystemExit(p['id'] + ' has no theorem')
    claims.append({'property': p['id'], 'status': status, 'theorems': th, 'note': p.get('note', '')})
json.dump({'claims': claims}, open(root + '/MANIFEST.json', 'w'), indent=1)
ids = {p['id'] for p in PROPS}
for c in names:
    if c not in ids: print('theorems without property:', c)
print({s: sum(1 for c in claims if c['status'] == s) for s in ('proved', 'partial', 'not_applicable')})
