#!/usr/bin/env python3
"""Writes AXIOMS.md: the axioms of every theorem in MANIFEST.json, as Lean reports them."""
import json, subprocess, os, re, collections
root = os.path.dirname(os.path.dirname(os.path.abspath(__file__)))
names = []
for c in json.load(open(root + '/MANIFEST.json'))['claims']:
    for t in c['theorems']:
        if t not in names: names.append(t)
src = 'import Verif\n' + ''.join('#print axioms %s\n' % n for n in names)
path = '/tmp/axioms_query.lean'
open(path, 'w').write(src)
out = subprocess.run(['lake', 'env', 'lean', path], cwd=root + '/lean', capture_output=True, text=True).stdout
out = re.sub(r'\n\s+', ' ', out)
got = {}
for l in out.splitlines():
    m = re.match(r"'(.*)' depends on axioms: \[(.*)\]", l)
    if m: got[m.group(1)] = ', '.join(sorted(x.strip() for x in m.group(2).split(',')))
    m = re.match(r"'(.*)' does not depend on any axioms", l)
    if m: got[m.group(1)] = 'none'
assert set(got) == set(names), set(names) ^ set(got)
cnt = collections.Counter(got.values())
with open(root + '/AXIOMS.md', 'w') as f:
    f.write('# Axioms of the theorems in MANIFEST.json\n\nWritten by `tools/axioms.py` from `#print axioms`.\n\n')
    for k, v in sorted(cnt.items(), key=lambda x: -x[1]): f.write('* %s: %d theorems\n' % (k, v))
    f.write('\n| theorem | axioms |\n|---|---|\n')
    for n in names: f.write('| `%s` | %s |\n' % (n, got[n]))
print(cnt)
