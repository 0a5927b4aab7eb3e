#!/usr/bin/env python3
"""Regenerate MANIFEST.json from the theorem names in lean/Verif/Props and tools/status.json,
and print a Lean file that lists the axioms of every property theorem."""
import json, re, glob, sys, os
root = os.path.dirname(os.path.dirname(os.path.abspath(__file__)))
thms = {}
allnames = []
for f in sorted(glob.glob(root + '/lean/Verif/Props/*.lean')):
    ns = []
    for line in open(f):
        m = re.match(r'namespace (\S+)', line)
        if m: ns.append(m.group(1))
        m = re.match(r'end (\S+)', line)
        if m and ns and ns[-1] == m.group(1): ns.pop()
        m = re.match(r'theorem ((C\d\d)_\w+)', line)
        if m:
            n = '.'.join(ns + [m.group(1)])
            thms.setdefault(m.group(2), []).append(n)
            allnames.append(n)
status = json.load(open(root + '/tools/status.json'))
props = [json.loads(l)['id'] for l in open(root + '/properties.jsonl') if l.strip()]
claims = []
for p in props:
    s = status.get(p)
    if s is None:
        if p in thms: print('no status for', p, file=sys.stderr)
        continue
    if s['status'] != 'not_applicable' and p not in thms:
        print('no theorem for', p, file=sys.stderr)
    claims.append({'property': p, 'status': s['status'], 'theorems': thms.get(p, []), 'note': s['note']})
json.dump({'claims': claims}, open(root + '/MANIFEST.json', 'w'), indent=1)
with open('/tmp/axioms.lean', 'w') as o:
    o.write('import Verif\n' + ''.join('#print axioms %s\n' % n for n in allnames))
print(len(claims), 'claims', len(allnames), 'theorems')
