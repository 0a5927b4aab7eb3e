#!/usr/bin/env python3
"""Append the axioms of every property theorem (output of `lake env lean /tmp/axioms.lean` on stdin) to DESIGN.md."""
import re, sys
text = sys.stdin.read()
groups = {}
for m in re.finditer(r"'([^']+)' (?:depends on axioms: \[([^\]]*)\]|does not depend on any axioms)", text):
    key = ', '.join(a.strip() for a in (m.group(2) or '').split(',')) or 'none'
    groups.setdefault(key, []).append(m.group(1))
f = '/verif/DESIGN.md'
s = open(f).read().split('### Axioms per theorem')[0].rstrip() + '\n\n### Axioms per theorem\n\n'
for k in sorted(groups, key=lambda k: (len(k), k)):
    s += '* **%s**: %s\n' % (k, ', '.join('`%s`' % n.replace('Hocon.', '') for n in groups[k]))
open(f, 'w').write(s)
print({k: len(v) for k, v in groups.items()})
