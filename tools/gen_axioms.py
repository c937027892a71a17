#!/usr/bin/env python3
"""Write /verif/AXIOMS.md: the axioms every theorem of the manifest depends on (needs a finished build)."""
import json, subprocess, re, collections
m = json.load(open('/verif/MANIFEST.json'))
names = []
for c in m['claims']:
    for t in c['theorems']:
        names.append((c['property'], t))
src = 'import Verif\n' + ''.join('#print axioms %s\n' % t for t in dict.fromkeys(t for _, t in names))
open('/tmp/ax.lean', 'w').write(src)
out = subprocess.run(['lake', 'env', 'lean', '/tmp/ax.lean'], cwd='/verif/lean', capture_output=True, text=True).stdout
ax = {}
for x in re.finditer(r"'([^']+)' (does not depend on any axioms|depends on axioms: \[([^\]]*)\])", out, re.S):
    ax[x.group(1)] = ', '.join(sorted(a.strip() for a in (x.group(3) or '').split(','))) or 'none'
cnt = collections.Counter(ax.values())
with open('/verif/AXIOMS.md', 'w') as f:
    f.write('# Axioms of the theorems of the manifest\n\nGenerated by `tools/gen_axioms.py` from `#print axioms`.\n\n')
    for k, v in sorted(cnt.items()):
        f.write('* %s: %d theorems\n' % (k, v))
    f.write('\n| property | theorem | axioms |\n|---|---|---|\n')
    for p, t in names:
        f.write('| %s | `%s` | %s |\n' % (p, t, ax.get(t, '?')))
print(cnt)
