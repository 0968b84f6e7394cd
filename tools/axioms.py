#!/usr/bin/env python3
"""Print, for every theorem of MANIFEST.json, the axioms it depends on -> /verif/AXIOMS.md
(lean must have been built)."""
import json, re, subprocess, os
root = os.path.dirname(os.path.dirname(os.path.abspath(__file__)))
m = json.load(open(root + '/MANIFEST.json'))
ths = [t for c in m['claims'] for t in c['theorems']]
src = 'import Verif\n' + ''.join(f'#print axioms {t}\n' for t in ths)
open('/tmp/Ax.lean', 'w').write(src)
out = subprocess.run(['lake', 'env', 'lean', '/tmp/Ax.lean'], cwd=root + '/lean', capture_output=True, text=True).stdout
out = re.sub(r'\n\s+', ' ', out)
groups = {}
seen = set()
for line in out.splitlines():
    r = re.match(r"'([^']+)' depends on axioms: \[(.*)\]", line)
    r2 = re.match(r"'([^']+)' does not depend on any axioms", line)
    if r: groups.setdefault(', '.join(sorted(r.group(2).split(', '))), []).append(r.group(1)); seen.add(r.group(1))
    elif r2: groups.setdefault('none', []).append(r2.group(1)); seen.add(r2.group(1))
    else: print('??', line)
for t in ths:
    if t not in seen: print('MISSING', t)
with open(root + '/AXIOMS.md', 'w') as f:
    f.write('# Axioms of each theorem\n\nWritten by tools/axioms.py from `#print axioms`.\n')
    for g in sorted(groups):
        f.write(f'\n## {g} ({len(set(groups[g]))} theorems)\n\n')
        for t in sorted(set(groups[g])): f.write(f'- {t}\n')
