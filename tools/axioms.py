#!/usr/bin/env python3
"""Print the axioms of every theorem named in MANIFEST.json into AXIOMS.md (run after `lake build`)."""
import json, os, re, subprocess
root = os.path.dirname(os.path.dirname(os.path.abspath(__file__)))
claims = json.load(open(root + '/MANIFEST.json'))['claims']
names = [t for c in claims for t in c['theorems']]
src = 'import Verif\n' + ''.join(f'#print axioms {n}\n' for n in names)
out = subprocess.run(['lake', 'env', 'lean', '--stdin'], cwd=root + '/lean', input=src,
                     capture_output=True, text=True).stdout
out = re.sub(r'\s*\n\s+', ' ', out)
ax = {}
for m in re.finditer(r"'([\w.']+)' (?:depends on axioms: \[([^\]]*)\]|does not depend on any axioms)", out):
    ax[m.group(1)] = m.group(2) or 'none'
with open(root + '/AXIOMS.md', 'w') as f:
    f.write('# Axioms of the property theorems\n\nGenerated by `tools/axioms.py` from `#print axioms`.\n\n')
    groups = {}
    for n in names:
        groups.setdefault(ax.get(n, '?'), []).append(n)
    for g, l in sorted(groups.items()):
        f.write(f'## {g}\n\n')
        for n in l:
            f.write(f'* `{n}`\n')
        f.write('\n')
    print({g: len(l) for g, l in groups.items()})
