#!/usr/bin/env python3
"""Print the axioms each theorem of MANIFEST.json depends on (run after `lake build` in /verif/lean)."""
import json, subprocess, tempfile, os, re
root = os.path.dirname(os.path.dirname(os.path.abspath(__file__)))
claims = json.load(open(root + '/MANIFEST.json'))['claims']
with tempfile.NamedTemporaryFile('w', suffix='.lean', delete=False) as f:
    f.write('import Verif\n')
    for c in claims:
        for t in c['theorems']:
            f.write('#print axioms %s\n' % t)
out = subprocess.run(['lake', 'env', 'lean', f.name], cwd=root + '/lean', capture_output=True, text=True).stdout
out = re.sub(r'\n\s+', ' ', out)
ax = {}
for m in re.finditer(r"'([^']+)' (?:depends on axioms: \[([^\]]*)\]|does not depend on any axioms)", out):
    ax[m.group(1)] = m.group(2) or ''
for c in claims:
    for t in c['theorems']:
        print('%s %s: %s' % (c['property'], t, ax.get(t, '?') or 'none'))
