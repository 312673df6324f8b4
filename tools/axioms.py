"""Print the axioms of every theorem listed in MANIFEST.json, grouped by the set of axioms.

Run from /verif after `lake build` in /verif/lean.
"""
import json, re, subprocess, tempfile, os
from collections import defaultdict
ths = [t for c in json.load(open('/verif/MANIFEST.json'))['claims'] for t in c['theorems']]
src = 'import Verif\n' + ''.join('#print axioms %s\n' % t for t in ths)
with tempfile.NamedTemporaryFile('w', suffix='.lean', delete=False) as f:
    f.write(src)
out = subprocess.run(['lake', 'env', 'lean', f.name], cwd='/verif/lean', capture_output=True, text=True).stdout
os.unlink(f.name)
groups = defaultdict(list)
for name, ax in re.findall(r"'([^']+)' depends on axioms: \[([^\]]*)\]", out.replace('\n ', ' ')):
    groups[', '.join(sorted(a.strip() for a in ax.split(',')))].append(name)
for name in re.findall(r"'([^']+)' does not depend on any axioms", out):
    groups['none'].append(name)
assert sum(map(len, groups.values())) == len(ths), (sum(map(len, groups.values())), len(ths))
for ax, names in sorted(groups.items(), key=lambda g: len(g[1])):
    print('* %s (%d): %s' % (ax, len(names), ', '.join(n.replace('SyMPC.', '') for n in names)))
