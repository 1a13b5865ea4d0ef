#!/usr/bin/env python3
"""Writes /verif/AXIOMS.md: the axioms of every theorem named in MANIFEST.json."""
import collections, json, os, re, subprocess, tempfile
root = os.path.dirname(os.path.dirname(os.path.abspath(__file__)))
claims = json.load(open(root + '/MANIFEST.json'))['claims']
names = sorted({t for c in claims for t in c['theorems']})
with tempfile.NamedTemporaryFile('w', suffix='.lean', delete=False) as f:
    f.write('import Verif\n' + '\n'.join('#print axioms ' + n for n in names) + '\n')
out = subprocess.run(['lake', 'env', 'lean', f.name], cwd=root + '/lean', capture_output=True, text=True).stdout
groups = collections.defaultdict(list)
for m in re.finditer(r"'([^']+)' (does not depend on any axioms|depends on axioms: \[([^\]]*)\])", out.replace('\n', ' ')):
    groups[tuple(sorted(x.strip() for x in (m.group(3) or '').split(',') if x.strip()))].append(m.group(1))
assert sum(map(len, groups.values())) == len(names), out[:2000]
with open(root + '/AXIOMS.md', 'w') as f:
    f.write('# Axioms of the theorems of the manifest (`#print axioms`)\n')
    for k, v in sorted(groups.items()):
        f.write('\n## %s\n\n' % (', '.join(k) or 'none') + '\n'.join('* `%s`' % n for n in v) + '\n')
