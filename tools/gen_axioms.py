"""Regenerate AXIOMS.md: what `#print axioms` says of every theorem in MANIFEST.json (needs a built lean/)."""
import json, re, os, subprocess, tempfile
root = os.path.dirname(os.path.dirname(os.path.abspath(__file__)))
names = [t for c in json.load(open(root + '/MANIFEST.json'))['claims'] for t in c['theorems']]
with tempfile.NamedTemporaryFile('w', suffix='.lean') as f:
    f.write('import Verif\n' + ''.join(f'#print axioms {n}\n' for n in names))
    f.flush()
    out = subprocess.run(['lake', 'env', 'lean', f.name], cwd=root + '/lean', capture_output=True, text=True).stdout
res = {}
for l in out.replace('\n ', ' ').splitlines():
    m = re.match(r"'(\S+)' (?:depends on axioms: \[(.*)\]|does not depend on any axioms)", l)
    assert m, l
    res[m.group(1)] = m.group(2) or 'none'
assert set(res) == set(names), set(names) - set(res)
groups = {}
for n in names:
    groups.setdefault(res[n], []).append(n)
with open(root + '/AXIOMS.md', 'w') as f:
    f.write('# Axioms of the property theorems\n\nOutput of `#print axioms`, grouped (`tools/gen_axioms.py`).\n')
    for g in sorted(groups):
        f.write(f'\n## {g} ({len(groups[g])})\n\n' + ', '.join(f'`{n[3:]}`' for n in groups[g]) + '\n')
print({g: len(v) for g, v in groups.items()})
