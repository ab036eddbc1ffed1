"""Writes AXIOMS.md: the axioms of every theorem named in MANIFEST.json, as printed by the kernel."""
import collections, json, os, re, subprocess, tempfile

root = os.path.dirname(os.path.dirname(os.path.abspath(__file__)))
claims = json.load(open(f'{root}/MANIFEST.json'))['claims']
names = [t for c in claims for t in c['theorems']]
with tempfile.NamedTemporaryFile('w', suffix='.lean', delete=False) as f:
    f.write('import Verif\nopen HGQ HGQ.Convert HGQ.Config HGQ.Qkeras HGQ.Serialize HGQ.Attn HGQ.Compiled HGQ.Import HGQ.Sig\n' + ''.join(f'#print axioms {n}\n' for n in names))
out = subprocess.run(['lake', 'env', 'lean', f.name], cwd=f'{root}/lean', capture_output=True, text=True).stdout
os.unlink(f.name)
ax = {}
for m in re.finditer(r"'([^']+)' (does not depend on any axioms|depends on axioms: \[([^\]]*)\])", out):
    ax[m.group(1).split('.')[-1]] = ', '.join(sorted(x.strip() for x in (m.group(3) or '').split(',') if x.strip())) or 'none'
groups = collections.defaultdict(list)
for n in names:
    groups[ax[n]].append(n)
with open(f'{root}/AXIOMS.md', 'w') as g:
    g.write('# Axioms per theorem\n\nGenerated by `tools/mk_axioms.py` from `#print axioms`.\n')
    for k in sorted(groups, key=lambda k: -len(groups[k])):
        g.write(f'\n## {k} ({len(groups[k])} theorems)\n\n' + ', '.join(f'`{n}`' for n in groups[k]) + '\n')
print({k: len(v) for k, v in groups.items()})
