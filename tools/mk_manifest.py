"""Regenerate MANIFEST.json: theorem names are collected from lean/Verif/Props by property-id prefix."""
import json, re, pathlib
root = pathlib.Path(__file__).resolve().parent.parent
props = [json.loads(l) for l in (root / 'properties.jsonl').read_text().splitlines() if l.strip()]
status = json.loads((root / 'tools' / 'status.json').read_text())
names = {}
for f in sorted((root / 'lean/Verif/Props').glob('*.lean')):
    for m in re.finditer(r'^(?:protected )?theorem (C(\d\d+)_\w+)', f.read_text(), re.M):
        names.setdefault('C' + m.group(2), []).append(m.group(1))
claims = []
for p in props:
    st = status.get(p['id'])
    ths = names.get(p['id'], [])
    if st is None or (not ths and st[0] != 'not_applicable'):
        continue
    claims.append({'property': p['id'], 'status': st[0], 'theorems': ths, 'note': st[1]})
(root / 'MANIFEST.json').write_text(json.dumps({'claims': claims}, indent=1, ensure_ascii=False) + '\n')
print(len(claims), 'claims;', sum(len(c['theorems']) for c in claims), 'theorems; missing:',
      [p['id'] for p in props if p['id'] not in {c['property'] for c in claims}])
