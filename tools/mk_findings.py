"""Rewrites the findings list of DESIGN.md from the notes of the partial claims in tools/status.json."""
import json, os, re
root = os.path.dirname(os.path.dirname(os.path.abspath(__file__)))
st = json.load(open(f'{root}/tools/status.json'))
titles = {p['id']: p['title'] for p in map(json.loads, open(f'{root}/properties.jsonl'))}
lines = [f'* **{k}** ({titles[k]}): {st[k][1]}' for k in sorted(st, key=lambda k: int(k[1:])) if st[k][0] == 'partial']
s = open(f'{root}/DESIGN.md').read()
s = re.sub(r'(<!-- findings:begin -->\n).*?(<!-- findings:end -->)',
           lambda m: m.group(1) + '\n'.join(lines) + '\n' + m.group(2), s, flags=re.S)
open(f'{root}/DESIGN.md', 'w').write(s)
