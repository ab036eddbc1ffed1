"""usage: addprop.py FILE - append the properties in the JSON list FILE to properties.jsonl and their status to tools/status.json"""
import json, sys
props = json.load(open(sys.argv[1]))
have = {json.loads(l)['id'] for l in open('properties.jsonl')}
status = json.load(open('tools/status.json'))
with open('properties.jsonl', 'a') as f:
    for p in props:
        st = p.pop('status')
        status[p['id']] = st
        if p['id'] not in have:
            f.write(json.dumps(p) + '\n')
json.dump(status, open('tools/status.json', 'w'), indent=1)
