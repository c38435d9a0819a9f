"""Append properties to properties.jsonl: python3 tools/addprop.py < lines.  Rejects duplicate ids."""
import json, sys
p = '/verif/properties.jsonl'
ids = {json.loads(l)['id'] for l in open(p)}
out = []
for l in sys.stdin:
    if l.strip():
        o = json.loads(l)
        assert o['id'] not in ids, o['id']
        assert set(o) == {'id', 'title', 'statement', 'quantifier', 'why_tests_cant', 'anchors'}, o
        ids.add(o['id'])
        out.append(json.dumps(o))
open(p, 'a').write('\n'.join(out) + '\n')
