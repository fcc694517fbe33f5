"""Writes DESIGN.md: the fixed text tools/design_head.md, then one entry per property."""
import json
how = json.load(open('/verif/tools/how.json'))
P = [json.loads(l) for l in open('/verif/properties.jsonl')]
C = {c['property']: c for c in json.load(open('/verif/MANIFEST.json'))['claims']}
out = [open('/verif/tools/design_head.md').read(), '## Per property\n\n']
for p in P:
    c = C[p['id']]
    refuted = [t.split('.')[-1] for t in c['theorems'] if 'refuted' in t or 'never' in t or 'not_sequential' in t]
    status = c['status'] + (', refuted as stated' if refuted else '')
    out.append('* **%s %s** — %s. %s%s\n' % (p['id'], p['title'], status, how.get(p['id'], ''),
               (' ' + c['note']) if c.get('note') else ''))
open('/verif/DESIGN.md', 'w').write(''.join(out))
missing = [p['id'] for p in P if p['id'] not in how and not C[p['id']].get('note')]
print('without text:', missing)
