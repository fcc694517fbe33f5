#!/usr/bin/env python3
"""Regenerates MANIFEST.json and lean/Verif.lean from the sources.
Theorem names are taken from `theorem Cxx_...` in lean/Verif/Props; statuses/notes from tools/notes.json."""
import json,re,glob,os
root='/verif'
notes=json.load(open(root+'/tools/notes.json'))
thms={}
for f in sorted(glob.glob(root+'/lean/Verif/Props/*.lean')):
    ns='Verif.Props'
    for m in re.finditer(r'^theorem\s+(C(\d\d+)_\w+)',open(f).read(),re.M):
        thms.setdefault('C'+m.group(2),[]).append(ns+'.'+m.group(1))
claims=[]
for l in open(root+'/properties.jsonl'):
    p=json.loads(l)['id']
    n=notes.get(p,{})
    t=thms.get(p,[])
    if not t and 'status' not in n: continue
    st=n.get('status','proved')
    claims.append(dict(property=p,status=st,theorems=t,note=n.get('note','')))
json.dump({'claims':claims},open(root+'/MANIFEST.json','w'),indent=1)
mods=sorted(f[len(root+'/lean/'):-5].replace('/','.') for f in glob.glob(root+'/lean/Verif/**/*.lean',recursive=True))
open(root+'/lean/Verif.lean','w').write(''.join('import %s\n'%m for m in mods))
print(len(claims),'claims',sum(len(c['theorems']) for c in claims),'theorems',len(mods),'modules')
