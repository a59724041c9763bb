#!/usr/bin/env python3
"""Generate MANIFEST.json from the theorems in lean/Verif/Props/*.lean whose names start with Cnn_.
Status/notes are overridden by tools/manifest_notes.json ({"C01": {"status":..., "note":...}})."""
import re,json,glob,os
root=os.path.dirname(os.path.dirname(os.path.abspath(__file__)))
th={}
for f in sorted(glob.glob(root+'/lean/Verif/Props/*.lean')):
    for m in re.finditer(r'^theorem (C(\d\d+)_\w+)',open(f).read(),re.M):
        th.setdefault('C'+m.group(2),[]).append('Zones.Props.'+m.group(1))
notes=json.load(open(root+'/tools/manifest_notes.json'))
ids=[json.loads(l)['id'] for l in open(root+'/properties.jsonl')]
cl=[]
for i in ids:
    n=notes.get(i,{})
    ts=th.get(i,[])
    if not ts and i not in notes:
        continue
    st=n.get('status') or ('partial' if any(t.endswith('_partial') for t in ts) else 'proved')
    cl.append({"property":i,"status":st,"theorems":ts,"note":n.get('note','')})
missing=[i for i in ids if i not in [c['property'] for c in cl]]
with open(root+'/MANIFEST.json','w') as f:
    f.write('{"claims": [\n'+',\n'.join(json.dumps(c) for c in cl)+'\n]}\n')
print('claims',len(cl),'missing',missing)
