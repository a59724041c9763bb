#!/usr/bin/env python3
"""Write /verif/seeded/LOG.jsonl from the results of seeded-bug runs.
usage: seeded_log.py remarks.json mutants1.json results1.jsonl [mutants2.json results2.jsonl ...]
remarks.json: {id: {"tightened": [...], "note": "..."}} for the mutants that a theorem survived although it was expected to fail.
Ids are "<run>-<id>"."""
import json,sys
remarks=json.load(open(sys.argv[1]))
out=[];missed=[]
for k in range(2,len(sys.argv),2):
    ms={m['id']:m for m in json.load(open(sys.argv[k]))}
    for l in open(sys.argv[k+1]):
        r=json.loads(l); m=ms.get(r['id'])
        if not m: continue
        i=f"{k//2}-{r['id']}"
        f=r['file'] if '/' in r['file'] else 'Model/'+r['file']
        miss=[e for e in r['expect'] if not any(t.startswith(e) for t in r['failed'])]
        o=dict(id=i,definition=f"Verif/{f}.lean: "+', '.join(r['defs']),edit=r['edit'],old=m['old'],new=m['new'],breaks=r['claim'],
          lemmas_broken=[x for x in r['killed'] if x],failed=r['failed'],expected_but_proved=miss,
          tightened=remarks.get(i,{}).get('tightened',[]))
        if i in remarks and 'note' in remarks[i]: o['note']=remarks[i]['note']
        if miss: missed.append((i,miss))
        out.append(o)
with open('/verif/seeded/LOG.jsonl','w') as f:
    for o in out: f.write(json.dumps(o,ensure_ascii=False)+'\n')
print(len(out),'entries; expected but proved:',missed)
