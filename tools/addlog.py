#!/usr/bin/env python3
"""append raw mutate.py results to seeded/LOG.jsonl: addlog.py raw.jsonl [property prefixes to ignore ...]"""
import json,sys
ign=tuple(p+'_' for p in sys.argv[2:])
with open('/verif/seeded/LOG.jsonl','a') as f:
    for l in open(sys.argv[1]):
        d=json.loads(l)
        if 'error' in d: print('skip',d); continue
        failed=[t for t in d['failed'] if not (ign and t.startswith(ign))]
        f.write(json.dumps({'id':d['id'],'definition':d['definition'],'file':d['file'],'edit':d['edit'],'claim':d['claim_broken'],
          'theorems_failed':failed,'lemmas_broken':d['lemmas_broken'],'theorems_tightened':d.get('tightened',[])},ensure_ascii=False)+'\n')
