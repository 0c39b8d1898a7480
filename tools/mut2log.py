#!/usr/bin/env python3
"""usage: mut2log.py OUT.jsonl... : append the results of the mutation harness to seeded/LOG.jsonl"""
import json,sys,re
T=json.load(open('/tmp/mut/tightened.json')) if len(sys.argv)>1 else {}
P={json.loads(l)['id']:json.loads(l)['title'] for l in open('/verif/properties.jsonl')}
def claim(c):
    c=c.replace('?','').strip()
    ids=re.findall(r'C\d\d+',c)
    rest=re.sub(r'C\d\d+|[,/ ]',' ',c).strip()
    return '; '.join('%s (%s)'%(i,P[i]) for i in ids)+((': ' if ids else '')+rest if rest else '')
out=open('/verif/seeded/LOG.jsonl','a')
for f in sys.argv[1:]:
    for l in open(f):
        d=json.loads(l)
        key=d['definition']+'|'+d['edit']
        if T.get(key)=='SKIP': continue
        rec={'definition':d['definition'],'file':'lean/Verif/'+d['file'],'edit':d['edit'],'claim_broken':claim(d['claim']) or claim(' '.join(sorted({x.split('_')[0] for x in d['dependents']})[:3])),
             'theorems_failed':d['failed'],'property_theorems_resting_on_them':d['dependents'][:12]+(['... %d in all'%len(d['dependents'])] if len(d['dependents'])>12 else []),
             'theorems_tightened':T.get(key,[])}
        out.write(json.dumps(rec)+'\n')
