#!/usr/bin/env python3
"""append finished seeded-bug experiments (scratch results) to seeded/LOG.jsonl; usage: seedlog.py results.jsonl"""
import json,sys
log='/verif/seeded/LOG.jsonl'
have=set()
for l in open(log):
    if l.strip(): have.add(json.loads(l).get('id'))
out=open(log,'a')
for l in open(sys.argv[1]):
    r=json.loads(l)
    if r['rc']!=0 or r['id'] in have: continue
    thms=sorted({t for c in r['failed'].values() for t in c})
    out.write(json.dumps({'id':r['id'],'definition':r['definition'],'edit':r['edit'],'breaks':r['claims'],'why':r['why'],
      'theorems_failed':thms,'claims_failed':sorted(r['failed']),'still_proved_although_false':r['missing'],'tightened':r.get('tightened',[])})+'\n')
    have.add(r['id'])
