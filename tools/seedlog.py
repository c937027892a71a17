#!/usr/bin/env python3
"""Append the results of seed.py to seeded/LOG.jsonl.  usage: seedlog.py results.json [tightened.json]"""
import json,sys
tight=json.load(open(sys.argv[2])) if len(sys.argv)>2 else {}
with open('/verif/seeded/LOG.jsonl','a') as f:
    for r in json.load(open(sys.argv[1])):
        direct=[t for ts in r['direct'].values() for t in ts if not t.startswith('NO OLEAN')]
        f.write(json.dumps(dict(id=r['id'],definition=r['def'],file=r['file'],edit=r['edit'],old=r['old'],new=r['new'],
          claims_broken=r['broken_claims'],claim_falsified=r['claim'],theorems_failed=r['broken'],proofs_with_errors=direct[:20],
          theorems_tightened=tight.get(r['id'],[])),ensure_ascii=False)+'\n')
