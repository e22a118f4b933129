#!/usr/bin/env python3
"""Adds the outcomes of mutate.py to seeded/LOG.jsonl.  usage: log.py ROUND OUT.jsonl [TIGHTENED.json]"""
import json, sys
rnd, out = sys.argv[1:3]
tight = json.load(open(sys.argv[3])) if len(sys.argv) > 3 else {}
L = '/verif/seeded/LOG.jsonl'
have = {json.loads(l)['id'] for l in open(L) if l.strip()}
with open(L, 'a') as f:
    for l in open(out):
        m = json.loads(l)
        i = rnd + '-' + m['id']
        if i in have: continue
        t = tight.get(m['id'], {})
        f.write(json.dumps({'id': i, 'definition': m['definition'], 'edit': m['edit'], 'breaks': m['claims'], 'claim': m['claim'],
            'failed': m['failed_theorems'], 'missed': m['missed'], 'tightened': t.get('tightened', []), 'note': t.get('note', '')}, ensure_ascii=False) + '\n')
