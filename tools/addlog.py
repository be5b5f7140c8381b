#!/usr/bin/env python3
"""addlog.py out.jsonl ['def: edit' => thm list]...  append results of mutate.py to seeded/LOG.jsonl (skips entries already there)."""
import json, sys
log = '/verif/seeded/LOG.jsonl'
have = set()
try:
    for l in open(log):
        o = json.loads(l); have.add((o['definition'], o['edit'], o.get('round', 1)))
except FileNotFoundError:
    pass
rnd = int(sys.argv[2]) if len(sys.argv) > 2 else 1
with open(log, 'a') as f:
    for l in open(sys.argv[1]):
        o = json.loads(l)
        if (o['definition'], o['edit'], rnd) in have: continue
        surv = not o['failed'] and not o['failed_modules']
        f.write(json.dumps({'round': rnd, 'definition': o['definition'], 'file': o['file'], 'edit': o['edit'], 'claim': o['claim'],
            'outcome': 'survived' if surv else 'rejected', 'theorems_failed': o['failed'] or o['failed_modules'],
            'theorems_tightened': o['theorems_tightened']}, ensure_ascii=False) + '\n')
