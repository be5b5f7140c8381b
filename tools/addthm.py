#!/usr/bin/env python3
"""addthm.py ID thm... : add theorems to one claim of MANIFEST.json."""
import json, sys
p = '/verif/MANIFEST.json'
m = json.load(open(p))
for c in m['claims']:
    if c['property'] == sys.argv[1]:
        for t in sys.argv[2:]:
            if 'Louis.' + t not in c['theorems']:
                c['theorems'].append('Louis.' + t)
json.dump(m, open(p, 'w'), indent=1, ensure_ascii=False)
