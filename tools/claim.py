#!/usr/bin/env python3
"""claim.py ID STATUS 'thm1 thm2' 'note' : set one claim of MANIFEST.json."""
import json, sys
p = '/verif/MANIFEST.json'
m = json.load(open(p))
i, st, th, note = sys.argv[1:5]
m['claims'] = [c for c in m['claims'] if c['property'] != i]
m['claims'].append({'property': i, 'status': st, 'theorems': [t if t.startswith('Louis.') else 'Louis.' + t for t in th.split()], 'note': note})
m['claims'].sort(key=lambda c: int(c['property'][1:]))
json.dump(m, open(p, 'w'), indent=1, ensure_ascii=False)
