#!/bin/sh
# Prints the axioms every theorem named in MANIFEST.json depends on.
cd "$(dirname "$0")/../lean" || exit 1
{ echo 'import Verif'; python3 -c "
import json
for c in json.load(open('../MANIFEST.json'))['claims']:
    for t in c['theorems']: print('#print axioms', t)"; } > /tmp/axioms_all.lean
lake env lean /tmp/axioms_all.lean
