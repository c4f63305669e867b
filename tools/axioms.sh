#!/bin/bash
# Prints the sets of axioms the theorems of MANIFEST.json depend on, with the number of theorems for each.
# Needs a finished `lake build`.
cd "$(dirname "$0")/../lean" || exit 1
f=$(mktemp --suffix=.lean)
{ echo "import Verif"; python3 -c "
import json
for c in json.load(open('../MANIFEST.json'))['claims']:
    for t in c['theorems']: print('#print axioms', t)"; } > "$f"
lake env lean "$f" | tr '\n' ' ' | sed "s/'Revision/\n'Revision/g" | sed "s/^'[^']*' //; s/  */ /g" | sort | uniq -c
rm -f "$f"
