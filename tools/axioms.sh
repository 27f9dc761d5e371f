#!/bin/sh
# Regenerates AXIOMS.txt: the axioms of every theorem named in MANIFEST.json.
cd "$(dirname "$0")/../lean" || exit 1
f=$(mktemp /tmp/axXXXX.lean)
{ echo 'import Verif'; python3 -c "
import json
for t in sorted({t for c in json.load(open('../MANIFEST.json'))['claims'] for t in c['theorems']}): print('#print axioms', t)"; } > "$f"
lake env lean "$f" > ../AXIOMS.txt
rm -f "$f"
