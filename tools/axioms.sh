#!/bin/bash
# Prints the axioms of every theorem named in MANIFEST.json into AXIOMS.txt (run after `lake build`).
cd "$(dirname "$0")/../lean" || exit 1
t=$(mktemp /tmp/axXXXXXX.lean)
python3 - > "$t" <<'PY'
import json
m = json.load(open('../MANIFEST.json'))
names = [t for c in m['claims'] for t in c['theorems']]
print('import Verif')
for n in dict.fromkeys(names):
    print('#print axioms', n)
PY
lake env lean "$t" | tr '\n' ' ' | sed "s/ 'Printemps/\n'Printemps/g; s/  */ /g" > ../AXIOMS.txt
echo >> ../AXIOMS.txt
rm -f "$t"
