#!/bin/bash
# Prints the axioms of every theorem listed in MANIFEST.json and fails if any theorem is missing or depends on
# anything other than propext, Classical.choice, Quot.sound.  Run after `lake build`.
cd "$(dirname "$0")/../lean" || exit 1
T=$(mktemp --suffix=.lean)
{ echo "import Verif"; python3 -c "
import json
for c in json.load(open('../MANIFEST.json'))['claims']:
    for t in c['theorems']: print('#print axioms '+t)"; } > "$T"
lake env lean "$T" > "$T.out" 2>&1
grep -c "axioms" "$T.out"
python3 - "$T.out" <<'P'
import re,sys
s=open(sys.argv[1]).read()
bad=0
for m in re.finditer(r"'(\S+)' depends on axioms: \[([^\]]*)\]",s):
    ax=set(a.strip() for a in m.group(2).split(','))
    if ax-{'propext','Classical.choice','Quot.sound'}: print('BAD',m.group(1),ax); bad=1
if re.search(r'error',s): print(s[:2000]); bad=1
print('axioms: FAIL' if bad else 'axioms: OK'); sys.exit(bad)
P
