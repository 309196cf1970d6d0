#!/bin/sh
# Regenerates /verif/AXIOMS.md from the theorems named in MANIFEST.json
cd /verif/lean && python3 - <<'P' > /tmp/axioms_all.lean
import json
print('import Verif')
seen=[]
for c in json.load(open('/verif/MANIFEST.json'))['claims']:
    for t in c['theorems']:
        if t not in seen: seen.append(t); print('#print axioms '+t)
P
{ echo '# Axioms each theorem of MANIFEST.json depends on'; echo; echo 'Generated by tools/axioms.sh (`#print axioms`).'; echo
  lake env lean /tmp/axioms_all.lean | tr '\n' ' ' | sed "s/ '\([A-Za-z]\)/\n'\1/g" | sed "s/^'\([^']*\)' depends on axioms: /* \`\1\`: /; s/^'\([^']*\)' does not depend on any axioms/* \`\1\`: none/"; echo; } > /verif/AXIOMS.md
