#!/bin/bash
# Regenerates AXIOMS.md: the axioms every theorem of MANIFEST.json depends on.
cd /verif/lean
python3 - > /tmp/axioms_in.lean <<'P'
import json
print("import Verif")
for c in json.load(open('/verif/MANIFEST.json'))['claims']:
    for t in c['theorems']: print('#print axioms', t)
P
lake env lean /tmp/axioms_in.lean > /tmp/axioms_out.txt
python3 - <<'P'
import re
t=re.sub(r'\n\s+',' ',open('/tmp/axioms_out.txt').read())
out=[]; sets={}
for l in t.splitlines():
    m=re.match(r"'(?:Stdgpu\.Props\.)?([\w.]+)' (?:depends on axioms: \[(.*)\]|does not depend on any axioms)",l)
    if not m: raise SystemExit('unparsed: '+l)
    sets.setdefault(m.group(2) or 'none',[]).append(m.group(1))
with open('/verif/AXIOMS.md','w') as f:
    f.write('# Axioms of the theorems in MANIFEST.json\n\nOutput of `#print axioms`, grouped (generated by tools/gen_axioms.sh; namespace Stdgpu.Props).\n')
    for k in sorted(sets): f.write(f'\n## {k}\n\n'+', '.join(sorted(sets[k]))+'\n')
    print({k:len(v) for k,v in sets.items()})
P
