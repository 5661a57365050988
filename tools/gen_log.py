#!/usr/bin/env python3
"""results of tools/mutate.py (JSON lines) -> /verif/seeded/LOG.jsonl, one line per seeded bug."""
import json, sys
TIGHT = {
 'ao4': ['C67_linearizable (its hypothesis was stated with the kind of the model; now with the names of the members)'],
 'ds1': ['C53_concurrent_push (before, the statement allowed a pushed value at either end)'],
 'ds2': ['C54_concurrent_pop (before, the statement allowed a value popped at either end)'],
 'un9': ['C62_unordered_valid_sound (added: before it, no theorem said that a container whose valid() returns true has no duplicate keys)'],
 'x12': ['C48_enum_hash_value, C48_integer_hash_value (added: injectivity alone did not fix the value of the hash)'],
 'si3': ['C37_created_device_object (added: C37_created spoke of create with given sizes, no theorem of createDeviceObject itself)'],
}
NOTE = {
 'ua3': 'the counterexample theorem fails because the edited program has one race fewer; the claim about the remaining races stays true',
 'y14': 'the claim stays true of the edited program: the error bound, exactness below 2^24 and monotonicity hold for either rounding of ties',
 'bs2': 'equivalent mutant of the observable result, still rejected by the proofs that follow the code',
}
seen = {}
for f in sys.argv[1:]:
    for l in open(f):
        r = json.loads(l); seen[r['id']] = r
with open('/verif/seeded/LOG.jsonl', 'w') as o:
    for r in seen.values():
        if 'failed' not in r: continue  # the edit itself did not compile
        d = {'id': r['id'], 'definition': f"{r['file']}: {r['definition']}", 'edit': r['edit'], 'claim_broken': r['claim'],
             'theorems_failed': r['failed'], 'theorems_tightened': TIGHT.get(r['id'], [])}
        s = [x for x in r['survivors_in_touched']]
        if s: d['theorems_still_proved_in_touched_files'] = s
        if r['id'] in NOTE: d['note'] = NOTE[r['id']]
        o.write(json.dumps(d, ensure_ascii=False) + '\n')
print(len(seen))
