#!/usr/bin/env python3
"""Generate MANIFEST.json from the theorem names in lean/Verif/Props and the notes below."""
import re, glob, json, collections
NOTES = {
 "C07": ("partial", "Linearizability and schedule independence are proved for every backend in which all operations of one atomic exclude each other. Missing: on the OpenMP backend operations of different kinds do not exclude each other; C07_openmp_mixed_kinds_lose_update proves that the property is false there."),
 "C12": ("proved", "Includes the deviation for size 0 (C12_empty_bitset)."),
 "C17": ("partial", "Proved for begin <= end. erase with a position past the end is not rejected by the code and leaves an invalid vector: C17_erase_past_end proves that the unrestricted statement is false."),
 "C22": ("partial", "The unrestricted property is false of the code (C22_counterexample_*). Proved: programs that cannot cross a boundary keep the vector valid; for all programs valid() is true afterwards exactly when the raw counter is in range, and then the state is proper; C22_all_programs_partial: for all programs size() and the elements are right and the counter is off by at most the failed operations; C22_no_failure_partial: without a failed operation the vector is valid."),
 "C26": ("partial", "The unrestricted property is false of the code: C26_counterexample_pushes / _pops give schedules after which the deque is invalid or an operation cannot terminate. Proved for programs that cannot cross a boundary (C26_usable_after_concurrent_use_partial), for executions without a failed operation (C26_no_failure_partial), and for all programs: everything but the size counter is right, the counter is off by at most the failed operations, valid() is true exactly when it is right (C26_all_programs_partial). C26_counterexample_clear: clear() and device_range() then touch objects that do not exist. C53/C54 settle push-only and pop-only programs."),
 "C38": ("proved", "All hash functions, thread numbers and schedules. The provision of the property (free list not exhausted) is needed: C38_counterexample_exhaustion."),
 "C39": ("proved", "All hash functions, thread numbers and schedules; lookups may run at the same time. The unlocked lookup may compare the key of an object that is just being destroyed: C39_counterexample_stale_read (relevant for types with a non-trivial destructor only)."),
 "C40": ("partial", "The property is false of the code: C40_counterexample_duplicate_key, C40_counterexample_lost_erase, C40_counterexample_out_of_bounds (a later lookup leaves the table) and C40_counterexample_find_hangs (a later lookup never returns) give executions of the modelled code. Insertions only (C38) and erasures only (C39) are proved, and C40_phases_partial: any alternation of such phases is right. C75 proves linearizability of mixed operations when different keys have different buckets."),
 "C41": ("partial", "Proved exactly when no backend allocation was refused; a refused allocation (OpenMP) is counted although no block exists: C41_counters_balance_partial gives the exact difference, C41_failed_allocation_counterexample shows that the unrestricted statement is false. Erroneous deallocations: proved without restriction."),
 "C43": ("partial", "Proved for positive sizes in states without refused allocations. The code accepts negative sizes for interior pointers (C43_negative_size_counterexample) and the null pointer after a refused allocation (C43_null_counterexample)."),
 "C37": ("partial", "The library computes bucket counts in single precision. C37_bucket_count_partial characterises exactly the capacities for which the bucket count is at least the capacity; C37_bucket_count_counterexample gives a capacity (>= 2^24) for which it is smaller. excess/total counts: proved without restriction, in exact arithmetic and (C37_excess_any_rounding) for any rounding errors of long double."),
 "C48": ("partial", "Integers, bool, characters and enums: proved. Floating point: equal keys hash equally except the pair of zeros; C48_zero_counterexample / C48_zero_stored_twice prove that +0.0 and -0.0 are equal keys with different hashes, so one key can be stored twice."),
 "C51": ("partial", "Access to element n is proved; the debug check is wrong in the code: C51_counterexample. C51_check_partial gives the states in which the check is right."),
}
ths = collections.defaultdict(list)
for f in sorted(glob.glob('/verif/lean/Verif/Props/*.lean')):
    for m in re.finditer(r'^theorem (C(\d\d+)_\w+)', open(f).read(), re.M):
        ths['C' + m.group(2)].append('Stdgpu.Props.' + m.group(1))
claims = []
for l in open('/verif/properties.jsonl'):
    i = json.loads(l)['id']
    if not ths[i]: continue
    st, note = NOTES.get(i, ("proved", ""))
    claims.append({"property": i, "status": st, "theorems": ths[i], "note": note})
json.dump({"claims": claims}, open('/verif/MANIFEST.json', 'w'), indent=1)
print(len(claims), 'claims')
