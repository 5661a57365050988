#!/usr/bin/env python3
"""Generates /verif/properties.jsonl from the table below (kept as data so that appending is easy)."""
import json, os
D="src/stdgpu/"
P=[]
def p(title, statement, quantifier, why, anchors):
    P.append(dict(id="C%02d"%(len(P)+1), title=title, statement=statement, quantifier=quantifier,
                  why_tests_cant=why, anchors=anchors))

p("has_single_bit characterises powers of two",
  "stdgpu::has_single_bit(n) returns true exactly when n is 2^k for some k smaller than the number of bits of the type.",
  "every unsigned width w and every w-bit value n",
  "the domain has 2^64 values; tests sample a few thousand random ones",
  ["src/stdgpu/impl/bit_detail.h: has_single_bit"])
p("bit_ceil / bit_floor are the tight powers of two",
  "bit_ceil(n) is the smallest power of two that is not smaller than n (1 for n = 0), and 0 exactly when that power is not representable; bit_floor(n) is the largest power of two that is not greater than n, and 0 for n = 0.",
  "every unsigned width w and every w-bit value n",
  "the loop smears bits with every shift distance; correctness at every value and width cannot be enumerated",
  ["src/stdgpu/impl/bit_detail.h: bit_ceil, bit_floor"])
p("bit_mod is the remainder for power-of-two divisors",
  "For every divisor d with has_single_bit(d), bit_mod(n, d) equals n % d.",
  "every width, every n, every power-of-two d",
  "2^64 x 64 argument pairs",
  ["src/stdgpu/impl/bit_detail.h: bit_mod"])
p("bit_width and popcount",
  "bit_width(n) is 0 for n = 0 and otherwise the unique k with 2^(k-1) <= n < 2^k; popcount(n) is the number of set bits of n. Both loops terminate.",
  "every width and every value",
  "2^64 values; termination of the loops is not observable by a finite test",
  ["src/stdgpu/impl/bit_detail.h: bit_width, popcount"])
p("Every hash value is mapped to an existing bucket",
  "For every 64-bit hash value and every bucket count that is a power of two (as createDeviceObject produces), the bucket index used by unordered_map/unordered_set lies in [0, bucket_count); equal hash values map to equal buckets; and when there are at least two buckets every bucket is hit by some hash value.",
  "every hash value, every power-of-two bucket count up to 2^63",
  "2^64 hash values x 64 bucket counts; an out-of-range bucket would be an out-of-bounds memory access",
  ["src/stdgpu/impl/unordered_base_detail.cuh: fibonacci_hashing, unordered_base::bucket"])
p("Modular atomic increment / decrement stay in range and count modulo",
  "atomic::fetch_inc_mod(m) and fetch_dec_mod(m), m > 0, return the old value; starting from a value in [0,m) they step to (old+1) mod m and (old-1) mod m, the value never leaves [0,m), any number of operations in any order nets to (#inc - #dec) mod m, and a value that was out of range is brought back into range by one operation.",
  "every modulus, every initial value, every operation sequence / interleaving",
  "wrap-around at every modulus and every history of increments and decrements",
  ["src/stdgpu/impl/atomic_detail.cuh: fetch_inc_mod, fetch_dec_mod", "src/stdgpu/openmp/impl/atomic_detail.h: atomic_fetch_inc_mod, atomic_fetch_dec_mod", "src/stdgpu/cuda/impl/atomic_detail.cuh: atomic_fetch_inc_mod"])
p("Atomic read-modify-write: no lost updates, unique tickets",
  "Under any interleaving of any number of threads, the final value of an atomic equals the fold of all performed operations; for the commutative operations (add, sub, and, or, xor, min, max) it is the same for every schedule; fetch_add(1) hands each caller a distinct, consecutive ticket.",
  "every number of threads, programs and schedules",
  "the number of interleavings is exponential; a lost update may need one precise schedule",
  ["src/stdgpu/impl/atomic_detail.cuh: fetch_add, fetch_sub, fetch_and, fetch_or, fetch_xor, fetch_min, fetch_max, operator++, operator+="])
p("compare_exchange loops are atomic read-modify-writes",
  "compare_exchange(expected, desired) writes desired exactly when the current value equals expected, returns whether it did, and on failure stores the observed value in expected; retry loops built from a compare-and-swap (float min/max, modular decrement on CUDA/HIP) take effect exactly once, as f(current), in every interleaving with other writers, and some thread always makes progress.",
  "every update function, every number of competing threads, every schedule",
  "interference between the load and the swap can occur at any point",
  ["src/stdgpu/impl/atomic_detail.cuh: compare_exchange_weak, compare_exchange_strong", "src/stdgpu/cuda/impl/atomic_detail.cuh: atomicMin(float), atomicMax(float)"])
p("CUDA fetch_sub on 64-bit unsigned is wrap-around subtraction",
  "The CUDA/HIP fallback that subtracts by adding max - value + 1 yields (old - value) mod 2^64 for all operands, including value = 0 where the addend wraps.",
  "every pair of 64-bit operands",
  "2^128 operand pairs, the interesting one (value = 0) relies on wrap-around",
  ["src/stdgpu/cuda/impl/atomic_detail.cuh: atomicSub"])
p("bitset element operations behave like a boolean array",
  "set(n), set(n,b), reset(n), flip(n) change exactly bit n and return its previous value; operator[] reads back the last written value; for every index below size, across block boundaries, and for every operation history.",
  "every size, every block width, every index, every operation history",
  "index arithmetic n / w, n mod w must be right for every n, and a bit must never alias another one",
  ["src/stdgpu/impl/bitset_detail.cuh: bitset::reference::operator=, flip, operator bool, bitset::set, reset, flip, operator[], test"])
p("bitset::count counts exactly the set bits in [0,size)",
  "count() equals the number of indices in [0,size()) whose bit is set, even when whole-bitset set()/flip() left garbage in the unused tail of the last block.",
  "every size (also not a multiple of the block width), every history",
  "tail masking is wrong only for particular size / history combinations",
  ["src/stdgpu/impl/bitset_detail.cuh: count, count_block_bits, set, reset, flip"])
p("bitset::all / any / none",
  "For a non-empty bitset all() holds iff every bit is set, any() iff some bit is set and none() iff no bit is set. (std::bitset semantics; for size 0 the code returns false for all three, which deviates from the vacuous truth of std for all()/none().)",
  "every size and every content",
  "quantifies over all contents",
  ["src/stdgpu/impl/bitset_detail.cuh: all, any, none"])
p("bitset concurrent element operations do not interfere",
  "When many threads set/reset/flip bits concurrently, every operation takes effect exactly once; the final value of a bit depends only on the operations on this very bit (also for bits sharing a block); when several threads set the same clear bit exactly one of them gets the previous value false.",
  "every number of threads, every schedule",
  "races are schedule dependent",
  ["src/stdgpu/impl/bitset_detail.cuh: bitset::reference::operator=, flip"])
p("mutex_array gives mutual exclusion",
  "At any point of any execution of the documented protocol (enter only when try_lock returned true, unlock after), at most one thread is between a successful try_lock and the unlock of the same mutex; a try_lock on a free mutex succeeds; after all threads have unlocked valid() is true.",
  "every number of threads and mutexes, every schedule",
  "a violation needs a specific interleaving",
  ["src/stdgpu/impl/mutex_detail.cuh: mutex_array::reference::try_lock, unlock, valid"])
p("try_lock over several mutexes is all-or-nothing",
  "try_lock(l1,...,ln) returns -1 exactly when it acquired all of them; otherwise it returns the index of the first one it could not take, and holds none of them afterwards, restoring those it had taken; it never waits.",
  "every number and choice of locks (also aliased), every lock state, every interleaving with other lockers",
  "the partial-failure paths depend on the exact lock pattern and schedule",
  ["src/stdgpu/impl/mutex_detail.cuh: try_lock, detail::try_lock"])
p("vector used from one thread is a bounded stack",
  "For every sequence of push_back/emplace_back/pop_back the vector behaves as a list of at most capacity() elements: push_back succeeds iff not full, pop_back returns the last pushed element iff not empty, size()/empty()/full()/front()/back()/operator[] agree with the list and valid() stays true.",
  "every capacity (also 0), every history, every element type",
  "unbounded histories",
  ["src/stdgpu/impl/vector_detail.cuh: push_back, emplace_back, pop_back, size, empty, full, valid, front, back, operator[], at"])
p("vector range insert, erase and clear",
  "insert(device_end(), range) appends exactly the range or, if it would exceed the capacity, changes nothing; erase(it, device_end()) removes exactly the tail or, if the position is not valid, changes nothing; clear() leaves an empty vector; all keep valid() true.",
  "every vector content, every range",
  "all sizes and boundary combinations",
  ["src/stdgpu/impl/vector_detail.cuh: insert, erase, clear"])
p("vector concurrent push_back: exactly min(n, free) succeed",
  "When any number of threads push concurrently onto a valid vector, in every schedule exactly min(number of pushes, capacity - size) pushes return true, the vector afterwards holds the old elements unchanged followed by exactly the successfully pushed values in some order, and no slot is constructed twice.",
  "every capacity, every number of threads, every schedule",
  "depends on the interleaving of size increment, lock and occupied bit",
  ["src/stdgpu/impl/vector_detail.cuh: push_back, emplace_back"])
p("vector concurrent pop_back: no element is popped twice",
  "When any number of threads pop concurrently from a valid vector, in every schedule exactly min(number of pops, size) pops succeed and they return exactly the removed elements, each once.",
  "every content, every number of threads, every schedule",
  "depends on the interleaving",
  ["src/stdgpu/impl/vector_detail.cuh: pop_back"])
p("vector mixed concurrent push_back/pop_back conserve elements",
  "In every interleaving of pushes and pops the multiset of elements in the vector plus successfully popped values equals the multiset of initial elements plus successfully pushed values; no element is lost, duplicated or invented, and no slot is constructed while occupied nor destroyed while empty.",
  "every capacity, initial content, program and schedule",
  "exponentially many interleavings; the slot hand-over uses a per-slot lock and occupied flag",
  ["src/stdgpu/impl/vector_detail.cuh: push_back, emplace_back, pop_back"])
p("vector concurrent operations never deadlock",
  "In every reachable state in which some push_back or pop_back is unfinished, some thread can complete its operation: the spin loops always have an enabled partner, and once no new operations start all operations can finish.",
  "every reachable state of every execution",
  "absence of deadlock is a property of all schedules",
  ["src/stdgpu/impl/vector_detail.cuh: push_back, emplace_back, pop_back"])
p("vector is valid after concurrent use",
  "After all concurrent pushes and pops finished, valid() is true and a later push on a non-full (pop on a non-empty) vector succeeds. (The code violates this when racing operations cross the capacity or the empty boundary: the internal counter stays out of range.)",
  "every program and schedule",
  "only particular schedules overrun the boundary",
  ["src/stdgpu/impl/vector_detail.cuh: push_back, pop_back, valid, size_valid, clear"])
p("deque used from one thread is a bounded double-ended queue",
  "For every sequence of push_back/push_front/pop_back/pop_front the deque behaves as a double-ended list of at most capacity() elements: pushes succeed iff not full, pops return the respective end iff not empty, operator[](i) is the i-th element from the front across wrap-around, front()/back()/size()/empty()/full() agree and valid() stays true.",
  "every capacity, every history (arbitrarily many wrap-arounds)",
  "unbounded histories; the ring indices wrap at every capacity",
  ["src/stdgpu/impl/deque_detail.cuh: push_back, push_front, pop_back, pop_front, operator[], front, back, size, valid"])
p("deque::device_range and clear cover exactly the live elements",
  "device_range() enumerates each element currently in the deque exactly once (in memory order, which is not front-to-back order once the ring wrapped); clear() destroys each live element exactly once and nothing else, and leaves an empty valid deque.",
  "every reachable ring configuration (contiguous, wrapped, full, empty)",
  "all begin/end/size configurations; a wrong case split leaks or double-destroys elements",
  ["src/stdgpu/impl/deque_detail.cuh: device_range, clear"])
p("deque concurrent pushes and pops conserve elements",
  "In every interleaving of push_back/push_front/pop_back/pop_front no element is lost, duplicated or invented: contents plus popped values equal initial contents plus pushed values.",
  "every capacity, program and schedule",
  "exponentially many interleavings",
  ["src/stdgpu/impl/deque_detail.cuh: push_back, push_front, pop_back, pop_front"])
p("deque is usable after concurrent operations",
  "After all concurrent operations finished, size() equals the number of stored elements, valid() is true and later operations terminate. (The code violates this when racing operations cross the full or the empty boundary, because the counter is not compensated on failure.)",
  "every program and schedule",
  "only particular schedules hit the boundary race",
  ["src/stdgpu/impl/deque_detail.cuh: push_back, pop_back, pop_front, push_front, size, valid"])
p("queue is FIFO",
  "For every history of push and pop on a queue the sequence of successfully popped values is a prefix of the sequence of successfully pushed ones, in the same order; push fails only when full and pop only when empty.",
  "every capacity and history",
  "unbounded histories with wrap-around of the underlying ring",
  ["src/stdgpu/impl/queue_detail.cuh: push, pop", "src/stdgpu/queue.cuh: queue"])
p("stack is LIFO",
  "For every history of push and pop on a stack each successful pop returns the most recently pushed element that has not been popped yet; push fails only when full and pop only when empty.",
  "every capacity and history",
  "unbounded histories",
  ["src/stdgpu/impl/stack_detail.cuh: push, pop", "src/stdgpu/stack.cuh: stack"])
p("unordered_map / unordered_set used from one thread refine a finite map",
  "For every history of insert/emplace/erase/clear, with any hash function and any key equality that is an equivalence compatible with the hash, contains(k), count(k) and find(k) give the same answers as a finite map updated by the successful insertions and erasures: a found iterator points to the stored value of that key, end() is returned exactly when the key is absent.",
  "every hash function (also constant), every capacity, every key type, every history",
  "collision patterns and chain relinking depend on hash function and history",
  ["src/stdgpu/impl/unordered_base_detail.cuh: try_insert, try_erase, insert, erase, find_impl, contains, count, clear"])
p("unordered containers never store a key twice and keep the first value",
  "insert of a key that is already present changes nothing, returns second = false and end(); erase(k) removes exactly k and returns 1 if it was present, 0 otherwise; erase followed by insert makes the new value visible.",
  "every history and hash function",
  "all histories",
  ["src/stdgpu/impl/unordered_base_detail.cuh: try_insert, insert, try_erase, erase"])
p("valid() holds in every sequentially reachable state",
  "After every history valid() is true: all chain offsets stay inside the table, chains are loop-free, every stored value is reachable from its bucket, values are unique, size() equals the number of stored values, no mutex is held and the free list is valid.",
  "every history and hash function",
  "a structural invariant over all reachable states",
  ["src/stdgpu/impl/unordered_base_detail.cuh: valid, offset_range_valid, loop_free, values_reachable, unique, occupied_count_valid"])
p("lookup in an unordered container terminates and stays in bounds",
  "In every reachable state, and for every key, the chain walk of find/contains/bucket_size/insert/erase terminates after at most max_size() steps and touches only indices inside the table.",
  "every reachable state, every key, every hash function",
  "non-termination and rare out-of-bounds reads are not observable by finite tests",
  ["src/stdgpu/impl/unordered_base_detail.cuh: find_impl, find_linked_list_end, find_previous_entry_position, bucket_size"])
p("insertion success condition",
  "insert of an absent key succeeds exactly when the container is not full and the list of excess slots is not empty; it succeeds in particular as long as size() is smaller than the number of excess slots. The stronger expectation that an insert of an absent key succeeds whenever size() < capacity() is false for adversarial hash functions.",
  "every history and hash function",
  "depends on the distribution of all keys inserted before",
  ["src/stdgpu/impl/unordered_base_detail.cuh: insert, try_insert, full, createDeviceObject"])
p("slot accounting of unordered containers",
  "In every reachable state each excess slot is either occupied by exactly one value or listed exactly once in the free list; erase returns the slot, so that erasing and re-inserting forever never leaks a slot.",
  "every history",
  "a leak shows only after arbitrarily long histories",
  ["src/stdgpu/impl/unordered_base_detail.cuh: try_insert, try_erase, clear"])
p("bucket statistics",
  "The sum of bucket_size(b) over all buckets equals size(), bucket(k) names the bucket in which a present key is counted, and count(k) is 0 or 1.",
  "every reachable state",
  "all reachable states",
  ["src/stdgpu/impl/unordered_base_detail.cuh: bucket_size, bucket, count, size"])
p("device_range of an unordered container enumerates each element once",
  "device_range() contains each stored value exactly once and nothing else, for every scheduling of the parallel collection; clear() destroys exactly the stored values, once each, and restores the initial empty state with all excess slots available.",
  "every reachable state, every order of the parallel loop",
  "the collection order is schedule dependent",
  ["src/stdgpu/impl/unordered_base_detail.cuh: device_range, detail::unordered_base_collect_positions, clear"])
p("createDeviceObject(capacity) sizes",
  "createDeviceObject(capacity), capacity > 0, yields a power-of-two bucket count (a requirement of bit_mod-style hashing), total size bucket_count + excess_count with at least one excess slot, an empty valid container; and bucket_count >= capacity. (The last part is false for capacity > 2^24, because the computation goes through float.)",
  "every capacity",
  "float rounding appears only at capacities far beyond tests",
  ["src/stdgpu/impl/unordered_base_detail.cuh: createDeviceObject, expected_collisions"])
p("concurrent inserts: each key is inserted exactly once",
  "When any number of threads concurrently insert into a valid unordered container and no thread erases, then in every schedule, for each key at most one insert reports success and none does if the key was present; every success means the key is stored with the value of the successful thread; previously stored elements stay; the final state satisfies valid() and no chain is broken, provided the free list is not exhausted.",
  "every number of threads, keys, hash functions, schedules",
  "depends on the interleaving of lock, re-check, link",
  ["src/stdgpu/impl/unordered_base_detail.cuh: try_insert, insert"])
p("concurrent erases: each key is erased exactly once",
  "When any number of threads concurrently erase and no thread inserts, then in every schedule, for each present key exactly one erase returns 1 provided it runs to completion, absent keys give 0, exactly the erased keys are gone and the chains of all remaining keys stay intact.",
  "every number of threads, keys, hash functions, schedules",
  "unlinking neighbours concurrently requires the two-lock protocol to be right in every interleaving",
  ["src/stdgpu/impl/unordered_base_detail.cuh: try_erase, erase"])
p("mixed concurrent insert and erase",
  "When threads concurrently insert and erase, in every schedule no key is stored twice, an erase of a key that is present throughout returns 1, no operation leaves the table, and later lookups return. (The code violates each of these for some schedules.)",
  "every program and schedule",
  "needs a precise three-thread interleaving",
  ["src/stdgpu/impl/unordered_base_detail.cuh: try_insert, try_erase, find_impl"])
p("allocation bookkeeping balances",
  "For every sequence of allocations, deallocations, registrations: get_allocation_count(t) - get_deallocation_count(t) equals the number of currently live blocks of type t; deallocating a pointer that is not live (double free, foreign, null, wrong memory type) has no effect on any live block or counter.",
  "every history of allocator calls, including erroneous ones",
  "unbounded histories",
  ["src/stdgpu/impl/memory.cpp: detail::allocate, detail::deallocate, memory_manager, get_allocation_count, get_deallocation_count", "src/stdgpu/impl/memory_detail.h: safe_device_allocator, safe_host_allocator, createDeviceArray, destroyDeviceArray"])
p("size_bytes and get_dynamic_memory_type",
  "size_bytes(p) is the requested size for exactly the pointers that start a live block and 0 otherwise; get_dynamic_memory_type(p) is device/host exactly for live device/host blocks and invalid otherwise, also after reuse of addresses.",
  "every history",
  "unbounded histories with address reuse",
  ["src/stdgpu/impl/memory.cpp: size_bytes, get_dynamic_memory_type, register_memory, deregister_memory"])
p("copies are checked against live blocks",
  "A copy with range checking enabled is performed only when source and destination ranges lie completely inside one live block of the right memory type; conversely every positive-size copy whose ranges lie inside live blocks is performed.",
  "every set of live blocks, every pointer and size",
  "all pointer/size combinations at block boundaries",
  ["src/stdgpu/impl/memory.cpp: memory_manager::contains_submemory, detail::memcpy"])
p("array creation, copying and destruction round-trip",
  "create*Array(n, v) yields an array of n copies of v; copyCreate* and copy* transfer contents exactly, so host -> device -> host is the identity; n <= 0 yields nullptr and no allocation; after destroy* the pointer is null and the block no longer live.",
  "every size, every content",
  "all sizes and contents",
  ["src/stdgpu/impl/memory_detail.h: createDeviceArray, createHostArray, copyCreateDevice2HostArray, copyCreateHost2DeviceArray, copyDevice2HostArray, destroyDeviceArray"])
p("parallel index loops are schedule independent",
  "for_each_index visits each index in [0,n) exactly once; fill, fill_n, copy, copy_n, iota built on it write exactly the specified elements with the specified values for every order in which the indices are processed.",
  "every n, every processing order",
  "n! orders",
  ["src/stdgpu/impl/algorithm_detail.h: for_each_index, fill, fill_n, copy, copy_n", "src/stdgpu/impl/numeric_detail.h: iota"])
p("transform_reduce_index is a reduction",
  "For an associative and commutative reduction with init, transform_reduce_index(n, init, reduce, f) equals init reduced with f(0..n-1) for every grouping and order, on both the fallback and the library path; n <= 0 yields init.",
  "every n, every reduction order, every associative-commutative operator",
  "all orders",
  ["src/stdgpu/impl/numeric_detail.h: transform_reduce_index"])
p("min, max, clamp",
  "min/max return one of the arguments, the smaller/larger one under a strict weak order and the first on ties; clamp(v, lo, hi) with lo <= hi is v when inside and the nearest bound otherwise.",
  "every strict weak order, all arguments",
  "all orders and values",
  ["src/stdgpu/impl/algorithm_detail.h: min, max, clamp"])
p("hash functions respect equality",
  "For integers, bool, characters and enumerations a == b implies hash(a) == hash(b) and different values (of types not wider than size_t) get different hashes (the hash is the value, or the value of the underlying type, converted to size_t); for float/double the law must hold as well. (The code violates it for +0.0 and -0.0.)",
  "all values of every supported type",
  "value domains of up to 2^64 elements",
  ["src/stdgpu/impl/functional_detail.h: hash"])
p("size(T*) and array ranges",
  "For a live array of n elements of size s, stdgpu::size(p) is n, [begin,end) has n elements; for a pointer that is no live block it is 0; and for a block whose byte size is no multiple of s it is 0. device_range(p) and host_range(p) visit the elements of a live array, each once and in order, and are empty for other pointers; a transform_range has the size of its base range and its elements are the images; an indexed range consists of the values at the given positions.",
  "every live-block set, n, s",
  "all sizes",
  ["src/stdgpu/impl/iterator_detail.h: size, begin, end", "src/stdgpu/impl/iterator.cpp: size", "src/stdgpu/impl/ranges_detail.h: device_range, host_range, transform_range, select"])
p("container lifetime: every value is constructed and destroyed exactly once",
  "For vector, deque and the unordered containers, over every history ending in destroyDeviceObject, each slot alternates construct / destroy starting with construct; nothing is destroyed twice, no constructed value is overwritten without destruction.",
  "every history",
  "unbounded histories; leaks and double destructions show only for some element types",
  ["src/stdgpu/impl/vector_detail.cuh", "src/stdgpu/impl/deque_detail.cuh", "src/stdgpu/impl/unordered_base_detail.cuh"])
p("deque element access precondition",
  "at(n)/operator[](n) with n < size() accesses the live element number n; the precondition that is checked in debug builds accepts exactly n < size(). (The code checks the occupied bit of the raw slot n instead, so valid accesses are rejected after the ring moved.)",
  "every reachable ring state and n",
  "depends on the ring offset",
  ["src/stdgpu/impl/deque_detail.cuh: at, operator[], occupied"])
p("insert iterators append",
  "Writing a sequence through back_inserter (front_inserter, inserter) equals calling push_back (push_front, insert) once per value in order; with fewer free slots than values a prefix is stored.",
  "every sequence, every container state",
  "all sequences and states",
  ["src/stdgpu/impl/iterator_detail.h: back_insert_iterator, front_insert_iterator, insert_iterator"])
p("deque: concurrent pushes from both ends are exact",
  "When any number of threads concurrently run only push_back/push_front calls on a quiescent valid deque, exactly min(#pushes, capacity-size) calls succeed, the old elements stay in the middle in their old order, preceded by the values successfully pushed at the front and followed by those successfully pushed at the back, each exactly once; occupied bits and size() agree with the contents. (The raw size counter may be left beyond the capacity, see C26.)",
  "every capacity, every initial ring state, every set of per-thread push programs, every interleaving",
  "the number of interleavings is unbounded",
  ["src/stdgpu/impl/deque_detail.cuh: push_back, push_front, emplace_back, emplace_front"])
p("deque: concurrent pops from both ends are exact",
  "When any number of threads concurrently run only pop_back/pop_front calls on a quiescent valid deque, exactly min(#pops, size) calls succeed, the values returned by pop_front are exactly a removed prefix and those returned by pop_back exactly a removed suffix, and the rest keeps its order. (The raw size counter may be left below 0, see C26.)",
  "every capacity, every initial ring state, every set of per-thread pop programs, every interleaving",
  "the number of interleavings is unbounded",
  ["src/stdgpu/impl/deque_detail.cuh: pop_back, pop_front"])
p("lookup concurrent with insertions",
  "While other threads insert (and none erases), a find(k) that starts after the insertion of k has returned (or k was stored from the start) returns an iterator to that value, and every iterator returned by such a find points to a stored value with the key.",
  "every number of threads, programs of insertions and lookups, hash functions, schedules",
  "the walk along a chain interleaves with the linking of new entries",
  ["src/stdgpu/impl/unordered_base_detail.cuh: find_impl, try_insert, insert"])
p("unordered containers: concurrent inserts, and concurrent erases, never deadlock",
  "From every state that concurrent insert and find calls (respectively concurrent erase and find calls) can reach, the execution can be continued so that every call returns: no set of threads is blocked forever on the per-entry locks, in particular not by the two locks an erase holds at the same time.",
  "every number of threads, programs, hash functions, reachable states in the middle of any schedule",
  "a deadlock needs one particular interleaving of lock acquisitions; tests can only fail to find it",
  ["src/stdgpu/impl/unordered_base_detail.cuh: try_insert, try_erase, insert, erase", "src/stdgpu/impl/mutex_detail.cuh: lock, try_lock"])
p("bulk insert and erase have the effect of the single operations",
  "insert(begin, end) with a range of at most as many values as there are unused excess entries keeps all elements and adds, for each key of the range that was not stored, exactly one value of the range with this key; no other key appears; size() is the same for every schedule. erase(begin, end) removes exactly the elements whose keys are in the range. valid() holds afterwards, and both calls can always be completed.",
  "every range (with repeated keys), hash function, container state, schedule of the parallel loop",
  "the loop bodies race with each other in all interleavings",
  ["src/stdgpu/impl/unordered_base_detail.cuh: insert(InputIt, InputIt), erase(KeyIterator, KeyIterator), insert_value, erase_from_key", "src/stdgpu/impl/unordered_map_detail.cuh: insert, erase", "src/stdgpu/impl/unordered_set_detail.cuh: insert, erase"])
p("the size counters of vector and deque do not overflow",
  "While at most n+1 threads use push and pop concurrently, the internal size counter (the 32 bit variable behind size()) stays in [-n, capacity + n], also over repeated uses; if capacity plus number of threads is at most 2^31 it never wraps around, so all operations behave as with an unbounded counter. Beyond that bound it can wrap and size() is wrong.",
  "every capacity, number of threads, programs, schedule",
  "needs 2^31 elements or threads to show up in a test",
  ["src/stdgpu/vector.cuh: _size", "src/stdgpu/deque.cuh: _size", "src/stdgpu/impl/vector_detail.cuh: push_back, pop_back, size", "src/stdgpu/impl/deque_detail.cuh: push_back, push_front, pop_back, pop_front, size"])
p("host threads may allocate and deallocate concurrently",
  "When several host threads allocate and deallocate device and host memory at the same time and each block is deallocated at most once, no block is freed twice, live blocks are disjoint, size_bytes and get_dynamic_memory_type of a block that a thread owns are always right, and whenever no call is in progress the difference of the allocation counters is the number of live blocks plus refused allocations. Two racing deallocations of the same block are not detected (a later second deallocation is).",
  "every number of threads, every program of allocations and deallocations, every interleaving of the locked sections, every choice of addresses",
  "the bookkeeping is split over several critical sections; a test explores few interleavings",
  ["src/stdgpu/impl/memory.cpp: allocate, deallocate, register_memory, deregister_memory, memory_manager", "src/stdgpu/impl/memory_detail.h: safe_device_allocator, safe_host_allocator"])
p("vector and deque: no data race on the elements except by the initial copy of pop",
  "Threads that concurrently push and pop on one vector or deque never perform conflicting unsynchronised accesses to the same element, except that pop_back/pop_front first copy _data[0] without the lock. This copy influences no result, but it races with pushes and pops of slot 0 and reads raw storage when a vector is empty or a deque's first slot is free; a vector with more elements than pops are executed is free of both.",
  "every capacity, contents, set of per-thread programs, interleaving",
  "a data race is a property of all interleavings; raw reads are invisible for trivial types",
  ["src/stdgpu/impl/vector_detail.cuh: push_back, emplace_back, pop_back", "src/stdgpu/impl/deque_detail.cuh: push_back, push_front, pop_back, pop_front"])
p("unordered containers: data races of concurrent inserts, erases and finds are limited to lookups",
  "When threads concurrently insert and find on one unordered container, two conflicting unsynchronised accesses to the same location always consist of an insert that links its new entry behind the last one of a bucket and a lookup that reads this link; stored values and the list of unused entries are accessed without conflicts. When threads concurrently erase and find, conflicting accesses always consist of an erase and a lookup, never of two writes. Finds alone have no data race. Both kinds of conflicts do occur.",
  "every hash function, container state, set of per-thread programs, interleaving",
  "a data race is a property of all interleavings",
  ["src/stdgpu/impl/unordered_base_detail.cuh: find_impl, try_insert, try_erase, find_linked_list_end, find_previous_entry_position", "src/stdgpu/impl/unordered_base.cuh: _values, _offsets"])
p("valid() is true only for well-formed containers",
  "vector::valid() and deque::valid() are true exactly if the counter is between 0 and the capacity and is the number of occupied slots and no slot is locked; mutex_array::valid() exactly if no mutex is locked. If valid() of an unordered container is true then all bucket chains end, are disjoint and contain every stored value of their bucket, no key is stored twice, size() is the number of stored values, nothing is locked and the list of unused entries is valid.",
  "every state of the container, reachable or not, every schedule of the parallel checks",
  "a test can only show that particular broken states are detected",
  ["src/stdgpu/impl/unordered_base_detail.cuh: valid, offset_range_valid, loop_free, values_reachable, unique, occupied_count_valid", "src/stdgpu/impl/vector_detail.cuh: valid, occupied_count_valid, size_valid", "src/stdgpu/impl/deque_detail.cuh: valid, occupied_count_valid, size_valid", "src/stdgpu/impl/mutex_detail.cuh: valid"])
p("atomics publish data written before",
  "If a thread writes data and then sets a flag with a sequentially consistent (default order) store or a read-modify-write of order acq_rel or seq_cst, and another thread obtains the flag with a sequentially consistent load or a read-modify-write of order acq_rel or seq_cst, then the reads the second thread performs afterwards obtain the data, also if each thread's accesses are performed out of order wherever no fence forbids it. (The orders release and acquire alone do not give this guarantee, unlike in C++: their fence is on the wrong side of the access.)",
  "every amount of data, program before and after, other threads, reordering and interleaving",
  "reordering does not happen on the machine and in the schedule a test is run with",
  ["src/stdgpu/impl/atomic_detail.cuh: atomic_load_thread_fence, atomic_store_thread_fence, atomic_consistency_thread_fence, atomic_ref::load, store, exchange, compare_exchange_strong, fetch_add"])
p("unordered containers: operations of one kind are linearizable",
  "For every concurrent execution of insert and find calls on one unordered container, and for every concurrent execution of erase and find calls, there is one order of the calls that respects their order in real time and in which a sequential map returns the same results; when all calls have returned the container holds exactly what this map holds. (insert may fail without the key being stored only when the excess list or the container has run full.) With insert and erase at the same time this is false.",
  "every hash function, container state, number of threads and programs, interleaving, including executions with calls in progress",
  "linearizability quantifies over all interleavings and asks for an order that is not observable",
  ["src/stdgpu/impl/unordered_base_detail.cuh: insert, try_insert, erase, try_erase, find, find_impl, find_linked_list_end, find_previous_entry_position"])
p("containers own exactly their memory",
  "At every point of every program that creates and destroys atomics, bitsets, mutex arrays, vectors, deques and unordered containers (destroying the same one twice is allowed except for an unordered container), the live device memory is exactly the blocks of the containers that exist plus what was live before: nothing leaks, nothing is freed twice, the allocation counters balance. The blocks are disjoint, new locks, bits, counters and offsets are zero, and creating or destroying one container leaves the handle and the bytes of every other one unchanged. (Destroying an unordered container twice can free the memory of another container.)",
  "every history of allocations before, every sequence of createDeviceObject / destroyDeviceObject calls, every size, every choice of addresses by the backend",
  "leaks and aliasing depend on the history and on the addresses that the backend hands out",
  ["src/stdgpu/impl/atomic_detail.cuh: createDeviceObject, destroyDeviceObject", "src/stdgpu/impl/bitset_detail.cuh: createDeviceObject, destroyDeviceObject", "src/stdgpu/impl/mutex_detail.cuh: createDeviceObject, destroyDeviceObject", "src/stdgpu/impl/vector_detail.cuh: createDeviceObject, destroyDeviceObject", "src/stdgpu/impl/deque_detail.cuh: createDeviceObject, destroyDeviceObject", "src/stdgpu/impl/unordered_base_detail.cuh: createDeviceObject, destroyDeviceObject"])
p("device_unique_object destroys its object exactly once",
  "Every object created by a device_unique_object has at most one owner at any time; moves hand it over and leave the source empty, and its handle and memory stay the same; destroyDeviceObject is called exactly once, when the last owner is destructed or overwritten, and never while the object has an owner. operator bool tells whether there is an object and the access operators give it. When all variables are gone, all memory is freed.",
  "every program of constructions, move constructions, move assignments (not to itself) and destructions, every kind of container",
  "exactly-once destruction has to hold for every sequence of moves",
  ["src/stdgpu/memory.h: device_unique_object", "src/stdgpu/impl/memory_detail.h: device_unique_object"])
p("atomic operators return the right value",
  "For every number of threads calling load, store, exchange, fetch_* and the operators ++, --, +=, -=, &=, |=, ^= on one atomic integer (whose primitives exclude each other, see C07) there is one order of all calls in which each call changes the value modulo 2^w and returns what std::atomic specifies: the old value for exchange, fetch_* and postfix operators, the new value for prefix operators and compound assignments. (For signed types the result of ++, --, += and -= is undefined exactly if the update wraps around.)",
  "every word size, initial value, argument, number of threads, program and schedule",
  "a result computed from a second read instead of the returned old value is wrong only in some schedules",
  ["src/stdgpu/impl/atomic_detail.cuh: operator++, operator--, operator+=, operator-=, operator&=, operator|=, operator^=, load, store, exchange, fetch_add, fetch_sub, fetch_and, fetch_or, fetch_xor, fetch_min, fetch_max", "src/stdgpu/openmp/impl/atomic_detail.h", "src/stdgpu/cuda/impl/atomic_detail.cuh"])
p("vector and deque: operations of one kind are wait-free",
  "While all threads only push to a vector or deque, or all threads only pop, every operation returns after a bounded number of steps of its own thread (8 for the vector, 9 for the deque), however the other threads are scheduled and also if they stop. Hence under every fair schedule all operations return. (With pushes and pops at the same time an operation may never return, even under a fair schedule.)",
  "every container state, capacity, number of threads and programs, schedule, including infinite ones",
  "a test sees only schedules that end; waiting forever needs a particular infinite schedule",
  ["src/stdgpu/impl/vector_detail.cuh: push_back, pop_back", "src/stdgpu/impl/deque_detail.cuh: push_back, push_front, pop_back, pop_front", "src/stdgpu/impl/mutex_detail.cuh: try_lock, unlock"])
p("unordered containers: operations of one kind return under every fair schedule",
  "While all threads only insert and look up, or all threads only erase and look up, every call on an unordered container returns if the schedule keeps giving steps to every thread: the repeated try_lock of insert and erase cannot go on forever, also when the calls compete for the same or neighbouring entries of a chain and when the container is full. After that every call has its result and the stored elements are those of C38 and C39. (If a thread that holds a lock is stopped forever, other calls may wait forever; and with inserts and erases at the same time a lookup may never return even under a fair schedule.)",
  "every hash function, container state, number of threads and programs, every infinite fair schedule",
  "a test sees only executions that end; a livelock needs a particular infinite schedule",
  ["src/stdgpu/impl/unordered_base_detail.cuh: insert, try_insert, erase, try_erase, find, find_linked_list_end, find_previous_entry_position", "src/stdgpu/impl/mutex_detail.cuh: try_lock, unlock"])
p("vector and deque: operations of one kind are linearizable",
  "For every concurrent execution of push_back calls on a vector, of pop_back calls on a vector, of push_front and push_back calls on a deque, and of pop_front and pop_back calls on a deque, there is one order of the calls that respects their order in real time and in which a sequential bounded sequence returns the same results (push fails exactly if full, pop fails exactly if empty); when all calls have returned the container holds exactly this sequence. (With pushes and pops at the same time this is false, also if neither the capacity nor size zero is reached; and also for a queue.)",
  "every container state, capacity, number of threads and programs, interleaving, including executions with calls in progress",
  "linearizability quantifies over all interleavings and asks for an order that is not observable",
  ["src/stdgpu/impl/vector_detail.cuh: push_back, pop_back", "src/stdgpu/impl/deque_detail.cuh: push_back, push_front, pop_back, pop_front", "src/stdgpu/impl/queue_detail.cuh: push, pop"])
p("queue: concurrent push and pop are linearizable while no slot is reused",
  "Threads push to the back and pop from the front of a deque at the same time (as push and pop of a queue do), and the initial elements together with all pushed ones do not exceed the capacity. Then no push fails; there is one order of the calls that respects their order in real time and in which a FIFO queue returns the same results, except that a pop may report failure without effect; as long as no pop has failed this is strict linearizability with respect to a FIFO queue; from every state all calls can finish; and when all have returned the deque stores the elements of that queue in order, and is in a proper state if no pop has failed. (That slots are not reused is needed, and a pop can indeed fail although the queue is never empty: counterexamples under C70.)",
  "every deque state and capacity, number of threads and programs of push_back and pop_front, interleaving, including executions with calls in progress",
  "linearizability quantifies over all interleavings and asks for an order that is not observable",
  ["src/stdgpu/impl/deque_detail.cuh: push_back, pop_front", "src/stdgpu/impl/queue_detail.cuh: push, pop"])
p("HIP wavefronts: the lanes of a wavefront pass their critical sections one at a time, and all calls return",
  "On a GPU whose wavefronts make no progress guarantee for their lanes (HIP), insert and erase hand their locking part to an election of active lanes. Every active lane is elected exactly once, in increasing order, and no other lane; different threads of a wavefront compute different lane numbers; at most one lane of a wavefront executes its locking part at any time, and all lower lanes of the same call have returned before. Consequently, if every wavefront goes on being given steps, all insertions (or all erasures) of all lanes of all wavefronts return, with the effect on the container that C38/C39 state, whatever the hardware chooses between divergent lanes. Without the election two insertions by one wavefront into the same bucket may never return.",
  "every mask; every block size; every number of wavefronts, calls, active lanes and operations; every schedule of the wavefronts and every choice between divergent lanes; for the return of the calls: every infinite schedule that is fair to the wavefronts",
  "the scheduling of divergent lanes is up to the hardware and differs between devices; a deadlock appears only for certain choices, and a test can not observe that a call never returns",
  ["src/stdgpu/hip/execution.h: warp_convergent_execute", "src/stdgpu/impl/execution_detail.cuh: warp_convergent_execute", "src/stdgpu/impl/unordered_base_detail.cuh: insert, erase"])
p("HIP wavefronts: push and pop of vector and deque by lanes",
  "push_back/pop_back of the vector and push/pop at both ends of the deque called by lanes of wavefronts with election (HIP): in every execution the lanes behave as independent threads, that is, memory and the results of every lane are those of an interleaving of the lanes. If all lanes of all wavefronts push, or all pop, every wavefront returns from all its calls after a number of its own steps that depends only on its calls, whatever other wavefronts do and whatever the hardware chooses between divergent lanes; the pushes fill the container (as many succeed as there was room for) and the pops take the outer elements. This does not extend to kernels in which one wavefront pushes while another pops, although no capacity limit is reached: there the election can deadlock both wavefronts (proved counterexamples for the vector and for the deque used as a queue).",
  "every capacity and content; every number of wavefronts, calls, active lanes and operations; every schedule of the wavefronts and every choice between divergent lanes",
  "the scheduling of divergent lanes is up to the hardware and differs between devices; a deadlock appears only for certain choices and interleavings of wavefronts, and a test can not observe that a call never returns",
  ["src/stdgpu/hip/execution.h: warp_convergent_execute", "src/stdgpu/impl/vector_detail.cuh: push_back, pop_back", "src/stdgpu/impl/deque_detail.cuh: push_back, pop_back, push_front, pop_front"])
p("unordered containers: counters, offsets and sizes do not overflow 32 bits",
  "size() of an unordered container is kept in a 32 bit counter, and with STDGPU_USE_32_BIT_INDEX all offsets, positions and sizes are 32 bit integers. If the number of entries (buckets plus excess) plus the number of threads is below 2^31, no counter or offset overflows at any moment of any execution of insertions and lookups, of erasures and lookups, or of all three while different keys have different buckets: the execution with 32 bit integers is that with unbounded integers, so that everything proved about the latter holds for it. createDeviceObject(capacity) computes its sizes without overflow for every capacity up to 2^30, which leaves room for 2^28 - 2 threads. Above 2^30 + 64 it fails: the bucket count is 2^31, which as a 32 bit index is negative (proved counterexample).",
  "every key type, hash and equality satisfying the usual laws; every table size, phase history, thread program, schedule and prefix of an execution; every capacity",
  "overflow needs containers of 2^30 elements, beyond what a test allocates; transient counter values during an execution are not observable from outside and depend on the schedule",
  ["src/stdgpu/impl/unordered_base.cuh: _occupied_count, _offsets, _excess_list_positions", "src/stdgpu/impl/unordered_base_detail.cuh: createDeviceObject, try_insert, try_erase, expected_collisions", "src/stdgpu/cstddef.h: index_t"])
p("insert, erase and find at the same time on keys with different buckets",
  "When no two different keys that are stored or to be inserted have the same bucket(key), any mix of concurrent insert, erase and find calls, on keys with and without contention, is linearizable: there is one order of the calls, compatible with their order in real time, in which executing them one after the other on a map gives exactly the returned results and, at the end, exactly the stored values. Nothing is accessed outside of the table, constructed over a living object or destroyed twice; afterwards no key is stored twice, size() is the number of stored values and no lock is held. If moreover at least as many excess entries are unused as there are insert calls, an insertion fails only when its key is stored, valid() holds afterwards, and any further phases of use behave as on a map. (Without the condition on the buckets this is false, see C40 and C64.)",
  "every key type, hash and equality satisfying the usual laws; every table size, phase history, number of threads, thread program, schedule and prefix of an execution; erased and looked up keys are arbitrary",
  "linearizability quantifies over all interleavings of lock, link and free list operations and over histories of the object; a test sees a few schedules",
  ["src/stdgpu/impl/unordered_base_detail.cuh: try_insert, try_erase, insert, erase, find_impl, find_linked_list_end, find_previous_entry_position, bucket", "src/stdgpu/impl/vector_detail.cuh: push_back, pop_back", "src/stdgpu/impl/mutex_detail.cuh: try_lock, unlock"])
p("algorithms on ranges of any size",
  "fill, fill_n, copy, copy_n and iota on a range of fewer than 2^31 elements write exactly its elements with the right values, for every schedule, also with the default 32 bit index_t. uninitialized_fill, uninitialized_copy, destroy and their _n variants construct (destroy) every element of the range exactly once and touch nothing else, for every size. Beyond 2^31 elements the former fail with a 32 bit index_t (proved counterexamples): fill, copy and iota of 2^31 up to 2^32 - 1 elements write nothing, of 2^32 + k elements only the first k; fill_n with a 64 bit size writes before the beginning of the range.",
  "every range, element type and value, every interleaving of the loop's memory accesses",
  "ranges with more than 2^31 elements need more memory than test machines have; all interleavings",
  ["src/stdgpu/impl/algorithm_detail.h: fill, fill_n, copy, copy_n", "src/stdgpu/impl/numeric_detail.h: iota", "src/stdgpu/impl/memory_detail.h: uninitialized_fill, uninitialized_copy, destroy, destroy_n", "src/stdgpu/cstddef.h: index_t"])
p("parallel copies through insert iterators",
  "copy (or any parallel loop that writes every element of a sequence once) through back_inserter to a vector or deque, or front_inserter to a deque, with enough room always completes and leaves the container valid, with its old elements unchanged in order and the new ones, each exactly once in some order, behind (before) them; a vector with too little room is filled completely. Through inserter to an unordered container with at least as many unused excess entries it adds exactly one value for each key of the sequence that was not stored, and nothing else.",
  "every container state, sequence, distribution of the elements to threads, schedule",
  "all interleavings of the concurrent pushes and insertions, and all ways to divide the work",
  ["src/stdgpu/impl/iterator_detail.h: back_inserter, front_inserter, inserter", "src/stdgpu/impl/algorithm_detail.h: copy, copy_n", "src/stdgpu/impl/vector_detail.cuh: push_back", "src/stdgpu/impl/deque_detail.cuh: push_back, push_front", "src/stdgpu/impl/unordered_base_detail.cuh: insert"])
p("progress of mixed operations on unordered containers",
  "When threads insert, erase and look up at the same time and no two different keys that are stored or inserted belong to the same bucket, no set of operations can block itself for good: whatever has happened so far, there is a continuation in which every call returns. It is not true that every fair schedule is such a continuation: an insertion and an erasure of keys of different buckets can keep each other from returning forever in the list of unused excess entries (proved counterexample).",
  "every container reachable by earlier operations, any number of threads and operations, every finite schedule",
  "a deadlock needs a particular interleaving, and absence is a statement about all of them; the livelock is an infinite execution",
  ["src/stdgpu/impl/unordered_base_detail.cuh: try_insert, try_erase, find_impl, insert, erase", "src/stdgpu/impl/vector_detail.cuh: push_back, pop_back", "src/stdgpu/impl/mutex_detail.cuh: try_lock"])
p("lookups are non-blocking",
  "A lookup (find, contains, count) takes no lock and returns after a bounded number of its own steps, whatever the other threads do, and also if they are stopped in the middle of an insertion or erasure while they hold locks. While other threads only insert and look up, or only erase and look up, the bound depends on the number of excess entries only; while they insert and erase keys of separated buckets, it depends on the number of erase calls only. (With colliding keys and mixed insertions and erasures a lookup may never return: counterexample of the property about mixed operations.)",
  "every container reachable by earlier operations, any number of threads and operations, every finite schedule before and after the moment the lookup is considered, including those that never schedule another thread again",
  "a blocked lookup needs a particular moment at which another thread is stopped, and the bound is about all of them",
  ["src/stdgpu/impl/unordered_base_detail.cuh: find_impl, contains, count, try_insert, try_erase"])
p("mixed operations conserve the elements",
  "Threads insert, erase and look up arbitrary keys of an unordered set or map at the same time, including colliding and equal keys. As long as the execution is defined (no access outside the table, no construction over a living value, no destruction of a dead one) no element is lost, invented or counted twice: when all operations have returned, for every key (number of stored elements with that key) + (successful erases of it) = (number stored before) + (successful inserts of it); size() is the number of stored elements; exactly the stored elements are alive, and no entry is left locked. At every moment in between, a key has been erased successfully at most as often as it was stored at the start plus the number of insert calls for it. (The counterexamples of the property about mixed operations break uniqueness of keys and lookups, but not this balance.)",
  "every container reachable by earlier operations, any number of threads, any programs of insertions, erasures and lookups over arbitrary keys, every interleaving of their steps",
  "a lost or doubled element needs one interleaving of two updates among exponentially many",
  ["src/stdgpu/impl/unordered_base_detail.cuh: try_insert, try_erase, find_impl, size", "src/stdgpu/impl/vector_detail.cuh: push_back, pop_back", "src/stdgpu/impl/mutex_detail.cuh: try_lock"])
p("neighbouring elements do not disturb each other through shared words",
  "The occupied flags and the locks of up to 32 (or 8, 16, 64: any power of two) neighbouring elements are bits of one machine word. Threads that work on different elements of the same word do not disturb each other: for every set of programs and every schedule, vector, deque and unordered set/map (including their free list) with packed flags and locks return exactly the results, and end with exactly the elements, counters, flags and locks, that they would with one independent flag and lock per element; valid(), which counts bits of whole words, gives the same answer; a new container is packed correctly.",
  "every block width 2^k with k < 64, every capacity below 2^64, every reachable container, any programs of pushes and pops (of insertions, erasures and lookups) on any number of threads, every schedule",
  "a lost flag needs two threads inside one word at the same moment; the tests check single threads or separate words",
  ["src/stdgpu/impl/bitset_detail.cuh: set, reset, test, count", "src/stdgpu/impl/mutex_detail.cuh: try_lock, unlock, valid", "src/stdgpu/impl/vector_detail.cuh: push_back, pop_back, valid", "src/stdgpu/impl/deque_detail.cuh: push_back, push_front, pop_back, pop_front, valid", "src/stdgpu/impl/unordered_base_detail.cuh: try_insert, try_erase, find_impl, createDeviceObject"])
p("range operations of the containers and the 32 bit index type",
  "With the default 32 bit index_t: vector::insert of a range that together with the present elements has fewer than 2^31 elements appends the whole range or, if it does not fit, changes nothing; vector::erase removes exactly the range; insert(begin, end) and erase(begin, end) of the unordered containers handle every element of a range of fewer than 2^31 elements. For longer ranges this is false and what happens instead is: a range of 2^31 to 2^32 - 1 elements makes vector::insert reduce the size (elements are lost, valid() is false) instead of refusing, and the unordered containers insert and erase nothing; of a range of 2^32 + k elements the first k are handled; a shorter range whose sum with the size reaches 2^31 overflows before the check whether it fits.",
  "every vector state and every reachable unordered container, ranges of every length, every order of the parallel loops and every schedule",
  "the failing lengths start at 2^31 elements, more than the memory of a test machine holds, and the claim is about all lengths",
  ["src/stdgpu/impl/vector_detail.cuh: insert, erase", "src/stdgpu/impl/unordered_base_detail.cuh: insert(begin, end), erase(begin, end)", "src/stdgpu/cstddef.h: index_t"])
p("parallel loops of the host operations, access by access",
  "bitset set(), reset() and flip(), vector insert(position, begin, end), erase(begin, end) and clear(), deque clear() and device_range(), and clear() and device_range() of the unordered containers run loops with one thread per index. Whatever the interleaving of the single reads and writes of these threads, with the flags packed in words, the operation has its documented effect once its loops have finished: all bits are set, reset or inverted; the range is appended or nothing is changed; the tail is removed; the container is empty, every element was destroyed exactly once and all excess entries are unused; device_range() names every element exactly once, inside its array and independently of what the array held before. Every loop can always be finished.",
  "all proper states of the containers, all block widths, all ranges, and all interleavings of the single accesses of the threads of every loop",
  "a test sees few interleavings of the thousands of threads of a loop; a lost update of a neighbouring flag or a position named twice would show only in some of them",
  ["src/stdgpu/impl/bitset_detail.cuh: set, reset, flip, flip_bits", "src/stdgpu/impl/vector_detail.cuh: vector_insert, vector_erase, insert, erase, clear", "src/stdgpu/impl/deque_detail.cuh: clear, device_range", "src/stdgpu/impl/unordered_base_detail.cuh: clear, device_range, destroy_values, unordered_base_collect_positions", "src/stdgpu/impl/algorithm_detail.h: for_each_index"])
p("contract checks never end a program that uses the API as documented",
  "In a debug build (contract checks enabled) no STDGPU_EXPECTS or STDGPU_ENSURES of the library fails when the API is used as documented: the bit functions for all arguments (bit_mod for powers of two), bit and mutex accesses, vector element accesses and bucket_size exactly for indices inside, set()/reset() of a bitset and clear() of a vector or deque at their end, every step of concurrent pushes and pops, every step of concurrent insertions and lookups, or erasures and lookups, or all of them as long as different keys have different buckets, creation of containers, and allocation, deallocation and registration of memory as long as no allocation has failed before. In any execution of an unordered container at all a check can fail only once something undefined happens, and size() stays between 0 and max_size() until then. Exceptions (false): at(n) of a deque that does not begin in slot 0 and is not full, lookups after unrestricted concurrent insertions and erasures, a second failed allocation, and bitset sizes in (2^31 - w, 2^31) with a 32 bit index type.",
  "all arguments, all proper states, all interleavings of the steps of any number of threads, and all histories of calls of the memory API",
  "a check that fails only under a rare interleaving or at an extreme size ends the program of a user whose tests all passed; absence of a failing check in every reachable state is not something a run can show",
  ["src/stdgpu/contract.h: STDGPU_EXPECTS, STDGPU_ENSURES", "src/stdgpu/impl/bit_detail.h", "src/stdgpu/impl/bitset_detail.cuh: div_up, set, reset, flip, operator[]", "src/stdgpu/impl/vector_detail.cuh: size, occupied, clear, at", "src/stdgpu/impl/deque_detail.cuh: size, clear, at", "src/stdgpu/impl/unordered_base_detail.cuh: size, bucket, bucket_size, find_impl, occupied, createDeviceObject", "src/stdgpu/impl/memory.cpp: register_memory, deregister_memory"])
p("load_factor is the number of elements per bucket",
  "load_factor() of an unordered container made by createDeviceObject is the average number of elements per bucket: exactly size() / bucket_count() below 2^24 elements, with a relative error of at most 2^-24 above; it is 0 exactly when the container is empty, does not fall when elements are added, and is at most max_load_factor() as long as there are no more elements than buckets. max_load_factor() is not an upper bound: a full container (with fewer than 2^24 entries) is always above it, because the excess entries are not counted as buckets.",
  "every capacity up to 2^62, every state of the container reachable by any history of (also concurrent) operations, any number of elements",
  "rounding to float first matters at 2^24 + 1 elements, and which sizes are off by how much is not visible from the few sizes a test uses",
  ["src/stdgpu/impl/unordered_base_detail.cuh: load_factor, max_load_factor, default_max_load_factor, createDeviceObject"])
p("creating containers when the device memory runs out",
  "If the backend refuses some of the allocations (returns null) while containers are created, creating and destroying them is still defined: the live memory is at every point exactly what the existing containers have obtained plus what was live before, these blocks are disjoint, blocks that a new container has filled with zeros are zero, containers and memory of others are not touched, and after all containers are destroyed nothing is leaked. The same holds when the containers are created, moved and released through device_unique_object variables: each object has at most one owner, is destroyed exactly once when it loses it, and the variable is non-null although its object was created only in part. The allocation counters count refused blocks as allocated, so afterwards they differ by the number of refused blocks. The failure is not reported: a vector whose element memory was refused looks like every new vector.",
  "every pattern of refused allocations, every backend choice of addresses, every program that creates and destroys containers of positive size (unordered containers at most once), after every history of allocator calls",
  "a test would have to refuse each subset of the up to twelve allocations of each container, in every order of creations and destructions",
  ["src/stdgpu/impl/memory.cpp: allocate, deallocate", "src/stdgpu/impl/memory_detail.h: allocator_traits::allocate_filled", "src/stdgpu/impl/unordered_base_detail.cuh: createDeviceObject, destroyDeviceObject", "src/stdgpu/impl/vector_detail.cuh: createDeviceObject, destroyDeviceObject, vector_clear_iota", "src/stdgpu/impl/deque_detail.cuh: createDeviceObject, destroyDeviceObject", "src/stdgpu/impl/memory_detail.h: device_unique_object", "src/stdgpu/impl/atomic_detail.cuh: atomic_ref::store"])
p("concurrent operations touch only the memory of their container",
  "Every byte that a thread reads or writes during push, pop, insert, erase or find on a vector, deque or unordered container (elements, lock and occupied bits, counters, offsets, the free list) belongs to a live block that createDeviceObject allocated for this container. So threads working on different containers never touch the same byte, nor memory of the user; and different variables of one container do not overlap, except that bits of one bitset share words, which are only accessed by atomic operations on the word. (For unordered containers: as long as nothing undefined has happened, see C38, C39, C75.) Containers without memory (default-constructed or destroyed) are excluded: popping from them and looking up keys in them reads the null pointer although they count as empty and valid.",
  "every sequence of creations and destructions of containers, every choice of addresses by the backend, every contents, any number of threads, all operations, all schedules and every point of the execution",
  "an access outside the container is silent in a test unless it happens to hit something that is checked; the positions accessed depend on the schedule and the addresses on the history of allocations",
  ["src/stdgpu/impl/vector_detail.cuh: push_back, pop_back, createDeviceObject", "src/stdgpu/impl/deque_detail.cuh: push_back, push_front, pop_back, pop_front, createDeviceObject", "src/stdgpu/impl/unordered_base_detail.cuh: try_insert, try_erase, find_impl, find_linked_list_end, find_previous_entry_position, createDeviceObject", "src/stdgpu/impl/bitset_detail.cuh: bitset::set, reset, operator[]"])
p("numeric_limits gives the exact limits of every arithmetic type",
  "For every integer type with a specialisation of numeric_limits, all its values lie between min() and max(), both of which are values of the type; lowest() is min(), is_signed tells whether there are negative values, and max() is radix^digits - 1. For the floating point types lowest() and max() bound all finite numbers and are finite, min() is the smallest positive normal number, 1 + epsilon() the smallest number greater than 1, round_error() the largest rounding error in units, and infinity() has the bits of infinity. Types without a specialisation (const int, char8_t) silently get 0.",
  "all values of all integer and floating point types, every size of the integer types, both signednesses of char and wchar_t, every binary floating point format",
  "a bound on all values of a 64 bit type or a floating point format cannot be established by trying values, and it depends on the platform",
  ["src/stdgpu/limits.h: numeric_limits", "src/stdgpu/impl/limits_detail.h: numeric_limits::min, max, lowest, epsilon, round_error, infinity"])
p("Store buffers do not change the behaviour of concurrent operations",
  "On a machine that delays plain writes in store buffers, concurrent push and pop on vectors and deques (writes to different elements may even become visible out of order) and concurrent insert, erase and find on unordered containers behave as on a sequentially consistent memory: what is observed at any time (the memory, and the results of the operations that have returned) is observed in some interleaving of the same programs, and when all threads have finished, all writes are in memory. So conservation of elements and the results of parallel insertion hold on such a machine. This needs the fence that the atomic operations issue before their access: with memory order relaxed or release, which have none, a pop can read raw storage. For vectors and deques the same holds if, in addition, plain reads may be executed ahead of time, at any moment since the last fence of their thread; this needs the fences after the accesses of the atomic operations: without them (memory order relaxed) an element can be popped twice.",
  "all programs of all threads, all schedules, all delays of the writes in the buffers and all moments at which early reads are executed",
  "the delays depend on the hardware and are not controlled by a test; a sequentially consistent or lightly loaded machine never shows them",
  ["src/stdgpu/impl/atomic_detail.cuh: atomic_load_thread_fence, atomic_store_thread_fence, atomic_ref::fetch_or, fetch_and, fetch_add", "src/stdgpu/impl/vector_detail.cuh: push_back, emplace_back, pop_back", "src/stdgpu/impl/deque_detail.cuh: push_back, push_front, pop_back, pop_front", "src/stdgpu/impl/unordered_base_detail.cuh: try_insert, try_erase, find_impl, find_linked_list_end, find_previous_entry_position"])
p("Mixed operations return with probability 1 under a random scheduler",
  "When threads push and pop on a vector at the same time (or on a deque that has room for all pushes and elements for all pops), some fair schedules keep operations from returning for ever (C68). A scheduler that chooses the next thread at random, independently and with equal probabilities, does not: whatever has happened so far, the probability that some operation has not returned after L more steps tends to 0, and geometrically: among the n^(B*k) possible choices of B*k steps at most (n^B - 1)^k leave an operation unfinished, where B depends on the number n of threads and the number of operations only. For an unordered container on which threads insert and look up (or erase and look up), where every fair schedule finishes (C69), the probability tends to 0 as well. It also tends to 0, geometrically with a B that depends on the numbers of threads, operations and entries, when threads insert, erase and look up at the same time and different keys have different buckets, although some fair schedules keep such operations from returning for ever (C78).",
  "all contents, programs, numbers of threads, past executions, and all tolerances",
  "a statement about the probability over all schedules of all lengths; a test sees a few schedules, and a spin loop that has returned in a test may still be able to spin for ever",
  ["src/stdgpu/impl/vector_detail.cuh: push_back, emplace_back, pop_back", "src/stdgpu/impl/deque_detail.cuh: push_back, push_front, pop_back, pop_front", "src/stdgpu/impl/unordered_base_detail.cuh: try_insert, try_erase, insert, erase"])
p("Copies of a container handle refer to the same container",
  "Containers are handles that are copied by value (into kernels, functors). A copy made at any time refers to the same container: destroying the container through the copy frees exactly its memory and leaves memory and allocation counters as destroying it through the original does. Destroying the container once more through another copy has no effect, as long as the backend has not placed another array at one of its addresses; if it has, the stale copy frees memory of the other container.",
  "every program that creates and destroys containers, every time at which the copy is made and used, every choice of addresses by the backend, after every history of allocator calls",
  "whether a stale copy does harm depends on the addresses that the backend chooses later; a test sees one allocator and one history",
  ["src/stdgpu/impl/vector_detail.cuh: destroyDeviceObject", "src/stdgpu/impl/deque_detail.cuh: destroyDeviceObject", "src/stdgpu/impl/unordered_base_detail.cuh: destroyDeviceObject", "src/stdgpu/impl/memory_detail.h: safe_device_allocator::deallocate", "src/stdgpu/impl/memory.cpp: deallocate, deregister_memory"])
p("Kernels and host operations in any order",
  "A program uses a vector or a deque in phases: single operations of the host (also insert, erase, clear) and kernels in which many threads push and pop, in any order and any number of each. As long as no push or pop of a kernel has failed, the container is valid after every phase, and one list with at most capacity elements explains the whole history: every output of the host is the one that this list gives, and each kernel adds the values of its pushes to it and removes the values that its pops have returned. Such a history can always be continued: host operations that are used as documented do not hit undefined behaviour, and kernels whose pushes have room and whose pops have elements return, with success only, under some continuation of every schedule.",
  "every capacity, every number and order of phases, all programs of the kernels and all schedules of each, all inputs of the host operations, every order of the iterations of the host's loops",
  "a test runs a few fixed phases with the schedules that occur; that the leftovers of one kernel never disturb a later phase is a statement about all histories",
  ["src/stdgpu/impl/vector_detail.cuh: push_back, pop_back, insert, erase, clear, size, valid", "src/stdgpu/impl/deque_detail.cuh: push_back, push_front, pop_back, pop_front, clear, size, valid"])
p("One map explains the whole history of an unordered container, and elements do not move",
  "A program uses an unordered_map or unordered_set in phases: operations of the host (insert, erase, clear, find, ...) and kernels in which many threads insert and look up, or erase and look up, or do all of it with keys as in C75, in any order and any number of each. One finite map explains everything that is observed: every host operation has the result that it has on this map, and the results of all threads of a kernel are those of executing their operations one after another on it, in an order that respects each thread's program; an insertion fails without the key being there only if the container has run out of entries. An element keeps its position from its insertion until it is erased, so iterators and pointers to it that a thread or the host has got in any phase stay valid: at every moment of a kernel, and after every host operation, an element whose key is not erased is stored unchanged where it was. After every phase the container is valid and holds no key twice, and such a history can always be continued.",
  "every lawful hash function and key comparison, bucket and excess count, every number and order of phases, all programs of the kernels and all schedules of each, every order of the iterations of the host's loops",
  "a test runs fixed phases with the schedules that occur; that iterators taken in one phase still refer to the right element in later ones is a statement about all histories",
  ["src/stdgpu/impl/unordered_base_detail.cuh: try_insert, try_erase, insert, erase, find, clear, valid, size"])
p("size(), empty() and full() are meaningful while other threads operate",
  "At every moment at which a thread calls size() on a vector or deque while others push and pop in any mix, the answer is between 0 and the capacity, at least (up to the capacity) the elements at the beginning plus the pushes that have returned true minus all pops that have been called, and at most the elements at the beginning plus all pushes that have been called minus the pops that have returned an element. Likewise for an unordered container and insert and erase, where only calls that are going on count besides the successful ones, also where the mix of operations is otherwise not supported. So empty() is not observed as long as more pushes or insertions have succeeded (with the initial elements) than pops or erasures have been called, and full() is not observed before as many pushes have been called as there was room. While threads only push or insert (and look up), size() never decreases from one observation to a later one; while they only pop or erase, it never increases.",
  "every initial content, all programs of any number of threads, and every moment of every schedule",
  "the value depends on how far every other thread has got; a test observes a few moments of a few schedules",
  ["src/stdgpu/impl/vector_detail.cuh: size, empty, full, push_back, pop_back", "src/stdgpu/impl/deque_detail.cuh: size, empty, full, push_back, push_front, pop_back, pop_front", "src/stdgpu/impl/unordered_base_detail.cuh: size, empty, try_insert, try_erase"])
p("References and iterators stay valid while other threads operate",
  "Threads push to and pop from a vector or a deque in any mix. An element that the calls of pop cannot reach (there are fewer calls of pop_back than elements behind it and, for a deque, at most as many calls of pop_front as elements before it) can be used by other threads all the time without synchronisation: at every moment of every execution the object the reference denotes is alive and unchanged, its position counts as occupied, and no operation works on it or locks it. For a vector operator[] with the same index denotes it all the time and its index passes the checks of at(); for a deque so does operator[] as long as nothing is done at the front. For a deque (and so for stack and queue) this needs room: the pushes at each end must fit besides the initial elements. Without room it is false: on a full deque or stack, one push_back and one pop_back at the same time can make the pop return the front (bottom) element, and the new element ends up at the front. In unordered containers, in any mix of insert, erase and find, also an unsupported one as long as nothing undefined happens: an element whose key no thread erases stays at its position, alive and unchanged, from the moment it is stored; the iterator a successful insert has returned refers to the inserted value at every later moment, and the one a successful find has returned to a living value with the key.",
  "every initial content, all programs of any number of threads, every element out of reach, and every moment of every schedule",
  "the reference is used at a moment relative to the progress of all other threads, and slots are reused modulo the capacity; a test tries a few of the interleavings",
  ["src/stdgpu/impl/vector_detail.cuh: operator[], at, push_back, pop_back", "src/stdgpu/impl/deque_detail.cuh: operator[], push_back, push_front, pop_back, pop_front", "src/stdgpu/impl/unordered_base_detail.cuh: find, insert, try_insert, erase, try_erase"])
p("Pushes and pops of one thread keep the order of its program",
  "Threads push to a vector: when all have finished, the vector holds its old elements followed by the values pushed successfully, and the values pushed by one thread are in the order of its program. The same holds for a deque at each of its ends (at the front in reverse order). Threads pop from a vector or a deque: at every moment the values one thread has popped from an end were returned to it in the order in which they stand in the container, seen from this end. Threads use a queue, pushing and popping at the same time, and no slot is reused: the elements enter the queue in one order, which contains the pushes of each producer in the order of its program, and each consumer gets its elements in this order, before those that are still in the queue. If slots of the queue are reused the last claim is false: a thread that pushes 1 and then 2 and a thread that pops twice afterwards can see 2 before 1.",
  "every initial content, all programs of any number of threads and every schedule",
  "the order is decided by the interleaving of the calls of all threads; the schedule that swaps two elements of one producer needs eight threads",
  ["src/stdgpu/impl/vector_detail.cuh: push_back, pop_back", "src/stdgpu/impl/deque_detail.cuh: push_back, push_front, pop_back, pop_front", "src/stdgpu/impl/queue_detail.cuh: push, pop"])
p("Keys that violate the requirements never break an unordered container",
  "The hash and the key comparison of an unordered container are arbitrary functions: the comparison need not be reflexive (NaN), symmetric or transitive, and matching keys may have different hashes (+0 and -0). Still every operation returns, without undefined behaviour, and the container is a bag of elements: an insertion that succeeds adds exactly its value, one that fails changes nothing and does so because a stored element matches or no excess entry is unused; an erase removes exactly one element, which matches, or nothing; a lookup returns a stored element that matches; a key is reported missing only if no stored element with the same hash matches; size is the number of elements and clear removes all. Concurrent insertions, or erases, with lookups keep all of this for every schedule. They end under every fair schedule, and almost surely under a random one. valid() returns true only if every stored element matches itself. A key that matches nothing can be inserted as often as there is room, is never found or erased, and makes valid() false until clear.",
  "every hash and comparison function, every history of single operations and of concurrent insert and erase phases, all programs of any number of threads and every schedule",
  "the functions of the user are arbitrary; tests use keys that obey the laws",
  ["src/stdgpu/impl/unordered_base_detail.cuh: try_insert, try_erase, insert, erase, find_impl, contains, value_reachable, values_unique, valid, clear", "src/stdgpu/impl/functional_detail.h: hash, equal_to"])
p("valid() of an unordered container always returns, with the right answer, whatever the memory contains",
  "valid() walks the chains of all buckets at the same time, one thread per bucket, and stops a walk at an entry that has been counted twice. For every contents of the container's memory in which occupied entries hold objects - offsets that leave the table, form loops or let chains merge, wrong counters, locks left behind, any free list - it returns: each walk ends after at most 4*total_count()+2 accesses to memory, whatever the other threads do, and never leaves the table. The answer is the same for every interleaving of the threads. It is true exactly if the container is well-formed: the offsets stay inside the table, following them from the buckets never meets an entry twice, every stored value is on the chain of its bucket, no key is stored twice, size() is the number of stored values, no lock is held, and the list of unused entries is valid.",
  "every contents of the memory of a container, every number of buckets and entries, every interleaving of the accesses of the threads",
  "a test can only look at some broken containers and sees one interleaving per run; an endless loop shows up only for certain loops and schedules",
  ["src/stdgpu/impl/unordered_base_detail.cuh: offset_range_valid, count_visits, loop_free, values_reachable, unique, occupied_count_valid, valid"])
p("bit_cast gives the value with the same bytes",
  "bit_cast<To>(x), for two trivially copyable types of the same size, does not depend on the contents of the uninitialised object it fills. The result is the value of To with the bytes of x: every value of To with these bytes is the result, and if To has no padding the result has exactly these bytes, so that converting back gives x and different arguments give different results. With padding this fails. The unsigned integers have no padding in any byte order; so the hash of a float or double is the same for two keys exactly if they have the same bits, and, where floating point values are stored in the byte order of integers, it is the integer with these bits, and infinity() is the value with the bits written in the code.",
  "every pair of trivially copyable types of the same size (any size), every value, every contents of uninitialised memory, every byte order",
  "a test can convert a few values on one platform, whose uninitialised memory and byte order it cannot choose",
  ["src/stdgpu/bit.h: bit_cast", "src/stdgpu/impl/bit_detail.h: bit_cast", "src/stdgpu/impl/limits_detail.h: simple_bit_cast, numeric_limits<float>::infinity, numeric_limits<double>::infinity", "src/stdgpu/impl/functional_detail.h: hash<float>, hash<double>"])
p("Numbers of bytes do not overflow up to max_size()",
  "allocator_traits::max_size() is the largest number of elements of the type whose bytes can be counted in a 64-bit integer. In every history of allocations, deallocations, array creations, copies and destructions, with any element types and sizes, in which the numbers of elements given are at most max_size() (also negative ones), no computation of a number of bytes overflows, and everything happens as with unbounded integers; destroying an array needs no condition. The arrays of a container with 32-bit sizes are always small enough, if an element has at most 4 GiB. Beyond max_size() nothing is checked: allocations, array creations and copies overflow.",
  "every history of calls of the memory functions, every element size below 2^63, every number of elements, every behaviour of the backend's allocator",
  "a test cannot allocate amounts of memory near the limits, and an overflow of signed integers need not show",
  ["src/stdgpu/impl/memory_detail.h: allocator_traits::max_size, safe_device_allocator::allocate, safe_host_allocator::allocate, deallocate, register_memory, deregister_memory, createDeviceArray, createHostArray, copyCreateDevice2HostArray, destroyDeviceArray, destroyHostArray", "src/stdgpu/impl/memory.cpp: allocate"])
out=os.path.join(os.path.dirname(__file__),"..","properties.jsonl")
with open(out,"w") as f:
    for x in P: f.write(json.dumps(x)+"\n")
print(len(P))
