# Formal model of stdgpu in Lean 4 — design

Sources: `/repo/src/stdgpu` (pinned commit, read as text only). Lean project: `/verif/lean`,
one directory per layer:

* `Verif/Model/*.lean`  – executable model, function by function, every definition cites file:lines.
* `Verif/Spec/*.lean`   – small independent specifications (bounded lists, finite maps, ...).
* `Verif/Proof/*.lean`  – helper lemmas and invariants (not part of what is claimed).
* `Verif/Props/*.lean`  – the property theorems only, each with a non-vacuity `example` beside it.

`MANIFEST.json` maps property ids (see `properties.jsonl`) to theorem names.

## Trusted base

* Lean 4.33.0's kernel, and the standard axioms `propext`, `Classical.choice`, `Quot.sound`
  (a subset per theorem; `Verif/Audit.lean` prints them). No own axioms, no compiled evaluation
  (`native_decide`, `bv_decide`), no placeholder proofs.
* My reading of the C++ sources: the model is hand-written; its only tie to the code are the citations.
* Concurrency: executions are sequentially consistent interleavings; one step is one access to shared
  memory (one atomic read-modify-write, one load, one store), thread-local computation is free. What supports
  this assumption: vector and deque element accesses are free of data races (C60, one exception named there),
  and the fences the atomics issue make default-order atomics publish earlier writes in a reordering model (C63); on
  a machine with store buffers (total store order for unordered containers, writes to different elements out of order
  for vectors and deques) every execution of the containers is observed as a sequentially consistent one (C89; for vectors
  and deques also with plain reads executed ahead of time, for unordered containers these are not covered).
  What does not: `unordered_base::_offsets` is a plain array read without a lock by lookups (C61 proves exactly which
  accesses race). The C++/CUDA weak memory model itself, kernel launch and
  stream synchronisation are not modelled. Warp divergence and forward progress are modelled for C72 and C73 only
  (`warp_convergent_execute`, `Model/Execution.lean`, `Model/WaveSlots.lean`).
* Integers: container indices are unbounded `Nat`/`Int` (`index_t` is 64-bit, all indices are bounded by the
  capacity, so no wrap can occur before 2^63 elements). The atomic size counter is an unbounded `Int` in the container
  models; C58 proves that the real 32-bit counter behaves the same as long as capacity + number of threads in a call
  fits into an `int`, and that it does not beyond; C100 does the same for the numbers of bytes of allocations. Where the property *is* about machine arithmetic (bit tricks, Fibonacci
  hashing, CUDA subtraction, hashes, iota) it is modelled with `BitVec w`.
* Floating point: `expected_collisions` (long double) and `ceil(float(capacity)/1.0f)` round: C37 models the rounding
  of an integer to binary32, and any rounding of every `long double` operation to a neighbouring number. Exponents are unlimited.
* Thrust / CUDA / HIP runtime, `malloc`/`cudaMalloc`: `malloc` is a parameter returning a fresh block or null.
* Element types: values are an arbitrary type `α`; copies/moves do not throw or alias. Lifetime (construct /
  destroy) is tracked per slot where a property is about it.

## Per property: what is modelled, how it is proved

| id | model | proof |
|----|-------|-------|
| C01–C04 | `Model/Bit.lean`: functions over `BitVec w`, loops as recursion with a fuel that is proved sufficient | Nat-level characterisation, bitwise extensionality, all widths |
| C05 | `Model/FibHash.lean` on `BitVec 64` | shift bound; surjectivity through invertibility of the odd multiplier |
| C06–C09 | `Model/Atomic.lean`: atomic cell and RMW functions, thread interleavings of RMWs, CAS-loop small-step machine | fold lemmas, permutation invariance, invariant on traces |
| C10–C13, | `Model/Bitset.lean`: list of `BitVec w` blocks, `w = 2^k` | refinement to `Nat → Bool`; count through list sums; interleavings as RMW lists |
| C14–C15 | `Model/Mutex.lean`: lock bits + small-step threads | inductive invariant on reachable states |
| C16–C17 | `Model/Vector.lean` sequential functions | refinement to bounded list, induction over histories |
| C18–C22 | `Model/Vector.lean` small-step machine (full check, counter RMW, try_lock, occupied check, construct, set bit, unlock) | inductive invariant with per-slot reservation accounting; C22 is false in general: witnesses; `Props/Boundary.lean` proves for all programs what is right afterwards (elements, `size()`) and bounds the counter by the failed operations (`Proof/VectorConc3.lean`) |
| C23–C24 | `Model/Deque.lean` | refinement to bounded double-ended list with ring abstraction |
| C25–C26 | `Model/Deque.lean` small-step | conservation invariant; C26 false: witnesses; `Props/Boundary.lean`: for all programs the slots handed out form a ring segment when counted with sign and wrap-arounds (`Proof/DequeConc3.lean`), so only the size counter is wrong, by at most the failed operations |
| C27–C28 | `Model/QueueStack.lean` on top of Deque | corollaries of C23 |
| C29–C36 | `Model/Unordered.lean` sequential functions on the real layout (values, offsets, occupied, free list) | representation invariant (chains as lists), refinement to finite map |
| C37 | sizes; float rounding function; `Model/SizesRounded.lean`: the excess count with any rounding errors (`Spec/Rounding.lean`) | arithmetic, witness; bounds of every intermediate result that hold for any rounding |
| C38–C40 | `Model/UnorderedConc.lean` small-step | invariant for insert-only and erase-only; C40 false: witness schedules; true with separated keys: C75 |
| C41–C44, C49 | `Model/Memory.lean` registry maps and heap, `Model/Ranges.lean` | induction over histories |
| C45–C46 | `Model/Algorithm.lean` loops over an arbitrary permutation of the index list | permutation invariance |
| C47 | `Model/Algorithm.lean` min, max, clamp | case analysis over a total preorder |
| C48 | `Model/Hash.lean` on `BitVec` | injectivity of extension; IEEE equality from `Spec/Float.lean`; witness |
| C50 | lifetime trace in Vector/Deque/Unordered models (slot state uninit/live; double construct / destroy is an error outcome) | invariant: error outcome unreachable |
| C51 | Deque model with contract check | witness + exact characterisation |
| C52 | folds of push | induction |
| C53–C54 | `Model/SlotConc.lean` with two counters and both ends | invariant of push-only / pop-only executions (`Proof/DequeConc*`) |
| C55 | `Model/UnorderedConc.lean` | a walk started after the insertion returned cannot miss the entry (`finds_run`) |
| C56 | same | from every reachable state a finishing continuation is constructed (`Proof/UProg*`: measure per thread, lock holders first) |
| C57 | `Model/UnorderedBulk.lean`: `for_each_index` over the range, one thread per index | instance of C38/C39/C56 |
| C58 | `Model/Counter32.lean`: the counter as `BitVec 32` next to the unbounded one | bisimulation under the bound; witness beyond |
| C59 | `Model/MemoryConc.lean`: threads of `allocate`/`deallocate`, one step per critical section | inductive invariant; witness for racing double deallocation |
| C60 | `Model/SlotAccess.lean`: the accesses to `_data` each step performs | lock/bit ownership from the invariant of C18–C26 |
| C61 | `Model/UnorderedAccess.lean` | lock ownership from the invariants of C38/C39; witnesses |
| C62 | `Model/Unordered.lean` `valid` on arbitrary states | soundness of each check, no reachability assumed |
| C63 | `Model/Fence.lean`: per-thread instruction lists whose accesses commute unless a fence or the same location orders them | happens-before argument over all reorderings and interleavings; witnesses for release/acquire |
| C64 | `Model/UnorderedConc.lean`; specification `Spec/ULinear.lean` | linearization points; lookups and failed calls that are decided by a later step get theirs from the future of the execution (`Proof/ULin*`) |
| C65 | `Model/Objects.lean`: create/destroy functions of all containers over the memory model of C41; specification of the owned blocks `Spec/Objects.lean` | invariant: heap = blocks of the existing containers + initial heap (`Proof/Objects*`); counterexample for destroying an unordered container twice |
| C66 | `Model/UniqueObject.lean`: unique_ptr with its deleter, over `Model/Objects`; specification `Spec/UniqueObject.lean` (who owns what) | refinement of the ownership specification, counting owners and destructor calls |
| C67 | `Model/AtomicOps.lean` over `Model/Atomic.lean`; specification `Spec/AtomicOps.lean` | lifting the order of the primitives (C07) to the calls; overflow of the recomputed result for signed types |
| C68 | `Model/SlotConc.lean`, `Model/Vector.lean`, `Model/Deque.lean`; infinite schedules `Spec/Fair.lean` | a measure of the steps left of the running operation (`Proof/WaitFree.lean`), which no other thread can increase while all operations are of one kind; counterexample for mixed kinds by an infinite round-robin schedule |
| C69 | `Model/UnorderedConc.lean`; infinite schedules `Spec/Fair.lean` | infinite executions (`Proof/UFair.lean`): after the last call has started or returned no step changes the table except for locks; then every retry recomputes the same entries; for inserts all locks become free (`Proof/UFairIns.lean`), for erases the locks become free one after the other from the bucket along the chain (`Proof/UFairEra.lean`, `UFairEra2.lean`); counterexamples without fairness and for mixed calls |
| C70 | `Model/SlotConc.lean`, `Model/Vector.lean`, `Model/Deque.lean`; specification `Spec/SLinear.lean` (history, real-time order, sequential bounded sequence) | a linearization is built along the execution: a push/pop takes effect when it obtains its place in the sequence; in the deque a call that has obtained its size ticket but not its end is put between the placed ones and the failed ones (`Proof/SlotLin.lean`, `SlotVals.lean`, `VectorLin.lean`, `DequeLin.lean`); counterexamples for mixtures by evaluation of all orders of five results |
| C71 | `Model/SlotConc.lean`, `Model/Deque.lean`; specification `Spec/QLinear.lean` (queue whose pops may fail spuriously) | invariant on the tickets of pushes and pops (`Proof/QueueCnt.lean`): ticket k of either kind always belongs to ring slot k; a push takes effect when it obtains its slot and then also the pop waiting for this slot; a pop takes effect when it obtains its slot if the element is already assigned (`Proof/OneLin.lean`, `QueueLin.lean`, `QueueRun.lean`) |
| C72 | `Model/Execution.lean` (election loop, wavefronts as lockstep machines whose divergent lanes are chosen by an adversary), `Model/WaveUnordered.lean`; `Spec/Execution.lean` | the loop enumerates the bits of the mask (`Proof/Election.lean`); invariant of a wavefront (`Proof/Waves.lean`); simulation: a wavefront behaves as one thread that executes the operations of its lanes one after another (`Proof/WaveFrame.lean`, `WaveU.lean`, `WaveRun.lean`), then C69; counterexample without election |
| C73 | `Model/Execution.lean`, `Model/WaveSlots.lean`; `Spec/Execution.lean` | simulation: every step of a wavefront is a step of one lane as a thread of `Model/SlotConc.lean`, or none (`Proof/WaveS.lean`, `WaveSRun.lean`), so C18–C20, C53, C54 carry over; own-step bound from C68 plus a count of the steps of the election loop; deadlock of pushing and popping wavefronts by an invariant preserved by every step |
| C74 | `Model/Index32.lean`: every store to `_occupied_count`, `_offsets` and the free list's `_size` wrapped to 32 bits; `sizes32` | range invariant from the structural invariants of C38/C39/C75 and an own counter invariant of the free list (`Proof/Index32.lean`), so wrapping changes nothing; sizes from C37 and Bernoulli's inequality; witness for the capacity limit |
| C75 | `Model/UnorderedConc.lean`; `Separated` in `Spec/UnorderedConc.lean` | own invariant for mixed operations when chains have at most one excess entry (`Proof/UMix*.lean`: locks, links, every excess entry is in exactly one place), lookups get a linearization point from the history of the walk (`Proof/UMixLin2.lean`), `Proof/ULinTimes.lean` turns time points into an order; room accounting `UMixRoom*.lean`; final representation `UMixFin.lean`. The mixed phase is also a constructor of `PReachable`, so that C38, C39, C55, C56, C64, C69 and C74 hold after it |
| C76 | `Model/Algorithm32.lean`: the loops of C45 with sizes and indices converted to 32 bits; raw memory algorithms with constructor and destructor counts | below 2^31 the conversions are the identity (reduction to C45), above: computation of the conversion; loop invariants for the raw memory algorithms |
| C77 | `Model/InsertCopy.lean`: one program per thread, any distribution of the indices | from C18/C22, C53/C26, C38: the values of the finished operations are a permutation of the sequence |
| C78 | `Model/UnorderedConc.lean`, setting of C75 | from the invariant of C75: some unfinished operation can be run to its end alone, or after the lock holder it waits for (`Proof/UMixProg*.lean`); the livelock is a periodic schedule: a round leads back to the same predicate |
| C79 | `Model/UnorderedConc.lean`; the three settings of the invariants of C34/C35/C75 | a rank of the lookup (number of entries that may follow on its path) that every step of its thread decreases and no step of another thread increases (`Proof/UFindBound*.lean`), the induction over the schedule is generic |
| C80 | `Model/UnorderedConc.lean`; arbitrary programs and keys, `ub` false | unique-owner invariant (`Proof/UAny*.lean`): every entry lock has one owner, every excess slot is free, linked or owned by one thread, per-thread tokens for constructed-but-not-counted values; balances are sums over the threads. No chain invariant (it is false here, C40) is used |
| C81 | `Model/Packed.lean`, `Model/PackedUnordered.lean`: the step functions of `Model/SlotConc.lean` and `Model/UnorderedConc.lean` on the words of `Model/Bitset.lean` / `Model/Mutex.lean` | lock-step simulation (`Proof/Packed.lean`, `Proof/PackedUnordered.lean`): every bit access stays inside the words because every position a thread holds is below the number of entries; reading a bit gives the flag and writing one leaves all others. So C18–C26, C38–C40, C64, C68–C71, C75, C78–C80, stated with booleans, hold for the words |
| C82 | `Model/Range32.lean`: the range operations of `Model/Vector.lean` and `Model/UnorderedBulk.lean` with the conversion of the length to `index_t`; overflow is a fault | equality with the unbounded model for short ranges, then C17/C57; explicit result for long ranges |
| C83 | `Model/ParLoops.lean`: the loop bodies as lists of single accesses (`Model/Algorithm.lean`), on the packed words of `Model/Packed*.lean` | invariants over the program counters of all threads of a loop (`Proof/ParLoops*.lean`); for the collection of positions a ghost list of the threads in the order of their increments |
| C84 | `Model/Contracts.lean`: the conditions of `STDGPU_EXPECTS`/`STDGPU_ENSURES`, place by place, as functions of the states of the other models | positions of all program counters stay inside the table and the counter is the number of occupied entries plus the entries under construction (`Proof/Contracts.lean`, on top of the invariant of C80 for arbitrary programs); the managers of the memory API have no pointer twice and consistent counters (`Proof/Contracts2.lean`) |
| C85 | `Model/LoadFactor.lean`: rounding of integers and of quotients to `float` (24 bits, ties to even); overflow and subnormal numbers are not modelled | the bucket count is a power of two (C37), so that the division is exact and only the conversion of the size rounds; error and monotonicity of the conversion |
| C86 | `Model/Objects.lean` as for C65; the backend may refuse every allocation (only OpenMP continues then, CUDA and HIP end the program; in builds with contract checks the second refusal ends it, C84); elements have no destructor | invariant over the history as for C65, with the refused blocks left out; the loops of creation take their lengths from the registry of sizes, which never contains null; `device_unique_object` variables (`Model/UniqueObject.lean`) over such a backend as for C66 |
| C87 | `Model/Locations.lean`: the shared variables that a step accesses, `Spec/Addresses.lean`: their bytes in the blocks of C65 | proved footprints: a step depends on and changes only the listed variables; invariant that all positions in registers, in the free list and in the calls on it are inside the table (`Proof/Locations.lean`); the blocks of existing containers are disjoint (C65) |
| C88 | `Model/Limits.lean`: the specialisations with the constants of `<climits>` and `<cfloat>` for a platform with parameters; `Spec/Limits.lean`: values as bit patterns, floating point numbers as m * 2^e | arithmetic on powers of two; bounds of `BitVec.toInt` and `toNat` |
| C89 | `Model/StoreBuffer.lean`, `Model/EarlyReads.lean`: threads with buffers on top of the steps of `Model/SlotConc.lean` and `Model/UnorderedConc.lean`, every step classified as atomic, plain read or plain write; fences from `Model/Fence.lean` | simulation: a thread with pending writes is represented by the state before its first pending write, which is scheduled when the write reaches the memory; writes commute because all pending writes of a thread are separated from its next atomic operation by a fence. Early reads (`Model/EarlyReads.lean`, vector and deque): the thread holds the lock of the slot since its last atomic operation, so the element has not changed since its last fence |
| C90 | `Model/SlotConc.lean`, `Model/Vector.lean`, `Model/Deque.lean`; `Spec/RandomSched.lean`: fraction of the sequences of choices | from every reachable state all operations can be finished within B steps (the proof of C21 with a count), so each block of B choices fails with probability at most 1 - n^-B; unordered containers: what every fair schedule reaches, a random scheduler reaches with probability 1 (`Proof/RandomFair.lean`: otherwise a fair schedule that never finishes can be built), applied to C69; insertions, erasures and lookups at once with separated keys: the proof of C78 with a count of the steps (`Proof/UBnd*.lean`) |
| C91 | `Model/Objects.lean`, `Model/Memory.lean` (a handle is a value; `clear()` for elements with a destructor not included, see C50) | the invariant of C65: the registries list exactly the live blocks, so freeing an address that is not live is refused |
| C92 | `Model/Vector.lean`, `Model/Deque.lean` (host operations), `Model/SlotConc.lean` (kernels); histories in `Spec/Histories.lean` | induction over the history: the representation relations of C16/C23 are kept by host operations (refinement) and by kernels (C22/C26 without failed operations). The failure-free restriction is needed, see the counterexamples of C22 and C26; C40_phases_partial is the analogue for the unordered containers |
| C93 | `Model/Unordered.lean` (host operations), `Model/UnorderedConc.lean` (kernels); histories and the map with positions in `Spec/UHistories.lean` | induction over the history; host operations: which entry they write (frame lemmas) on top of the refinement of C29; kernels: the linearizations of C64 and C75, whose operations are in program order. That elements stay at every moment: the map of the linearization up to that moment contains them |
| C94 | `Model/SlotConc.lean`, `Model/UnorderedConc.lean`; calls that are going on: `Spec/LiveSize.lean` | an account of the counter: every call changes it once, and a call that has changed it succeeds (unordered) or may fail at the boundary (vector, deque); summed over the threads, by induction over the schedule |
| C95 | `Model/SlotConc.lean`, `Model/Vector.lean`, `Model/Deque.lean`; calls in the programs: `Spec/Stable.lean` | an invariant over the schedule: the counters (for a deque: begin and end before the reduction modulo the capacity) have moved at most by the calls that have got their position; so the slots of all operations are disjoint from the slot of the element; unordered containers: the ownership invariant of C80 (an erasure that owns an entry has seen its key there) |
| C96 | `Model/SlotConc.lean`, `Model/Vector.lean`, `Model/Deque.lean`; calls of one thread: `Spec/ProgramOrder.lean` | consecutive calls of a thread do not overlap in time, so every linearization of C70 and C71 contains them in this order (sorted sublists); the contents are then computed from the linearization |
| C97 | `Model/Unordered.lean`, `Model/UnorderedConc.lean`; the bag: `Spec/Lawless.lean` | the representation invariant and the invariants of the concurrent phases hold without laws (uniqueness is only claimed for elements of one bucket that match in both directions) |
| C98 | `Model/LoopFree.lean`: `count_visits`, one step per access; `Model/Unordered.lean` for the checks that only read; `Spec/LoopFree.lean`, `Spec/Valid.lean` | invariant: the flags are the sum of the entries counted by each thread, and a thread that goes on has met no entry twice; pigeonhole for the bound |
| C99 | `Model/BitCast.lean`: the loop over the bytes, filling an arbitrary object; `Spec/BitCast.lean`: what C++ says about trivially copyable types, and the integers in every byte order | induction on the number of bytes |
| C100 | `Model/Bytes64.lean`: the functions of `Model/Memory.lean` with multiplication of 64-bit integers, where overflow is a fault; `Spec/Bytes64.lean` | invariant: all registered sizes are 64-bit integers; refinement of the unbounded model call by call |

## Which parts of the code are modelled

| file (under `src/stdgpu`) | modelled in | not modelled |
|---|---|---|
| `impl/bit_detail.h` | `Model/Bit` | `bit_cast` beyond identity of bits |
| `impl/atomic_detail.cuh`, `*/impl/atomic.cuh` | `Model/Atomic`, `Model/AtomicOps`, `Model/Fence`, create/destroy `Model/Objects` | the intrinsics themselves |
| `impl/bitset_detail.cuh` | `Model/Bitset`, `BitsetConc`, `ParLoops` | kernel launch |
| `impl/mutex_detail.cuh` | `Model/Mutex` | |
| `impl/vector_detail.cuh` | `Model/Vector`, `SlotConc`, `Packed`, `ParLoops`, `SlotAccess`, `Counter32`, `Range32`, `Lifetime` | `device_range` apart from its contents |
| `impl/deque_detail.cuh` | `Model/Deque`, `SlotConc`, `Packed`, `ParLoops`, `SlotAccess`, `Counter32`, `Lifetime` | |
| `impl/queue_detail.cuh`, `impl/stack_detail.cuh` | `Model/QueueStack` | |
| `impl/unordered_base_detail.cuh`, `unordered_map/set_detail.cuh` | `Model/Unordered`, `UnorderedConc`, `LoopFree`, `PackedUnordered`, `ParLoops`, `UnorderedBulk`, `UnorderedAccess`, `Sizes`, `SizesRounded`, `LoadFactor`, `Index32`, `Range32`, `FibHash`, `Lifetime` | limits of the `long double` exponent; capacities above `2^p` for `p` significant bits |
| `impl/memory.cpp`, `impl/memory_detail.h` | `Model/Memory`, `MemoryConc` | leak report at exit (its text) |
| `impl/algorithm_detail.h`, `impl/numeric_detail.h` | `Model/Algorithm`, `Model/Algorithm32` | Thrust itself |
| `impl/functional_detail.h` | `Model/Hash` | the operators themselves (`plus`, `equal_to`, …) |
| `impl/iterator_detail.h` | `Model/Lifetime`, `Model/InsertCopy` (insert iterators), `Model/Memory` (`size`) | |
| `impl/ranges_detail.h` | `Model/Ranges` | thrust::transform_iterator itself |
| `execution` (`warp_convergent_execute`) | `Model/Execution.lean`, `Model/WaveUnordered.lean`, `Model/WaveSlots.lean` | how the hardware reconverges lanes (assumed at the call and at the ends of `if` and loop) |
| `contract.h` and its uses | `Model/Contracts` | `clamp` (its check is the hypothesis of `C47_clamp`) |
| `limits.h`, `impl/limits_detail.h` | `Model/Limits` | the constants of `<climits>` and `<cfloat>` (taken from the C standard) |
| `utility`, `type_traits`, `compiler`, `platform` | – | |

## Defects of the code found by the proofs (each has a theorem)

1. deque: racing operations at the full/empty boundary leave an invalid deque or an operation that cannot return; after racing pushes and one pop `full()` holds with a free slot, `device_range()` names it and `clear()` destroys an object that does not exist (C26).
2. vector: the same with the counter out of range (C22); `clear()` then returns early.
3. deque `at`: the debug check uses the raw index (C51, C84).
4. unordered: insert and erase at the same time can store a key twice or miss a stored key, and can link a chain to a
   wrong entry: later lookups read outside the table or never return (C40, C64).
5. unordered: insertion fails while entries are free when the excess list is empty (C33); racing inserts can drive the excess
   list's counter below zero, after which `valid()` is false and entries are lost (C38).
6. bucket count computed in single precision (C37).
7. `hash<float>`/`hash<double>` distinguish the two zeros (C48).
8. memory: negative sizes accepted, null registered after a failed allocation (C41, C43); racing deallocations of one block
   free it twice (C59).
9. vector `erase` past the end leaves an invalid vector (C17).
10. `pop_back`/`pop_front` copy `_data[0]` without the lock and possibly raw (C60).
11. OpenMP atomics of different kinds do not exclude each other (C07).
12. size counters are 32-bit (C58).
13. lookups and erasures can read an object another erasure has destroyed (C39), and race on `_offsets` (C61).
14. `memory_order_release` stores and `memory_order_acquire` loads put the fence on the wrong side (C63).
15. `unordered_base::destroyDeviceObject` keeps dangling pointers, a second call can free other memory (C65).
16. `++`, `--`, `+=`, `-=` of signed atomics recompute the result with an addition that may overflow (C67).
17. Pushes and pops at the same time on a vector can livelock under a fair schedule (C68).
18. bitset `all()`/`none()` on size 0, deque `device_range` order after wrapping: see C10–C12 and C24.
19. Pushes and pops at the same time on a vector or deque are not linearizable, even without reaching a boundary; used as a queue a pop can report "empty" while an element stays inside (C70).
20. A thread stopped while holding a lock blocks inserts of other threads forever (C69).
21. HIP election: a wavefront that pushes and a wavefront that pops can deadlock each other on a vector or a deque used as a queue, although no capacity limit is reached (C73).
22. With `STDGPU_USE_32_BIT_INDEX` a capacity above 2^30 + 64 gives a bucket count of 2^31, negative as `index_t` (C74).
23. With the default 32 bit `index_t`, `fill`, `copy` and `iota` of 2^31 or more elements silently process too few elements (often none), and `fill_n`/`copy_n` with a 64 bit size access memory before the range (C76); the raw memory algorithms, which use 64 bit, are right.
24. An insertion and an erasure of keys of different buckets can livelock under a fair schedule: `pop_back` and `push_back` of the list of unused excess entries get the same slot (C78).
25. With the default 32 bit `index_t`, `vector::insert` of a range of 2^31 to 2^32 - 1 elements reduces the size instead of refusing (elements lost, `valid()` false), a range of 2^32 + k elements inserts its first k, and a new size of 2^31 or more overflows before the capacity check; the range operations of the unordered containers ignore all or all but the first k elements (C82).
26. Contract checks of debug builds: the second failed allocation of a type of memory ends the program (null is registered already); `div_up` overflows for bitset sizes in (2^31 - w, 2^31) with `STDGPU_USE_32_BIT_INDEX` (C84).
27. `max_load_factor()` is no upper bound of `load_factor()`: a full container is always above it (C85).
28. Running out of memory during createDeviceObject is silent: the container returned looks valid and empty, and using it writes to address 0 + i (C86).
29. On a container without memory (default-constructed or destroyed), which counts as empty and valid, `pop_back` / `pop_front` read `_data[0]` through the null pointer before they check for emptiness, and `find`, `contains`, `count` and `erase` of the unordered containers read the occupied bit and the offset of bucket 0 through the null pointer (C87).
30. `numeric_limits<const T>` (and of every type without a specialisation) compiles and returns 0 for `max()`; the standard one agrees with that of `T` (C88).
31. A stale copy of a container handle (made before the container was destroyed through another handle) frees the memory of whatever container got the same addresses (C91_counterexample_reused); the registries recognise addresses only.
32. On a full deque (or stack) a concurrent `push_back` and `pop_back` can make the pop return the front (bottom) element instead of the last one, and the new element ends up at the front; both report success and `valid()` is true (C95_counterexample_full_deque).
33. A queue whose slots are reused does not keep the order of a single producer towards a single consumer: with eight threads on two slots a thread pops the later element of a producer first (C96_counterexample_queue_wrap).
34. A NaN in an `unordered_set<float>` cannot be erased, is stored any number of times and makes `valid()` return false (C97_counterexample_nan); nothing else breaks (C97).
35. `allocate`, `createHostArray`, `createDeviceArray` and `copyCreate...Array` do not compare the number of elements with `max_size()`: `n * sizeof(T)` overflows (C100_counterexample_overflow).

## Tools

* `tools/gen_props.py`, `tools/gen_manifest.py` generate `properties.jsonl` and `MANIFEST.json`; `tools/gen_axioms.sh` writes
  `AXIOMS.md` (the axioms of every property theorem); `Verif/Audit.lean` checks the axioms during the build.
* `tools/mutate.py` applies seeded bugs to a scratch copy of the model and rebuilds; `tools/gen_log.py` turns its results into
  `seeded/LOG.jsonl`.
