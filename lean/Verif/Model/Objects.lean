import Verif.Model.Memory
import Verif.Model.Bitset
import Verif.Model.Sizes
/-!
Model of `createDeviceObject` / `destroyDeviceObject` of the containers at the level of memory: which blocks are allocated,
initialised and freed, and which pointers the handle holds. A handle is a plain value (copying a container copies the
pointers). All containers use the default allocator `safe_device_allocator`; queue and stack are the container they wrap
(queue_detail.cuh:22-39, stack_detail.cuh:22-39), `unordered_map` and `unordered_set` are `unordered_base`
(unordered_map_detail.cuh:399-438).

Not modelled here: `clear()`, which the destroy functions call first for element types with a destructor
(C50, Model/Lifetime); it does not allocate or free. The order in which a compiler evaluates the arguments of the
constructor call in createDeviceObject is unspecified; left to right here.
-/
namespace Stdgpu.Objects
open Stdgpu.Memory
open Stdgpu.Vector (Fault)

/-- The environment: order of parallel loops, the address the backend chooses for a new block (it may depend on the
whole state), `sizeof(index_t)` and the bytes that `vector_clear_iota` writes. No code: `thrust::for_each`
(impl/algorithm_detail.h:59-62), the allocator of the backend (impl/memory.cpp:252-288). -/
structure Env where
  ord : Nat → List Nat
  pick : Sys → Int → Nat
  isz : Nat
  iota : Nat → BitVec 8

/-- `allocator_traits::allocate` (impl/memory_detail.h:540-546) with a `safe_device_allocator`. -/
def alloc (E : Env) (s : Sys) (n esz : Nat) : Nat × Sys := safeAllocate s n esz .device (E.pick s ((n : Int) * esz))

/-- `allocator_traits::allocate_filled` (impl/memory_detail.h:566-581) with the value 0. -/
def allocZero (E : Env) (s : Sys) (n esz : Nat) : Except Fault (Nat × Sys) :=
  allocateFilled E.ord s n esz (fun _ => 0) .device (E.pick s ((n : Int) * esz))

/-- atomic.cuh: `atomic`. atomic.cuh:459-460, 775. -/
structure AtomicObj where
  value : Nat

/-- impl/atomic_detail.cuh:139-152; `atomic<int>` and `atomic<unsigned int>` hold 4 bytes. -/
def createAtomic (E : Env) (s : Sys) : Except Fault (AtomicObj × Sys) := do
  let (p, s1) ← allocZero E s 1 4
  return (⟨p⟩, s1)

/-- impl/atomic_detail.cuh:161-172. -/
def destroyAtomic (s : Sys) (o : AtomicObj) : Except Fault (AtomicObj × Sys) := do
  let s1 ← safeDeallocate s o.value .device
  return (⟨0⟩, s1)

/-- bitset.cuh: `bitset`. bitset.cuh:409-413. -/
structure BitsetObj where
  bits : Nat
  size : Nat

/-- impl/bitset_detail.cuh:190-204; the blocks are `unsigned int`. -/
def createBitset (E : Env) (s : Sys) (size : Nat) : Except Fault (BitsetObj × Sys) := do
  let (p, s1) ← allocZero E s (Bitset.numberBitBlocks 32 size) 4
  return (⟨p, size⟩, s1)

/-- impl/bitset_detail.cuh:213-225. -/
def destroyBitset (s : Sys) (o : BitsetObj) : Except Fault (BitsetObj × Sys) := do
  let s1 ← safeDeallocate s o.bits .device
  return (⟨0, 0⟩, s1)

/-- mutex.cuh: `mutex_array`. mutex.cuh:209. -/
structure MutexObj where
  bits : BitsetObj

/-- impl/mutex_detail.cuh:62-74. -/
def createMutex (E : Env) (s : Sys) (size : Nat) : Except Fault (MutexObj × Sys) := do
  let (b, s1) ← createBitset E s size
  return (⟨b⟩, s1)

/-- impl/mutex_detail.cuh:83-91. -/
def destroyMutex (s : Sys) (o : MutexObj) : Except Fault (MutexObj × Sys) := do
  let (b, s1) ← destroyBitset s o.bits
  return (⟨b⟩, s1)

/-- vector.cuh: `vector`. vector.cuh:587-591. -/
structure VectorObj where
  locks : MutexObj
  occupied : BitsetObj
  size : AtomicObj
  data : Nat

/-- impl/vector_detail.cuh:39-62. -/
def createVector (E : Env) (s : Sys) (n esz : Nat) : Except Fault (VectorObj × Sys) := do
  let (l, s1) ← createMutex E s n
  let (o, s2) ← createBitset E s1 n
  let (z, s3) ← createAtomic E s2
  let (d, s4) := alloc E s3 n esz
  return (⟨l, o, z, d⟩, s4)

/-- impl/vector_detail.cuh:71-93. -/
def destroyVector (s : Sys) (v : VectorObj) : Except Fault (VectorObj × Sys) := do
  let s1 ← safeDeallocate s v.data .device
  let (l, s2) ← destroyMutex s1 v.locks
  let (o, s3) ← destroyBitset s2 v.occupied
  let (z, s4) ← destroyAtomic s3 v.size
  return (⟨l, o, z, 0⟩, s4)

/-- deque.cuh: `deque`. deque.cuh:430-438. -/
structure DequeObj where
  locks : MutexObj
  occupied : BitsetObj
  size : AtomicObj
  begin_ : AtomicObj
  end_ : AtomicObj
  data : Nat
  rangeIndices : Nat

/-- impl/deque_detail.cuh:38-66. -/
def createDeque (E : Env) (s : Sys) (n esz : Nat) : Except Fault (DequeObj × Sys) := do
  let (l, s1) ← createMutex E s n
  let (o, s2) ← createBitset E s1 n
  let (z, s3) ← createAtomic E s2
  let (b, s4) ← createAtomic E s3
  let (e, s5) ← createAtomic E s4
  let (d, s6) := alloc E s5 n esz
  let (r, s7) := alloc E s6 n E.isz
  return (⟨l, o, z, b, e, d, r⟩, s7)

/-- impl/deque_detail.cuh:76-108. -/
def destroyDeque (s : Sys) (d : DequeObj) : Except Fault (DequeObj × Sys) := do
  let s1 ← safeDeallocate s d.data .device
  let s2 ← safeDeallocate s1 d.rangeIndices .device
  let (l, s3) ← destroyMutex s2 d.locks
  let (o, s4) ← destroyBitset s3 d.occupied
  let (z, s5) ← destroyAtomic s4 d.size
  let (b, s6) ← destroyAtomic s5 d.begin_
  let (e, s7) ← destroyAtomic s6 d.end_
  return (⟨l, o, z, b, e, 0, 0⟩, s7)

/-- impl/unordered_base.cuh: `unordered_base`. impl/unordered_base.cuh:526-554. -/
structure UnorderedObj where
  bucketCount : Nat
  occupied : BitsetObj
  count : AtomicObj
  excess : VectorObj
  locks : MutexObj
  rangeEnd : AtomicObj
  values : Nat
  offsets : Nat
  rangeIndices : Nat

/-- A write of the bytes `f` to the memory at `p`. The loops that initialise new containers, e.g.
impl/vector_detail.cuh:39-62, impl/unordered_base_detail.cuh:1254-1308. -/
def overwrite (s : Sys) (p bytes : Nat) (f : Nat → BitVec 8) : Except Fault Sys :=
  if covers s.heap .device p bytes then
    .ok { s with mem := fun a => if p ≤ a ∧ a < p + bytes then f (a - p) else s.mem a }
  else .error .ub

/-- A write to all elements between `device_begin(p)` and `device_end(p)` (impl/iterator_detail.h:59-140): their number comes
from the registry of sizes, so nothing is written for a null pointer. -/
def overwriteArray (s : Sys) (p esz : Nat) (f : Nat → BitVec 8) : Except Fault Sys :=
  if arraySize s p esz ≤ 0 then .ok s else overwrite s p ((arraySize s p esz).toNat * esz) f

/-- `atomic_ref::store` on the host (impl/atomic_detail.cuh:480-526): nothing happens for a null pointer. -/
def storeAtomic (s : Sys) (p : Nat) (f : Nat → BitVec 8) : Except Fault Sys := if p = 0 then .ok s else overwrite s p 4 f

/-- `detail::vector_clear_iota` (impl/vector_detail.cuh:359-368): `iota` over the data, `bitset::set`
(impl/bitset_detail.cuh:254-263) over the blocks of the occupied bits, and a store to the size. What it writes is modelled by
`Unordered.create`; here the bytes are arbitrary. -/
def clearIota (E : Env) (s : Sys) (v : VectorObj) : Except Fault Sys := do
  let s1 ← overwriteArray s v.data E.isz E.iota
  let s2 ← overwriteArray s1 v.occupied.bits 4 E.iota
  storeAtomic s2 v.size.value E.iota

/-- impl/unordered_base_detail.cuh:1254-1308, with the bucket and excess counts that lines 1263-1274 compute (Model/Sizes). -/
def createUnordered (E : Env) (s : Sys) (bc ec esz : Nat) : Except Fault (UnorderedObj × Sys) := do
  let total := bc + ec
  let (o, s1) ← createBitset E s total
  let (c, s2) ← createAtomic E s1
  let (x, s3) ← createVector E s2 ec E.isz
  let (l, s4) ← createMutex E s3 total
  let (r, s5) ← createAtomic E s4
  let (v, s6) := alloc E s5 total esz
  let (f, s7) ← allocZero E s6 total E.isz
  let (i, s8) := alloc E s7 total E.isz
  let s9 ← clearIota E s8 x
  return (⟨bc, o, c, x, l, r, v, f, i⟩, s9)

/-- impl/unordered_base_detail.cuh:1310-1348. Unlike in the other containers the pointers `_values`, `_offsets` and
`_range_indices` are not set to null. -/
def destroyUnordered (s : Sys) (u : UnorderedObj) : Except Fault (UnorderedObj × Sys) := do
  let s1 ← safeDeallocate s u.values .device
  let s2 ← safeDeallocate s1 u.offsets .device
  let s3 ← safeDeallocate s2 u.rangeIndices .device
  let (o, s4) ← destroyBitset s3 u.occupied
  let (c, s5) ← destroyAtomic s4 u.count
  let (l, s6) ← destroyMutex s5 u.locks
  let (x, s7) ← destroyVector s6 u.excess
  let (r, s8) ← destroyAtomic s7 u.rangeEnd
  return (⟨0, o, c, x, l, r, u.values, u.offsets, u.rangeIndices⟩, s8)

/-- What can be created: the numbers are the capacity (size for `bitset` and `mutex_array`) and the size of an element;
an unordered container is created with its bucket and excess counts. See the functions `create…` above (e.g.
impl/vector_detail.cuh:39-62). -/
inductive Kind where
  | atomic
  | bitset (n : Nat)
  | mutexArray (n : Nat)
  | vector (n esz : Nat)
  | deque (n esz : Nat)
  | unordered (bc ec esz : Nat)
  deriving DecidableEq

/-- A handle of some container. See the structures above (e.g. vector.cuh:587-591). -/
inductive Obj where
  | atomic (o : AtomicObj)
  | bitset (o : BitsetObj)
  | mutexArray (o : MutexObj)
  | vector (o : VectorObj)
  | deque (o : DequeObj)
  | unordered (o : UnorderedObj)

/-- The `createDeviceObject` of the kind. E.g. impl/vector_detail.cuh:39-62; see the functions `create…` above. -/
def create (E : Env) (s : Sys) : Kind → Except Fault (Obj × Sys)
  | .atomic => do let (o, s1) ← createAtomic E s; return (.atomic o, s1)
  | .bitset n => do let (o, s1) ← createBitset E s n; return (.bitset o, s1)
  | .mutexArray n => do let (o, s1) ← createMutex E s n; return (.mutexArray o, s1)
  | .vector n esz => do let (o, s1) ← createVector E s n esz; return (.vector o, s1)
  | .deque n esz => do let (o, s1) ← createDeque E s n esz; return (.deque o, s1)
  | .unordered bc ec esz => do let (o, s1) ← createUnordered E s bc ec esz; return (.unordered o, s1)

/-- The `destroyDeviceObject` of the kind. E.g. impl/vector_detail.cuh:71-93; see the functions `destroy…` above. -/
def destroy (s : Sys) : Obj → Except Fault (Obj × Sys)
  | .atomic o => do let (o, s1) ← destroyAtomic s o; return (.atomic o, s1)
  | .bitset o => do let (o, s1) ← destroyBitset s o; return (.bitset o, s1)
  | .mutexArray o => do let (o, s1) ← destroyMutex s o; return (.mutexArray o, s1)
  | .vector o => do let (o, s1) ← destroyVector s o; return (.vector o, s1)
  | .deque o => do let (o, s1) ← destroyDeque s o; return (.deque o, s1)
  | .unordered o => do let (o, s1) ← destroyUnordered s o; return (.unordered o, s1)

/-- A program creates objects (numbered in the order of creation) and destroys them. E.g. impl/vector_detail.cuh:39-93. -/
inductive Op where
  | create (k : Kind)
  | destroy (i : Nat)
  deriving DecidableEq

/-- One call. E.g. impl/vector_detail.cuh:39-93. -/
def exec (E : Env) (st : List Obj × Sys) : Op → Except Fault (List Obj × Sys)
  | .create k => do let (o, s1) ← create E st.2 k; return (st.1 ++ [o], s1)
  | .destroy i =>
    match st.1[i]? with
    | none => .ok st
    | some o => do let (o', s1) ← destroy st.2 o; return (st.1.set i o', s1)

/-- One call after the other. E.g. impl/vector_detail.cuh:39-93. -/
def execAll (E : Env) (st : List Obj × Sys) (ops : List Op) : Except Fault (List Obj × Sys) := ops.foldlM (exec E) st

end Stdgpu.Objects
