import Verif.Model.UnorderedConc
import Verif.Model.Deque
import Verif.Model.Bitset
import Verif.Model.Memory
import Verif.Model.Counter32
/-
The contract checks `STDGPU_EXPECTS` / `STDGPU_ENSURES` of src/stdgpu (contract.h:71-116). They do nothing in release builds and
end the program in debug builds (CMakeLists.txt:15-21) when the condition is false. A definition here is the conjunction of the conditions that are
evaluated at one place; the operations and steps are those of the other models. `index_t` is an integer without bounds, except
in `divUpPost32`. The check of `clamp` (impl/algorithm_detail.h:46) is the hypothesis of C47 on the bounds.
-/
namespace Stdgpu.Contracts
open Stdgpu.Bit Stdgpu.Bitset

/-! ### Bits (impl/bit_detail.h, impl/bitset_detail.cuh, impl/mutex_detail.cuh) -/

/-- impl/bit_detail.h:52, end of `bit_ceil`. -/
def bitCeilPost {w : Nat} (x : BitVec w) : Bool := bitCeil x == 0 || hasSingleBit (bitCeil x)

/-- impl/bit_detail.h:74, end of `bit_floor` (not reached for 0, lines 62-65). -/
def bitFloorPost {w : Nat} (x : BitVec w) : Bool := x == 0 || hasSingleBit (bitFloor x)

/-- impl/bit_detail.h:83, 87: `bit_mod`. -/
def bitModChecks {w : Nat} (x d : BitVec w) : Bool := hasSingleBit d && decide ((bitMod x d).toNat < d.toNat)

/-- impl/bit_detail.h:108, end of `bit_width`; the comparison is in `T`. -/
def bitWidthPost {w : Nat} (x : BitVec w) : Bool := decide ((bitWidth x).toNat ≤ (BitVec.ofNat w w).toNat)

/-- impl/bit_detail.h:125-126, end of `popcount`. -/
def popcountPost {w : Nat} (x : BitVec w) : Bool := decide (0 ≤ popcount x) && decide (popcount x ≤ w)

/-- impl/bitset_detail.cuh:120-121, 125: `div_up`. -/
def divUpChecks (a b : Nat) : Bool := decide (0 ≤ a) && decide (0 < b) && decide (a ≤ divUp a b * b)

/-- impl/bitset_detail.cuh:125 with a 32 bit `index_t` (`STDGPU_USE_32_BIT_INDEX`): the product is computed with 32 bits. -/
def divUpPost32 (a b : Nat) : Bool := decide ((a : Int) ≤ Counter32.wrap ((divUp a b : Int) * b))

/-- The checks of an access to bit `n` of a bitset with blocks of `w` bits and `size` bits: impl/bitset_detail.cuh:269-270 (`set`),
297-298 (`reset`), 325-326 (`flip`), 335-336 and 349-350 (`operator[]`), impl/mutex_detail.cuh:110-111; then impl/bit_detail.h:83, 87
(`bit_mod`), impl/bitset_detail.cuh:41-42 and 108-109 (the index in the block). -/
def bitAccess (w size : Nat) (n : Int) : Bool :=
  decide (0 ≤ n) && decide (n < size) && bitModChecks (BitVec.ofNat 64 n.toNat) (BitVec.ofNat 64 w) &&
    decide (bitN w n.toNat < w)

/-- impl/bitset_detail.cuh:262, end of `set()`. -/
def setAllPost {w : Nat} (b : Bitset w) : Bool := count (setAll b) == b.size

/-- impl/bitset_detail.cuh:290, end of `reset()`. -/
def resetAllPost {w : Nat} (b : Bitset w) : Bool := count (resetAll b) == 0

/-! ### Vector and deque -/

section
variable {α : Type}
open Stdgpu.SlotConc

/-- impl/vector_detail.cuh:509, 540, impl/deque_detail.cuh:505, 536: the check in `size()` is evaluated when the value has not been
clamped. -/
def sizePost (cap : Nat) (s : Int) : Bool := decide (s < 0) || decide (s > cap) || decide (s ≤ cap)

/-- The checks evaluated by the next access of `push_*` / `pop_*`: in the front end `full()` / `empty()` call `size()`
(impl/vector_detail.cuh:187, 247, impl/deque_detail.cuh:207, 268, 335, 396); in the loop on a slot `_locks[p]`
(impl/mutex_detail.cuh:110-111), `occupied(p)` (impl/vector_detail.cuh:770-771) and `_occupied.set(p)`, `_occupied.reset(p)`
(impl/bitset_detail.cuh:269-270, 297-298) require a position inside the array. `s` is the value of `_size`. -/
def slotChecks {C K F : Type} (w : Nat) (s : C → Int) (m : Mem C α) (t : SlotConc.Thread K F α) : Bool :=
  match t.pc with
  | .front _ => sizePost m.slots.cap (s m.ctr)
  | .slot p .construct | .slot p .take | .slot p (.destroy _) => decide (p < m.slots.cap)
  | .slot p _ => bitAccess w m.slots.cap p

/-- impl/vector_detail.cuh:124-126 `at` (`operator[]`, 138-143, has no checks), with `size()` (509) and `occupied` (770-771, and the bit access). -/
def vgetChecks (w : Nat) (v : Vector.Vec α) (n : Int) : Bool :=
  decide (0 ≤ n) && decide (n < Vector.size v) && sizePost (Vector.cap v) v.ctr && bitAccess w (Vector.cap v) n && v.slots.occ n.toNat

/-- impl/deque_detail.cuh:144-146 `at` (`operator[]`, 159-164, has no checks), with `size()` (505) and the access to the raw bit `n`
(754-758). -/
def dgetChecks (w : Nat) (d : Deque.Deq α) (n : Int) : Bool :=
  decide (0 ≤ n) && decide (n < Deque.size d) && sizePost (Deque.cap d) d.ctr.size && bitAccess w (Deque.cap d) n && d.slots.occ n.toNat

/-- impl/vector_detail.cuh:610-611, end of `clear()` (not reached for an empty container, lines 588-591), with lines 509/540 in
`empty` and `valid`. -/
def vclearPost (ord : List Nat) (v : Vector.Vec α) : Bool :=
  if Vector.empty v then true
  else match Vector.clear ord v with
    | .ok v' => Vector.empty v' && Vector.valid v'
    | .error _ => false

/-- impl/deque_detail.cuh:631-632, end of `clear()`. -/
def dclearPost (ord : Nat → Nat → List Nat) (d : Deque.Deq α) : Bool :=
  if Deque.empty d then true
  else match Deque.clear ord d with
    | .ok d' => Deque.empty d' && Deque.valid d'
    | .error _ => false

end

/-! ### Unordered containers (impl/unordered_base_detail.cuh) -/

section
variable {K V : Type}
open Stdgpu.Unordered Stdgpu.UnorderedConc

/-- impl/unordered_base_detail.cuh:1116-1117, 1129-1130: `size()`. -/
def usizePost (t : Tab V) : Bool := decide (0 ≤ t.count) && decide (t.count ≤ t.total)

/-- impl/unordered_base_detail.cuh:561-562: `bucket_impl` (and 81-82 in `fibonacci_hashing`). -/
def bucketPost (P : Params K V) (t : Tab V) (k : K) : Bool :=
  decide (0 ≤ FibHash.bucket P.hash t.bc k) && decide (FibHash.bucket P.hash t.bc k < t.bc)

/-- `find_impl`: impl/unordered_base_detail.cuh:663-664 and 675-676 (the position after following an offset), `occupied(w)` 1072-1073
with the bit access. -/
def walkChecks (w : Nat) (t : Tab V) : Walk → Bool
  | .occ p => bitAccess w t.total p
  | .val p => decide (p < t.total)
  | .off1 p => decide (p < t.total)
  | .off2 p => decide (0 ≤ (p : Int) + t.off p) && decide ((p : Int) + t.off p < t.total)

/-- impl/unordered_base_detail.cuh:573-592, `bucket_size`: `occupied(key_index)` (1072-1073 and the bit access) for every position of
the loop. The argument `fuel` bounds the number of rounds, `false` when it is used up. -/
def bucketLoopChecks (w : Nat) (t : Tab V) : Nat → Int → Bool
  | 0, _ => false
  | fuel + 1, p => bitAccess w t.total p && (t.off p.toNat == 0 || bucketLoopChecks w t fuel (p + t.off p.toNat))

/-- impl/unordered_base_detail.cuh:570 `bucket_size` (a negative `n` passes this check), then the loop. -/
def bucketSizeChecks (w : Nat) (t : Tab V) (n : Int) : Bool := decide (n < t.bc) && bucketLoopChecks w t (t.total + 1) n

/-- `find_linked_list_end`, `find_previous_entry_position` (impl/unordered_base_detail.cuh:915-956) contain no checks; stated here:
they stay inside the table. -/
def hopChecks (t : Tab V) : Hop → Bool
  | .off1 p => decide (p < t.total)
  | .off2 p => decide (p < t.total) && decide (0 ≤ (p : Int) + t.off p) && decide ((p : Int) + t.off p < t.total)

/-- impl/unordered_base_detail.cuh:967-994 `insert`, 708-809 `try_insert`: `full()` calls `size()`, `_excess_list_positions.empty()`
calls `size()` of the free list, `bucket`, the lookups, `occupied`, the locks, the bit set at the end; plain accesses to
`_values` and `_offsets` are required to be inside the table. -/
def insChecks (w : Nat) (P : Params K V) (t : Tab V) (v : V) (b : Nat) (ex : Ex) : IPC → Bool
  | .full => usizePost t
  | .exc => sizePost (Vector.cap t.excess) t.excess.ctr && bucketPost P t (P.keyOf v)
  | .c1 x | .c2 x | .c3 _ _ x => walkChecks w t x
  | .occ1 | .occ2 | .lockB | .setB => bitAccess w t.total b
  | .consB => decide (b < t.total)
  | .cntB => true
  | .e1 x | .e2 _ x => hopChecks t x
  | .lockE e => bitAccess w t.total e
  | .pop _ => slotChecks w id t.excess ex
  | .cons _ n | .off _ n => decide (n < t.total)
  | .cnt _ _ => true
  | .set _ n => bitAccess w t.total n
  | .link e _ => decide (e < t.total)
  | .unlock p _ => bitAccess w t.total p

/-- impl/unordered_base_detail.cuh:1019-1043 `erase`, 811-913 `try_erase`. -/
def eraChecks (w : Nat) (t : Tab V) (ex : Ex) : EPC → Bool
  | .f1 x | .f2 _ x | .f3 _ _ x => walkChecks w t x
  | .lockB p | .resetB p | .unlockB p _ | .lock1 p _ | .undo1 p | .reset p _ | .unlock1 p _ _ => bitAccess w t.total p
  | .lock2 _ q | .unlock2 q _ => bitAccess w t.total q
  | .cntB _ | .cnt _ _ => true
  | .desB p | .des p _ => decide (p < t.total)
  | .p1 _ x | .p2 _ _ _ x => hopChecks t x
  | .rd1 p _ | .rd2 p _ => decide (p < t.total)
  | .rd3 _ q _ | .wr _ q _ | .zero _ q => decide (q < t.total)
  | .push _ _ => slotChecks w id t.excess ex

/-- The checks evaluated by the next step of a thread (`UnorderedConc.step`). impl/unordered_base_detail.cuh:547-593,
655-682, 708-1076; contract.h:71-116. -/
def uChecks (w : Nat) (P : Params K V) (m : Shared V) (t : UnorderedConc.Thread K V) : Bool :=
  match t.cur with
  | .idle =>
    match t.todo with
    | .erase k :: _ | .find k :: _ => bucketPost P m.tab k
    | _ => true
  | .ins v pc => insChecks w P m.tab v (bucket P m.tab (P.keyOf v)) t.ex pc
  | .era _ pc => eraChecks w m.tab t.ex pc
  | .fnd _ x => walkChecks w m.tab x

/-- impl/unordered_base_detail.cuh:1262, 37-38, 45, impl/vector_detail.cuh:45, impl/unordered_base_detail.cuh:1305: the checks of
`createDeviceObject` with the computed sizes `bc`, `ec` (`Model/Sizes.lean`); `full()` calls `size()`. -/
def createChecks (capacity bc ec : Nat) : Bool :=
  decide (0 < capacity) && decide (0 < bc) && decide (0 < ec) && Vector.full (Unordered.create (V := V) bc ec).excess &&
    sizePost (Vector.cap (Unordered.create (V := V) bc ec).excess) (Unordered.create (V := V) bc ec).excess.ctr

end

/-! ### Memory (impl/memory.cpp) -/

open Stdgpu.Memory

/-- impl/memory.cpp:127-128, 133-134: `memory_manager::register_memory`. -/
def registerChecks (m : Mgr) (p : Nat) (size : Int) : Bool :=
  !m.contains p && m.valid && (m.register p size).contains p && (m.register p size).valid

/-- impl/memory.cpp:142-143, 148-149: `memory_manager::deregister_memory`. -/
def deregisterChecks (m : Mgr) (p : Nat) : Bool :=
  m.contains p && m.valid && !(m.deregister p).contains p && (m.deregister p).valid

/-- impl/memory.cpp:252-288 `detail::allocate` calls `register_memory` with the result of the backend. -/
def allocateChecks (s : Sys) (bytes : Int) (ty : MemType) (addr : Nat) : Bool :=
  if bytes ≤ 0 then true
  else if ty = .invalid then true
  else
    let (array, s1) := backendMalloc s bytes ty addr
    registerChecks (s1.alloc ty) array bytes

/-- impl/memory.cpp:290-328 `detail::deallocate`. -/
def deallocateChecks (s : Sys) (p : Nat) (ty : MemType) : Bool :=
  if p = 0 then true
  else if !(s.alloc ty).contains p then true
  else deregisterChecks (s.alloc ty) p

/-- impl/memory.cpp:420-440 `detail::register_memory` calls `register_memory` of the size registry. -/
def registerMemoryChecks (s : Sys) (p : Nat) (n : Int) (ty : MemType) : Bool :=
  if p = 0 then true
  else if n ≤ 0 then true
  else if (s.sizes ty).contains p then true
  else registerChecks (s.sizes ty) p n

/-- impl/memory.cpp:442-452 `detail::deregister_memory`. -/
def deregisterMemoryChecks (s : Sys) (p : Nat) (ty : MemType) : Bool :=
  if !(s.sizes ty).contains p then true else deregisterChecks (s.sizes ty) p

/-- impl/memory_detail.h:493-501, 520-528: all checks of a call of `allocate` of the safe allocators. -/
def safeAllocateChecks (s : Sys) (n : Int) (esz : Nat) (ty : MemType) (addr : Nat) : Bool :=
  allocateChecks s (n * esz) ty addr &&
    registerMemoryChecks (allocate s (n * esz) ty addr).2 (allocate s (n * esz) ty addr).1 (n * esz) ty

/-- impl/memory_detail.h:503-512, 530-539: all checks of a call of `deallocate` of the safe allocators. -/
def safeDeallocateChecks (s : Sys) (p : Nat) (ty : MemType) : Bool :=
  deregisterMemoryChecks s p ty && deallocateChecks (deregisterMemory s p ty) p ty

end Stdgpu.Contracts
