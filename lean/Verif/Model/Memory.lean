import Verif.Model.Vector
/-
Model of the memory API: src/stdgpu/impl/memory.cpp (memory_manager, detail::allocate/deallocate/memcpy,
register_memory, …), the safe allocators and the array functions of impl/memory_detail.h, and `size(T*)` of
impl/iterator_detail.h.

Addresses are natural numbers, 0 is the null pointer; there is one address space for host and device memory (as with
unified virtual addressing, and in the OpenMP backend, where both are `std::malloc`). The backend's allocator is part of
the model: `heap` are its live blocks. It may fail or return any block that overlaps no live one; its choice is an
argument of the operations (`addr`). Freeing an address that is no live block, and copying outside the live blocks or
between overlapping ranges is undefined behaviour (`Fault.ub`). (The CUDA and HIP backends terminate the program when the
backend's allocation fails, so only OpenMP continues then.)

Simplifications: `index64_t` is an unbounded integer, so the multiplication `n * sizeof(T)` cannot overflow (Model/Bytes64.lean does without this). The
functions here are executed by one host thread; the interleavings of several host threads: Model/MemoryConc.lean. A value of type
`T` is given by its `sizeof(T)` bytes; constructors and destructors have no effect outside them. printf messages are not
modelled.
-/
namespace Stdgpu.Memory
open Stdgpu.Vector (Fault)

/-- `dynamic_memory_type` (memory.h:317-322). -/
inductive MemType where
  | device | host | invalid
  deriving DecidableEq

/-- `memory_manager` (impl/memory.cpp:36-120). The `std::map` is a list of pairs. -/
structure Mgr where
  ptrs : List (Nat × Int)
  ins : Int               -- `_number_insertions`
  era : Int               -- `_number_erasures`
  deriving DecidableEq

namespace Mgr

/-- impl/memory.cpp:122-135 `register_memory`; `_pointers[pointer] = size` replaces an old entry. -/
def register (m : Mgr) (p : Nat) (size : Int) : Mgr :=
  { ptrs := (p, size) :: m.ptrs.filter (fun e => e.1 != p), ins := m.ins + 1, era := m.era }

/-- impl/memory.cpp:137-150 `deregister_memory`. -/
def deregister (m : Mgr) (p : Nat) : Mgr :=
  { ptrs := m.ptrs.filter (fun e => e.1 != p), ins := m.ins, era := m.era + 1 }

/-- impl/memory.cpp:152-158 `contains_memory`. -/
def contains (m : Mgr) (p : Nat) : Bool := m.ptrs.any (fun e => e.1 == p)

/-- impl/memory.cpp:160-181 `contains_submemory`: the loop goes over the entries with key less than `pointer + size`;
whether one of them satisfies the condition does not depend on the order. -/
def containsSub (m : Mgr) (p : Nat) (size : Int) : Bool :=
  m.ptrs.any (fun e => decide ((e.1 : Int) < p + size) && (decide (e.1 ≤ p) && decide ((p : Int) + size ≤ e.1 + e.2)))

/-- impl/memory.cpp:183-191 `find_size`. -/
def findSize (m : Mgr) (p : Nat) : Int := match m.ptrs.find? (fun e => e.1 == p) with | some e => e.2 | none => 0

/-- impl/memory.cpp:193-199 `size`. -/
def size (m : Mgr) : Int := m.ptrs.length

/-- impl/memory.cpp:217-223 `valid`. -/
def valid (m : Mgr) : Bool := m.ins - m.era == size m

end Mgr

/-- A live block of the backend's allocator. `malloc_device`, `malloc_host` (e.g. openmp/impl/memory.cpp:23-33). -/
structure Block where
  addr : Nat
  bytes : Int
  ty : MemType
  deriving DecidableEq

/-- The managers of impl/memory.cpp:225-250 and 375-400, the backend's allocator and the memory. `failed` counts the
failed backend allocations (a ghost variable, the code does not have it). -/
structure Sys where
  alloc : MemType → Mgr
  sizes : MemType → Mgr
  heap : List Block
  mem : Nat → BitVec 8
  failed : MemType → Nat

/-- impl/memory.cpp:36-120: a new `memory_manager`. -/
def Mgr.init : Mgr := ⟨[], 0, 0⟩

/-- impl/memory.cpp:224-249, 374-403: no memory has been allocated yet. -/
def init (mem : Nat → BitVec 8) : Sys := ⟨fun _ => Mgr.init, fun _ => Mgr.init, [], mem, fun _ => 0⟩

/-- impl/memory.cpp:224-249, 374-403: one of the managers is changed. -/
def setMgr (f : MemType → Mgr) (ty : MemType) (m : Mgr) : MemType → Mgr := fun t => if t = ty then m else f t

/-- The backend can place a block of this size at this address. `std::malloc` (e.g. openmp/impl/memory.cpp:23-33). -/
def fresh (heap : List Block) (addr : Nat) (bytes : Int) : Bool :=
  addr != 0 && heap.all (fun b => decide ((addr : Int) + bytes ≤ b.addr) || decide ((b.addr : Int) + b.bytes ≤ addr))

/-- `malloc_device`, `malloc_host` (e.g. openmp/impl/memory.cpp:23-33). -/
def backendMalloc (s : Sys) (bytes : Int) (ty : MemType) (addr : Nat) : Nat × Sys :=
  if fresh s.heap addr bytes then (addr, { s with heap := ⟨addr, bytes, ty⟩ :: s.heap })
  else (0, { s with failed := fun t => if t = ty then s.failed t + 1 else s.failed t })

/-- `free_device`, `free_host` (e.g. openmp/impl/memory.cpp:35-45). -/
def backendFree (s : Sys) (p : Nat) (ty : MemType) : Except Fault Sys :=
  if s.heap.any (fun b => b.addr == p && b.ty == ty) then
    .ok { s with heap := s.heap.filter (fun b => !(b.addr == p && b.ty == ty)) }
  else .error .ub

/-- impl/memory.cpp:252-288 `detail::allocate`. -/
def allocate (s : Sys) (bytes : Int) (ty : MemType) (addr : Nat) : Nat × Sys :=
  if bytes ≤ 0 then (0, s)
  else if ty = .invalid then (0, s)
  else
    let (array, s1) := backendMalloc s bytes ty addr
    (array, { s1 with alloc := setMgr s1.alloc ty ((s1.alloc ty).register array bytes) })

/-- impl/memory.cpp:290-328 `detail::deallocate`. -/
def deallocate (s : Sys) (p : Nat) (ty : MemType) : Except Fault Sys :=
  if p = 0 then .ok s
  else if !(s.alloc ty).contains p then .ok s
  else
    let s1 : Sys := { s with alloc := setMgr s.alloc ty ((s.alloc ty).deregister p) }
    if ty = .invalid then .ok s1 else backendFree s1 p ty

/-- impl/memory.cpp:420-440 `register_memory`. -/
def registerMemory (s : Sys) (p : Nat) (n : Int) (ty : MemType) : Sys :=
  if p = 0 then s
  else if n ≤ 0 then s
  else if (s.sizes ty).contains p then s
  else { s with sizes := setMgr s.sizes ty ((s.sizes ty).register p n) }

/-- impl/memory.cpp:442-452 `deregister_memory`. -/
def deregisterMemory (s : Sys) (p : Nat) (ty : MemType) : Sys :=
  if !(s.sizes ty).contains p then s
  else { s with sizes := setMgr s.sizes ty ((s.sizes ty).deregister p) }

/-- impl/memory.cpp:404-418 `get_dynamic_memory_type`. -/
def dynamicMemoryType (s : Sys) (p : Nat) : MemType :=
  if (s.sizes .device).contains p then .device
  else if (s.sizes .host).contains p then .host
  else .invalid

/-- impl/memory.cpp:454-464 `get_allocation_count`, `get_deallocation_count`. -/
def allocationCount (s : Sys) (ty : MemType) : Int := (s.alloc ty).ins
/-- impl/memory.cpp:459-464 `get_deallocation_count`. -/
def deallocationCount (s : Sys) (ty : MemType) : Int := (s.alloc ty).era

/-- impl/memory.cpp:466-480 `size_bytes`. -/
def sizeBytes (s : Sys) (p : Nat) : Int := (s.sizes (dynamicMemoryType s p)).findSize p

/-- impl/iterator_detail.h:42-56 `size(T*)`, `esz` is `sizeof(T)`. -/
def arraySize (s : Sys) (p : Nat) (esz : Nat) : Int :=
  let bytes := sizeBytes s p
  if bytes % esz ≠ 0 then 0 else bytes / esz

/-- impl/iterator_detail.h:59-140 `host_begin`, `device_begin` and their const variants. -/
def arrayBegin (p : Nat) : Int := p

/-- impl/iterator_detail.h:66-140 `host_end`, `device_end` and their const variants: pointer arithmetic on `T*`. -/
def arrayEnd (s : Sys) (p : Nat) (esz : Nat) : Int := p + arraySize s p esz * esz

/-- The bytes `[p, p + bytes)` lie inside one live block of the type. No code: the requirement of the copy functions of
the backend (e.g. openmp/impl/memory.cpp:47-69). -/
def covers (heap : List Block) (ty : MemType) (p : Nat) (bytes : Int) : Bool :=
  heap.any (fun b => b.ty == ty && decide (b.addr ≤ p) && decide ((p : Int) + bytes ≤ b.addr + b.bytes))

/-- The backend's copy functions (e.g. openmp/impl/memory.cpp:47-69). -/
def backendCopy (s : Sys) (dst src : Nat) (bytes : Int) : Except Fault Sys :=
  if bytes < 0 then .error .ub                                 -- converted to a huge `std::size_t`
  else if 0 < bytes ∧ (dst : Int) < src + bytes ∧ (src : Int) < dst + bytes then .error .ub      -- overlap
  else .ok { s with mem := fun a => if dst ≤ a ∧ (a : Int) < dst + bytes then s.mem (src + (a - dst)) else s.mem a }

/-- impl/memory.cpp:330-373 `detail::memcpy`; `none` as second component means that the copy was refused. Copies of
external memory (`MemoryCopy::NO_CHECK`) touch memory outside the model's heap, so no fault is reported for their
ranges. -/
def memcpy (s : Sys) (dst src : Nat) (bytes : Int) (dty sty : MemType) (external : Bool) : Except Fault (Bool × Sys) :=
  if !external && !(s.alloc dty).containsSub dst bytes then .ok (false, s)
  else if !external && !(s.alloc sty).containsSub src bytes then .ok (false, s)
  else if dty = .invalid ∨ sty = .invalid then .ok (false, s)
  else if !external && !(covers s.heap dty dst bytes && covers s.heap sty src bytes) then .error .ub
  else do let s' ← backendCopy s dst src bytes; return (true, s')

/-! ### Safe allocators and arrays; `esz` is `sizeof(T)` -/

/-- impl/memory_detail.h:493-501, 520-528 `safe_device_allocator::allocate`, `safe_host_allocator::allocate`. -/
def safeAllocate (s : Sys) (n : Int) (esz : Nat) (ty : MemType) (addr : Nat) : Nat × Sys :=
  let (p, s1) := allocate s (n * esz) ty addr
  (p, registerMemory s1 p (n * esz) ty)

/-- impl/memory_detail.h:503-512, 530-539 `safe_device_allocator::deallocate`, `safe_host_allocator::deallocate`. -/
def safeDeallocate (s : Sys) (p : Nat) (ty : MemType) : Except Fault Sys := deallocate (deregisterMemory s p ty) p ty

/-- impl/memory_detail.h:111-115 `uninitialized_fill_functor::operator()`: writes the bytes `enc v` of the value. -/
def constructElem (ty : MemType) (p esz : Nat) (v : Nat → BitVec 8) (s : Sys) (i : Nat) : Except Fault Sys :=
  if covers s.heap ty (p + i * esz) esz then
    .ok { s with mem := fun a => if p + i * esz ≤ a ∧ a < p + i * esz + esz then v (a - (p + i * esz)) else s.mem a }
  else .error .ub

/-- impl/memory_detail.h:566-581 `allocate_filled`; `ord` is the order of the parallel loop. -/
def allocateFilled (ord : Nat → List Nat) (s : Sys) (n : Int) (esz : Nat) (v : Nat → BitVec 8) (ty : MemType) (addr : Nat) :
    Except Fault (Nat × Sys) := do
  let (p, s1) := safeAllocate s n esz ty addr
  if p ≠ 0 then
    let s2 ← (ord (arraySize s1 p esz).toNat).foldlM (constructElem ty p esz v) s1
    return (p, s2)
  else return (p, s1)

/-- impl/memory_detail.h:205-223 `createHostArray`. -/
def createHostArray (ord : Nat → List Nat) (s : Sys) (n : Int) (esz : Nat) (v : Nat → BitVec 8) (addr : Nat) :
    Except Fault (Nat × Sys) := allocateFilled ord s n esz v .host addr

/-- impl/memory_detail.h:252-264 `destroyHostArray`, 583-597 `deallocate_filled`: the destructors, if any, run on the
elements; the caller's pointer is set to null. -/
def destroyHostArray (s : Sys) (p : Nat) : Except Fault (Nat × Sys) := do
  let s1 ← safeDeallocate s p .host
  return (0, s1)

/-- impl/memory_detail.h:346-416 `copyDevice2HostArray` and the other three, by memory types. -/
def copyArray (s : Sys) (src : Nat) (n : Int) (esz : Nat) (dst : Nat) (dty sty : MemType) (check : Bool) :
    Except Fault (Bool × Sys) := memcpy s dst src (n * esz) dty sty (!check)

/-- impl/memory_detail.h:266-344 `copyCreateDevice2HostArray` and the other three. -/
def copyCreateArray (s : Sys) (src : Nat) (n : Int) (esz : Nat) (dty sty : MemType) (check : Bool) (addr : Nat) :
    Except Fault (Nat × Sys) := do
  let (p, s1) := safeAllocate s n esz dty addr
  if p = 0 then return (0, s1)
  else
    let (_, s2) ← copyArray s1 src n esz p dty sty check
    return (p, s2)

/-- impl/memory_detail.h:175-203 `createDeviceArray`, compiled by a device compiler. -/
def createDeviceArray (ord : Nat → List Nat) (s : Sys) (n : Int) (esz : Nat) (v : Nat → BitVec 8) (addr : Nat) :
    Except Fault (Nat × Sys) := allocateFilled ord s n esz v .device addr

/-- impl/memory_detail.h:194-200 `createDeviceArray`, compiled by a host compiler. -/
def createDeviceArrayViaHost (ord : Nat → List Nat) (s : Sys) (n : Int) (esz : Nat) (v : Nat → BitVec 8) (addr1 addr2 : Nat) :
    Except Fault (Nat × Sys) := do
  let (h, s1) ← createHostArray ord s n esz v addr1
  let (d, s2) ← copyCreateArray s1 h n esz .device .host true addr2
  let (_, s3) ← destroyHostArray s2 h
  return (d, s3)

/-- impl/memory_detail.h:225-250 `destroyDeviceArray`, compiled by a device compiler, or for trivially destructible
types. -/
def destroyDeviceArray (s : Sys) (p : Nat) : Except Fault (Nat × Sys) := do
  let s1 ← safeDeallocate s p .device
  return (0, s1)

/-- impl/memory_detail.h:225-250 `destroyDeviceArray`, compiled by a host compiler, for a type with a destructor: the
elements are copied to the host and destroyed there. -/
def destroyDeviceArrayViaHost (s : Sys) (p : Nat) (esz : Nat) (addr : Nat) : Except Fault (Nat × Sys) := do
  let (h, s1) ← copyCreateArray s p (arraySize s p esz) esz .host .device true addr
  let (_, s2) ← destroyHostArray s1 h
  let s3 ← safeDeallocate s2 p .device
  return (0, s3)

/-! ### Histories -/

/-- Calls of the API with arbitrary, also erroneous arguments. impl/memory.cpp:252-480, impl/memory_detail.h:175-420,
493-536. -/
inductive AOp where
  | allocate (ty : MemType) (n : Int) (esz : Nat) (addr : Nat)           -- safe_{device,host}_allocator
  | deallocate (ty : MemType) (p : Nat)
  | register (p : Nat) (n : Int) (ty : MemType)
  | deregister (p : Nat) (ty : MemType)
  | createHost (n : Int) (esz : Nat) (v : Nat → BitVec 8) (addr : Nat)
  | createDevice (n : Int) (esz : Nat) (v : Nat → BitVec 8) (addr : Nat)
  | createDeviceViaHost (n : Int) (esz : Nat) (v : Nat → BitVec 8) (addr1 addr2 : Nat)
  | copyCreate (src : Nat) (n : Int) (esz : Nat) (dty sty : MemType) (addr : Nat)        -- with RANGE_CHECK
  | destroyHost (p : Nat)
  | destroyDevice (p : Nat)
  | destroyDeviceViaHost (p : Nat) (esz : Nat) (addr : Nat)

/-- One call; the result is the returned pointer, 0 for calls without one. impl/memory.cpp:252-480,
impl/memory_detail.h:175-420, 493-536. -/
def exec (ord : Nat → List Nat) (s : Sys) : AOp → Except Fault (Nat × Sys)
  | .allocate ty n esz addr => .ok (safeAllocate s n esz ty addr)
  | .deallocate ty p => do let s' ← safeDeallocate s p ty; return (0, s')
  | .register p n ty => .ok (0, registerMemory s p n ty)
  | .deregister p ty => .ok (0, deregisterMemory s p ty)
  | .createHost n esz v addr => createHostArray ord s n esz v addr
  | .createDevice n esz v addr => createDeviceArray ord s n esz v addr
  | .createDeviceViaHost n esz v a b => createDeviceArrayViaHost ord s n esz v a b
  | .copyCreate src n esz dty sty addr => copyCreateArray s src n esz dty sty true addr
  | .destroyHost p => destroyHostArray s p
  | .destroyDevice p => destroyDeviceArray s p
  | .destroyDeviceViaHost p esz addr => destroyDeviceArrayViaHost s p esz addr

/-- Calls of impl/memory.cpp:252-480, impl/memory_detail.h:175-420, 493-536 one after another. -/
def execAll (ords : Nat → Nat → List Nat) (s : Sys) : List AOp → Except Fault (List Nat × Sys)
  | [] => .ok ([], s)
  | op :: ops => do
    let (r, s1) ← exec (ords 0) s op
    let (rs, s2) ← execAll (fun k => ords (k + 1)) s1 ops
    return (r :: rs, s2)

end Stdgpu.Memory
