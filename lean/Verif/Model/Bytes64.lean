import Verif.Model.Memory
/-
The computation of numbers of bytes in `index64_t` (impl/memory_detail.h:346-416, 493-539, 565-597, 614-620, 768-793): `Model/Memory.lean`
computes with unbounded integers; here the product `n * static_cast<index64_t>(sizeof(T))` is a product of signed 64-bit integers, and
undefined behaviour if it overflows.
-/
namespace Stdgpu.Bytes64
open Stdgpu.Memory
open Stdgpu.Vector (Fault)

/-- `n * static_cast<index64_t>(sizeof(T))`, for example impl/memory_detail.h:498. `sizeof(T)` is assumed to be an `index64_t`. -/
def mul64 (n : Int) (esz : Nat) : Except Fault Int :=
  if -2 ^ 63 ≤ n * esz ∧ n * esz < 2 ^ 63 then .ok (n * esz) else .error .ub

/-- impl/memory_detail.h:614-620 `allocator_traits::max_size`: `numeric_limits<index_type>::max()` is converted to the unsigned type of
`sizeof`, and the quotient back to `index64_t`. -/
def maxSize (esz : Nat) : Int := (BitVec.ofNat 64 (2 ^ 63 - 1) / BitVec.ofNat 64 esz).toInt

/-- impl/memory_detail.h:493-501, 520-528 `allocate`, with 768-777 `register_memory`. -/
def safeAllocate64 (s : Sys) (n : Int) (esz : Nat) (ty : MemType) (addr : Nat) : Except Fault (Nat × Sys) := do
  let b ← mul64 n esz
  let (p, s1) := allocate s b ty addr
  let b' ← mul64 n esz
  return (p, registerMemory s1 p b' ty)

/-- impl/memory_detail.h:503-512, 530-539 `deallocate`, with 783-793 `deregister_memory`. -/
def safeDeallocate64 (s : Sys) (p : Nat) (n : Int) (esz : Nat) (ty : MemType) : Except Fault Sys := do
  let _ ← mul64 n esz
  let s1 := deregisterMemory s p ty
  let _ ← mul64 n esz
  deallocate s1 p ty

/-- impl/memory_detail.h:566-581 `allocate_filled`. -/
def allocateFilled64 (ord : Nat → List Nat) (s : Sys) (n : Int) (esz : Nat) (v : Nat → BitVec 8) (ty : MemType) (addr : Nat) :
    Except Fault (Nat × Sys) := do
  let (p, s1) ← safeAllocate64 s n esz ty addr
  if p ≠ 0 then
    let s2 ← (ord (arraySize s1 p esz).toNat).foldlM (constructElem ty p esz v) s1
    return (p, s2)
  else return (p, s1)

/-- impl/memory_detail.h:252-264 `destroyHostArray`, 225-250 `destroyDeviceArray` (for a device compiler): `size(array)` elements. -/
def destroyArray64 (s : Sys) (p : Nat) (esz : Nat) (ty : MemType) : Except Fault (Nat × Sys) := do
  let s1 ← safeDeallocate64 s p (arraySize s p esz) esz ty
  return (0, s1)

/-- impl/memory_detail.h:346-416 `copyDevice2HostArray` and the other three. -/
def copyArray64 (s : Sys) (src : Nat) (n : Int) (esz : Nat) (dst : Nat) (dty sty : MemType) (check : Bool) :
    Except Fault (Bool × Sys) := do
  let b ← mul64 n esz
  memcpy s dst src b dty sty (!check)

/-- impl/memory_detail.h:266-344 `copyCreateDevice2HostArray` and the other three. -/
def copyCreateArray64 (s : Sys) (src : Nat) (n : Int) (esz : Nat) (dty sty : MemType) (check : Bool) (addr : Nat) :
    Except Fault (Nat × Sys) := do
  let (p, s1) ← safeAllocate64 s n esz dty addr
  if p = 0 then return (0, s1)
  else
    let (_, s2) ← copyArray64 s1 src n esz p dty sty check
    return (p, s2)

/-- impl/memory_detail.h:194-200 `createDeviceArray`, compiled by a host compiler. -/
def createDeviceArrayViaHost64 (ord : Nat → List Nat) (s : Sys) (n : Int) (esz : Nat) (v : Nat → BitVec 8) (addr1 addr2 : Nat) :
    Except Fault (Nat × Sys) := do
  let (h, s1) ← allocateFilled64 ord s n esz v .host addr1
  let (d, s2) ← copyCreateArray64 s1 h n esz .device .host true addr2
  let (_, s3) ← destroyArray64 s2 h esz .host
  return (d, s3)

/-- impl/memory_detail.h:225-250 `destroyDeviceArray`, compiled by a host compiler, for a type with a destructor. -/
def destroyDeviceArrayViaHost64 (s : Sys) (p : Nat) (esz : Nat) (addr : Nat) : Except Fault (Nat × Sys) := do
  let (h, s1) ← copyCreateArray64 s p (arraySize s p esz) esz .host .device true addr
  let (_, s2) ← destroyArray64 s1 h esz .host
  let s3 ← safeDeallocate64 s2 p (arraySize s2 p esz) esz .device
  return (0, s3)

/-- A call of `Model/Memory.lean`'s `AOp` with the arguments that do not matter there: the number of elements `n` that the caller of
`deallocate` gives, and the element size of `deallocate`, `destroyHostArray` and `destroyDeviceArray`. impl/memory_detail.h:175-420, 493-536. -/
structure Call where
  op : AOp
  n : Int
  esz : Nat

/-- One call. impl/memory.cpp:252-480, impl/memory_detail.h:175-420, 493-536. -/
def exec64 (ord : Nat → List Nat) (s : Sys) (c : Call) : Except Fault (Nat × Sys) :=
  match c.op with
  | .allocate ty n esz addr => safeAllocate64 s n esz ty addr
  | .deallocate ty p => do let s' ← safeDeallocate64 s p c.n c.esz ty; return (0, s')
  | .register p n ty => .ok (0, registerMemory s p n ty)
  | .deregister p ty => .ok (0, deregisterMemory s p ty)
  | .createHost n esz v addr => allocateFilled64 ord s n esz v .host addr
  | .createDevice n esz v addr => allocateFilled64 ord s n esz v .device addr
  | .createDeviceViaHost n esz v a b => createDeviceArrayViaHost64 ord s n esz v a b
  | .copyCreate src n esz dty sty addr => copyCreateArray64 s src n esz dty sty true addr
  | .destroyHost p => destroyArray64 s p c.esz .host
  | .destroyDevice p => destroyArray64 s p c.esz .device
  | .destroyDeviceViaHost p esz addr => destroyDeviceArrayViaHost64 s p esz addr

/-- Calls one after another. impl/memory.cpp:252-480, impl/memory_detail.h:175-420, 493-536. -/
def execAll64 (ords : Nat → Nat → List Nat) (s : Sys) : List Call → Except Fault (List Nat × Sys)
  | [] => .ok ([], s)
  | c :: cs => do
    let (r, s1) ← exec64 (ords 0) s c
    let (rs, s2) ← execAll64 (fun k => ords (k + 1)) s1 cs
    return (r :: rs, s2)

end Stdgpu.Bytes64
