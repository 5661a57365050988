import Verif.Model.Memory
import Verif.Model.Conc
/-
Model of allocation and deallocation by several host threads at the same time: `safe_device_allocator` and
`safe_host_allocator` (impl/memory_detail.h:487-541), `detail::allocate`, `detail::deallocate`, `register_memory` and
`deregister_memory` (impl/memory.cpp). Every member function of `memory_manager` holds the manager's mutex
(impl/memory.cpp:122-223), so a call of it is one step; every call of the backend is one step. Between the steps of a
thread other threads may run: in particular the check `contains_memory` and the following `deregister_memory` are two
steps.

`bytes` is `n * sizeof(T)`. The address that the backend's allocator chooses is an argument of the operation, as in
`Model/Memory.lean` (an address that is not free makes the allocation fail).

The field `owned` is a ghost variable: the blocks that have been returned by `allocate` and for which no `deallocate` has
been called yet. `misuse` records that `deallocate` has been called for a pointer that is not null and is not owned, for
instance because another thread has called `deallocate` for it before. `ub` is undefined behaviour of the backend:
freeing an address that is no live block.
-/
namespace Stdgpu.MemoryConc
open Stdgpu.Memory Stdgpu.Conc

/-- impl/memory_detail.h:493-536: `allocate`, `deallocate` of the allocators. -/
inductive Op where
  | alloc (ty : MemType) (bytes : Int) (addr : Nat)
  | free (ty : MemType) (p : Nat)
  deriving DecidableEq

/-- Program points inside the calls; `n` is the size of the block in bytes (for `free` a ghost variable).
impl/memory.cpp:252-328. -/
inductive PC where
  | idle
  | allocReg (ty : MemType) (n : Int) (p : Nat)     -- before impl/memory.cpp:285 `register_memory`
  | sizeChk (ty : MemType) (n : Int) (p : Nat)      -- before impl/memory.cpp:434 `contains_memory`
  | sizeReg (ty : MemType) (n : Int) (p : Nat)      -- before impl/memory.cpp:439 `register_memory`
  | deChk (ty : MemType) (n : Int) (p : Nat)        -- before impl/memory.cpp:446 `contains_memory`
  | deReg (ty : MemType) (n : Int) (p : Nat)        -- before impl/memory.cpp:451 `deregister_memory`
  | freeChk (ty : MemType) (n : Int) (p : Nat)      -- before impl/memory.cpp:298 `contains_memory`
  | freeReg (ty : MemType) (n : Int) (p : Nat)      -- before impl/memory.cpp:305 `deregister_memory`
  | free (ty : MemType) (n : Int) (p : Nat)         -- before impl/memory.cpp:307-327 `free_device` / `free_host`
  deriving DecidableEq

/-- impl/memory.cpp:224-249, 374-403 (the managers) and, as ghost variables, which blocks the program owns and whether
it has freed one it does not own. -/
structure Shared where
  sys : Memory.Sys
  owned : List Block
  misuse : Bool
  ub : Bool

/-- A thread executes its list of operations; `done` are the returned pointers (0 for `free`). A caller of
impl/memory_detail.h:493-536. -/
structure Thread where
  todo : List Op
  pc : PC
  done : List (Op × Nat)

/-- The current operation returns `r`. Return from impl/memory.cpp:252-328. -/
def ret (t : Thread) (r : Nat) : Thread :=
  match t.todo with
  | [] => { t with pc := .idle }
  | op :: rest => { todo := rest, pc := .idle, done := t.done ++ [(op, r)] }

/-- impl/memory.cpp:224-249: the manager of allocations of this type is changed. -/
def setAlloc (m : Shared) (ty : MemType) (g : Mgr) : Shared :=
  { m with sys := { m.sys with alloc := setMgr m.sys.alloc ty g } }

/-- impl/memory.cpp:374-403: the manager of sizes of this type is changed. -/
def setSizes (m : Shared) (ty : MemType) (g : Mgr) : Shared :=
  { m with sys := { m.sys with sizes := setMgr m.sys.sizes ty g } }

/-- One step of a thread: `allocate` is impl/memory_detail.h:493-501, 520-528 with impl/memory.cpp:252-288 and 420-440;
`free` is impl/memory_detail.h:503-512, 530-539 with impl/memory.cpp:442-452 and 290-328. -/
def step (m : Shared) (t : Thread) : Shared × Thread :=
  match t.pc with
  | .idle =>
    match t.todo with
    | [] => (m, t)
    | .alloc ty bytes addr :: _ =>
      if bytes ≤ 0 then (m, ret t 0)
      else if ty = .invalid then (m, ret t 0)
      else
        let (p, s) := backendMalloc m.sys bytes ty addr
        ({ m with sys := s }, { t with pc := .allocReg ty bytes p })
    | .free ty p :: _ =>
      match m.owned.find? (fun b => b.addr == p && b.ty == ty) with
      | some b => ({ m with owned := m.owned.erase b }, { t with pc := .deChk ty b.bytes p })
      | none => ({ m with misuse := m.misuse || p != 0 }, { t with pc := .deChk ty 0 p })
  | .allocReg ty n p =>
    (setAlloc m ty ((m.sys.alloc ty).register p n), if p = 0 then ret t 0 else { t with pc := .sizeChk ty n p })
  | .sizeChk ty n p =>
    if (m.sys.sizes ty).contains p then ({ m with owned := ⟨p, n, ty⟩ :: m.owned }, ret t p)
    else (m, { t with pc := .sizeReg ty n p })
  | .sizeReg ty n p =>
    ({ setSizes m ty ((m.sys.sizes ty).register p n) with owned := ⟨p, n, ty⟩ :: m.owned }, ret t p)
  | .deChk ty n p => (m, { t with pc := if (m.sys.sizes ty).contains p then .deReg ty n p else .freeChk ty n p })
  | .deReg ty n p => (setSizes m ty ((m.sys.sizes ty).deregister p), { t with pc := .freeChk ty n p })
  | .freeChk ty n p =>
    if p = 0 then (m, ret t 0)
    else if (m.sys.alloc ty).contains p then (m, { t with pc := .freeReg ty n p })
    else (m, ret t 0)
  | .freeReg ty n p => (setAlloc m ty ((m.sys.alloc ty).deregister p), { t with pc := .free ty n p })
  | .free ty _ p =>
    if ty = .invalid then (m, ret t 0)
    else
      match backendFree m.sys p ty with
      | .ok s => ({ m with sys := s }, ret t 0)
      | .error _ => ({ m with ub := true }, ret t 0)

/-- The threads start when no memory is allocated. No code: any number of callers of impl/memory_detail.h:493-536. -/
def init (mem : Nat → BitVec 8) (programs : List (List Op)) : Conc.Sys Shared Thread :=
  { shared := ⟨Memory.init mem, [], false, false⟩, threads := programs.map (fun p => ⟨p, .idle, []⟩) }

end Stdgpu.MemoryConc
