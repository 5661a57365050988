import Verif.Model.Conc
import Verif.Model.SlotConc
/-
Memory orders of `atomic` and `atomic_ref` (impl/atomic_detail.cuh). The library implements an order by full fences
before and after a relaxed access; this file models which fences are issued, and executions in which a thread's accesses
may be performed out of order.

Weak memory: the accesses of a thread may be reordered as long as no fence is between them and they access different
locations; the reordered accesses of all threads are interleaved. (Stores become visible to all other threads at the same
time; dependencies between the accesses of a thread are not considered to order them. Both CUDA and the C++ memory model
allow more in some respects; an execution of this model is one that a full fence between the accesses would exclude.)
-/
namespace Stdgpu.Fence
open Stdgpu.SlotConc (upd)

/-- atomic.cuh `memory_order`. atomic.cuh:46-54. -/
inductive Order where
  | relaxed | consume | acquire | release | acqRel | seqCst
  deriving DecidableEq

/-- impl/atomic_detail.cuh:33-55 `atomic_load_thread_fence`: is a fence issued? -/
def loadFence : Order → Bool
  | .consume | .acquire | .acqRel | .seqCst => true
  | .relaxed | .release => false

/-- impl/atomic_detail.cuh:57-78 `atomic_store_thread_fence`. -/
def storeFence : Order → Bool
  | .release | .acqRel | .seqCst => true
  | .relaxed | .consume | .acquire => false

/-- impl/atomic_detail.cuh:80-100 `atomic_consistency_thread_fence`. -/
def consistencyFence : Order → Bool
  | .seqCst => true
  | .relaxed | .consume | .acquire | .release | .acqRel => false

/-- Accesses to memory: `read` and `rmw` have an identifier under which the value they obtain is logged.
impl/atomic_detail.cuh:433-702. -/
inductive Instr (V : Type) where
  | read (id x : Nat) | write (x : Nat) (v : V) | rmw (id x : Nat) (f : V → V) | fence

variable {V : Type}

/-- impl/atomic_detail.cuh:33-100 (`atomic_thread_fence`). -/
def fenceIf (b : Bool) : List (Instr V) := if b then [.fence] else []

/-- impl/atomic_detail.cuh:433-455 `load`. -/
def loadI (o : Order) (id x : Nat) : List (Instr V) :=
  fenceIf (loadFence o) ++ [.read id x] ++ fenceIf (consistencyFence o)

/-- impl/atomic_detail.cuh:486-506 `store`. -/
def storeI (o : Order) (x : Nat) (v : V) : List (Instr V) :=
  fenceIf (consistencyFence o) ++ [.write x v] ++ fenceIf (storeFence o)

/-- impl/atomic_detail.cuh:538-702 `exchange`, `compare_exchange_strong`, `fetch_add`, …: all have this shape. -/
def rmwI (o : Order) (id x : Nat) (f : V → V) : List (Instr V) :=
  fenceIf (loadFence o) ++ [.rmw id x f] ++ fenceIf (storeFence o)

/-- Memory semantics of the device, no code of the library; the fences are those of impl/atomic_detail.cuh:33-100. -/
def Instr.loc : Instr V → Option Nat
  | .read _ x | .write x _ | .rmw _ x _ => some x
  | .fence => none

/-- Two accesses of a thread that may be swapped. Memory semantics of the device, no code of the library; the fences
are those of impl/atomic_detail.cuh:33-100. -/
def Independent (a b : Instr V) : Prop := ∃ x y, a.loc = some x ∧ b.loc = some y ∧ x ≠ y

/-- `l'` is an order in which a thread with the program `l` may perform its accesses. Memory semantics of the device,
no code of the library; the fences are those of impl/atomic_detail.cuh:33-100. -/
inductive Reorder (l : List (Instr V)) : List (Instr V) → Prop
  | refl : Reorder l l
  | swap {p q : List (Instr V)} {a b : Instr V} (h : Reorder l (p ++ a :: b :: q)) (hi : Independent a b) :
      Reorder l (p ++ b :: a :: q)

/-- Effect of an access on memory. Memory semantics of the device, no code of the library; the fences are those of
impl/atomic_detail.cuh:33-100. -/
def apply (m : Nat → V) : Instr V → Nat → V
  | .read _ _ | .fence => m
  | .write x v => upd m x v
  | .rmw _ x f => upd m x (f (m x))

/-- What an access obtains. Memory semantics of the device, no code of the library; the fences are those of
impl/atomic_detail.cuh:33-100. -/
def obtained (m : Nat → V) : Instr V → List (Nat × V)
  | .read id x | .rmw id x _ => [(id, m x)]
  | .write _ _ | .fence => []

/-- Memory semantics of the device, no code of the library; the fences are those of impl/atomic_detail.cuh:33-100. -/
structure Thread (V : Type) where
  rest : List (Instr V)
  log : List (Nat × V)

/-- The next access of a thread. Memory semantics of the device, no code of the library; the fences are those of
impl/atomic_detail.cuh:33-100. -/
def step (m : Nat → V) (t : Thread V) : (Nat → V) × Thread V :=
  match t.rest with
  | [] => (m, t)
  | c :: r => (apply m c, { rest := r, log := t.log ++ obtained m c })

/-- Memory semantics of the device, no code of the library; the fences are those of impl/atomic_detail.cuh:33-100. -/
def init (m : Nat → V) (progs : List (List (Instr V))) : Conc.Sys (Nat → V) (Thread V) :=
  { shared := m, threads := progs.map (fun p => { rest := p, log := [] }) }

/-- The states that threads with the given programs can reach. Memory semantics of the device, no code of the library;
the fences are those of impl/atomic_detail.cuh:33-100. -/
def Weak (m : Nat → V) (progs : List (List (Instr V))) (s : Conc.Sys (Nat → V) (Thread V)) : Prop :=
  ∃ (progs' : List (List (Instr V))) (sched : List Nat), progs'.length = progs.length ∧
    (∀ (j : Nat) (p p' : List (Instr V)), progs[j]? = some p → progs'[j]? = some p' → Reorder p p') ∧
    s = Conc.run step (init m progs') sched

end Stdgpu.Fence
