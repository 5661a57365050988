import Verif.Model.StoreBuffer
/-
Plain reads that are executed ahead of time, on top of the machine with store buffers (Model/StoreBuffer.lean). A plain read
may obtain what the memory held at any time since the last fence of its thread (and always sees the thread's own buffered
writes). The library issues a fence after each atomic operation whose memory order asks for it (impl/atomic_detail.cuh:57-100
and 433-702, `Model/Fence.lean`); the containers use the default order `memory_order_seq_cst` everywhere.

Simplifications: the fence before an atomic operation is not used to restrict the reads that follow it, and a read may ignore a
write of its own thread to the same location that has already left the buffer; both allow more executions than a real machine.
The ghost flags for undefined behaviour are evaluated in the current memory.
-/
namespace Stdgpu.StoreBuffer
open Stdgpu.Conc

/-- What happens next: an event of the machine with store buffers, or thread `i` executes a plain read that obtains
what the memory held at the moment number `k` since its last fence. No code of the library: memory semantics of the
device; fences: impl/atomic_detail.cuh:33-100, 433-702. -/
inductive EEv where
  | base (e : Ev)
  | early (i k : Nat)
  deriving DecidableEq

/-- `past i`: the contents of the memory since the last fence of thread `i`. No code of the library: memory semantics
of the device; fences: impl/atomic_detail.cuh:33-100, 433-702. -/
structure ESys (σ τ : Type) where
  sys : Sys σ (WThread τ)
  past : Nat → List σ

variable {σ τ : Type}

/-- Does thread `i` complete an atomic operation in this event? No code of the library: memory semantics of the
device; fences: impl/atomic_detail.cuh:33-100, 433-702. -/
def completesAtomic (kind : τ → Kind) (fence : Bool) (s : Sys σ (WThread τ)) (e : Ev) (i : Nat) : Bool :=
  match e with
  | .flush _ _ => false
  | .exec j =>
    decide (i = j) && match s.threads[i]? with
      | none => false
      | some w => decide (kind w.cur = .atomic) && !(fence && !w.buf.isEmpty)

/-- `lead`, `trail`: a fence is issued before and after the access of an atomic operation. No code of the library:
memory semantics of the device; fences: impl/atomic_detail.cuh:33-100, 433-702. -/
def estep (step : σ → τ → σ × τ) (kind : τ → Kind) (lead trail : Bool) (inOrder : τ → τ → Bool) (s : ESys σ τ) : EEv → ESys σ τ
  | .base e =>
    let s' := wstep step kind lead inOrder s.sys e
    ⟨s', fun i => if trail && completesAtomic kind lead s.sys e i then [s'.shared] else s.past i ++ [s'.shared]⟩
  | .early i k =>
    match s.sys.threads[i]?, (s.past i)[k]? with
    | some w, some m =>
      if kind w.cur = .read then
        let shared := (execThread step kind lead s.sys.shared w).1
        ⟨⟨shared, s.sys.threads.set i ⟨(step (view step m w.buf) w.cur).2, w.buf⟩⟩, fun j => s.past j ++ [shared]⟩
      else s
    | _, _ => s

/-- No code of the library: memory semantics of the device; fences: impl/atomic_detail.cuh:33-100, 433-702. -/
def erun (step : σ → τ → σ × τ) (kind : τ → Kind) (lead trail : Bool) (inOrder : τ → τ → Bool) (s : Sys σ τ) (evs : List EEv) :
    ESys σ τ := evs.foldl (estep step kind lead trail inOrder) ⟨winit s, fun _ => [s.shared]⟩

/-- Is an atomic operation with this memory order followed by a fence (loads: 433-455, stores and read-modify-writes: 486-702)? -/
def trailingFence (o : Fence.Order) : Bool := Fence.storeFence o && Fence.consistencyFence o

end Stdgpu.StoreBuffer
