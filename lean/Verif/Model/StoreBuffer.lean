import Verif.Model.Fence
import Verif.Model.UnorderedConc
/-
Executions of the containers on a machine with store buffers. `Model/SlotConc.lean` and `Model/UnorderedConc.lean` interleave
the steps of the threads on one memory (sequential consistency). Here a plain write (construction or destruction of an
element, `_offsets[i] = …`) is put into the buffer of its thread and becomes visible to the other threads later, at any
time; a plain read looks into the thread's own buffer first. An atomic operation accesses the memory directly. Whether it waits
for the buffer to be empty is decided by the fence that the library issues before it (impl/atomic_detail.cuh:33-100,
`Model/Fence.lean`); the containers use the default order `memory_order_seq_cst` everywhere.

The construction and the destruction of an element are single writes, as in the other models. The buffer holds the states in
which the thread has issued its writes: the write is the effect of the step in this state. (The ghost flags for undefined
behaviour are evaluated when the write reaches the memory.)
-/
namespace Stdgpu.StoreBuffer
open Stdgpu.Conc

/-- The next access of a thread to shared variables. Memory semantics of the device, no code of the library; fences:
impl/atomic_detail.cuh:33-100, 433-702. -/
inductive Kind where
  | atomic | read | write
  deriving DecidableEq

/-- A thread and its buffer, the oldest write first. Memory semantics of the device, no code of the library; fences:
impl/atomic_detail.cuh:33-100, 433-702. -/
structure WThread (τ : Type) where
  cur : τ
  buf : List τ

/-- What happens next: thread `i` executes a step, or the write number `k` in its buffer reaches the memory. Memory
semantics of the device, no code of the library; fences: impl/atomic_detail.cuh:33-100, 433-702. -/
inductive Ev where
  | exec (i : Nat)
  | flush (i k : Nat)
  deriving DecidableEq

variable {σ τ : Type}

/-- The effect of the buffered writes on the memory: what the thread itself sees. Memory semantics of the device, no
code of the library; fences: impl/atomic_detail.cuh:33-100, 433-702. -/
def view (step : σ → τ → σ × τ) (m : σ) (buf : List τ) : σ := buf.foldl (fun m t => (step m t).1) m

/-- A step of a thread. `fence`: an atomic operation is preceded by a fence. Memory semantics of the device, no code of
the library; fences: impl/atomic_detail.cuh:33-100, 433-702. -/
def execThread (step : σ → τ → σ × τ) (kind : τ → Kind) (fence : Bool) (m : σ) (w : WThread τ) : σ × WThread τ :=
  match kind w.cur with
  | .write => (m, ⟨(step m w.cur).2, w.buf ++ [w.cur]⟩)
  | .atomic =>
    if fence && !w.buf.isEmpty then (m, w)
    else ((step m w.cur).1, ⟨(step m w.cur).2, w.buf⟩)
  | .read =>
    -- a read changes nothing but the ghost flags
    (if w.buf.isEmpty then (step m w.cur).1 else m, ⟨(step (view step m w.buf) w.cur).2, w.buf⟩)

/-- The write number `k` reaches the memory. `inOrder a b`: a write issued in state `b` may not overtake one issued
before in state `a`. Memory semantics of the device, no code of the library; fences: impl/atomic_detail.cuh:33-100,
433-702. -/
def flushThread (step : σ → τ → σ × τ) (inOrder : τ → τ → Bool) (m : σ) (w : WThread τ) (k : Nat) : σ × WThread τ :=
  match w.buf[k]? with
  | none => (m, w)
  | some t => if (w.buf.take k).any (fun a => inOrder a t) then (m, w) else ((step m t).1, ⟨w.cur, w.buf.eraseIdx k⟩)

/-- Memory semantics of the device, no code of the library; fences: impl/atomic_detail.cuh:33-100, 433-702. -/
def wstep (step : σ → τ → σ × τ) (kind : τ → Kind) (fence : Bool) (inOrder : τ → τ → Bool) (s : Sys σ (WThread τ)) :
    Ev → Sys σ (WThread τ)
  | .exec i =>
    match s.threads[i]? with
    | none => s
    | some w => let r := execThread step kind fence s.shared w; ⟨r.1, s.threads.set i r.2⟩
  | .flush i k =>
    match s.threads[i]? with
    | none => s
    | some w => let r := flushThread step inOrder s.shared w k; ⟨r.1, s.threads.set i r.2⟩

/-- Threads with empty buffers. Memory semantics of the device, no code of the library; fences:
impl/atomic_detail.cuh:33-100, 433-702. -/
def winit (s : Sys σ τ) : Sys σ (WThread τ) := ⟨s.shared, s.threads.map (fun t => ⟨t, []⟩)⟩

/-- Memory semantics of the device, no code of the library; fences: impl/atomic_detail.cuh:33-100, 433-702. -/
def wrun (step : σ → τ → σ × τ) (kind : τ → Kind) (fence : Bool) (inOrder : τ → τ → Bool) (s : Sys σ τ) (evs : List Ev) :
    Sys σ (WThread τ) := evs.foldl (wstep step kind fence inOrder) (winit s)

/-- The threads without their buffers. Memory semantics of the device, no code of the library; fences:
impl/atomic_detail.cuh:33-100, 433-702. -/
def visible (s : Sys σ (WThread τ)) : Sys σ τ := ⟨s.shared, s.threads.map (·.cur)⟩

/-- Is an atomic load or read-modify-write with this memory order preceded by a fence? impl/atomic_detail.cuh:433-455,
538-702. -/
def leadingFence (o : Fence.Order) : Bool := Fence.loadFence o

end Stdgpu.StoreBuffer

namespace Stdgpu.SlotConc
open Stdgpu.StoreBuffer

/-- vector_detail.cuh:202-226 (push), 262-287 (pop), deque_detail.cuh:225-249, 285-310, 353-377, 412-437: the elements are
accessed by plain accesses; locks, occupied bits and counters by atomic operations. -/
def skind {K F α : Type} (t : Thread K F α) : Kind :=
  match t.todo, t.pc with
  | .push _ _ :: _, .slot _ .construct => .write
  | _ :: _, .slot _ (.destroy _) => .write
  | _ :: _, .slot _ .take => .read
  | _, _ => .atomic

/-- Writes to the same element stay in order, others may overtake each other. impl/vector_detail.cuh:202-226, 262-287,
impl/deque_detail.cuh:225-437: accesses to `_data[p]`. -/
def sameElement {K F α : Type} (a b : Thread K F α) : Bool :=
  match a.pc, b.pc with
  | .slot p _, .slot q _ => p == q
  | _, _ => true

end Stdgpu.SlotConc

namespace Stdgpu.UnorderedConc
open Stdgpu.StoreBuffer

/-- impl/unordered_base_detail.cuh:655-682 `find_impl`: occupied bits are atomic, values and offsets are plain. -/
def Walk.kind : Walk → Kind
  | .occ _ => .atomic
  | .val _ | .off1 _ | .off2 _ => .read

/-- impl/unordered_base_detail.cuh:967-994, 708-809. -/
def IPC.kind (ex : Ex) : IPC → Kind
  | .c1 w | .c2 w | .c3 _ _ w => w.kind
  | .e1 _ | .e2 _ _ => .read
  | .consB | .cons _ _ | .off _ _ | .link _ _ => .write
  | .pop _ => SlotConc.skind ex
  | .full | .exc | .occ1 | .lockB | .occ2 | .cntB | .setB | .lockE _ | .cnt _ _ | .set _ _ | .unlock _ _ => .atomic

/-- impl/unordered_base_detail.cuh:1019-1043, 811-913. -/
def EPC.kind (ex : Ex) : EPC → Kind
  | .f1 w | .f2 _ w | .f3 _ _ w => w.kind
  | .p1 _ _ | .p2 _ _ _ _ => .read
  | .rd1 _ _ | .rd2 _ _ | .rd3 _ _ _ => .read
  | .wr _ _ _ | .zero _ _ | .desB _ | .des _ _ => .write
  | .push _ _ => SlotConc.skind ex
  | .lockB _ | .resetB _ | .cntB _ | .unlockB _ _ | .lock1 _ _ | .lock2 _ _ | .undo1 _ | .reset _ _ | .cnt _ _
  | .unlock1 _ _ _ | .unlock2 _ _ => .atomic

/-- The start of an operation accesses nothing; like a read it does not wait. impl/unordered_base_detail.cuh:655-682,
708-1043. -/
def ukind {K V : Type} (t : Thread K V) : Kind :=
  match t.cur with
  | .idle => .read
  | .ins _ pc => pc.kind t.ex
  | .era _ pc => pc.kind t.ex
  | .fnd _ w => w.kind

end Stdgpu.UnorderedConc
