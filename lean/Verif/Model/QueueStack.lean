import Verif.Model.Deque
/-
Model of `src/stdgpu/impl/queue_detail.cuh` and `src/stdgpu/impl/stack_detail.cuh` with the default container
`deque<T>` (queue.cuh:51, stack.cuh:51). Both are thin adaptors, every member forwards to the container `_c`.
-/
namespace Stdgpu.Adaptor
open Stdgpu.Deque
open Stdgpu.Vector (Fault Out)

variable {α : Type}

/-- Members of `queue` and `stack` (queue.cuh, stack.cuh). impl/queue_detail.cuh:26-92, impl/stack_detail.cuh:26-92. -/
inductive AOp (α : Type) where
  | push (x : α) | pop | empty | full | size | capacity | valid
  deriving DecidableEq

/-- queue_detail.cuh:22-32 `createDeviceObject` (stack_detail.cuh:22-32). -/
def create (size : Nat) : Deq α := Deque.create size

/-- queue_detail.cuh:41-46 `push`: `_c.push_back(element)`. -/
def queuePush (d : Deq α) (x : α) : Except Fault (Bool × Deq α) := Deque.push .back d x

/-- queue_detail.cuh:48-53 `pop`: `_c.pop_front()`. -/
def queuePop (d : Deq α) : Except Fault (Option α × Deq α) := Deque.pop .front d

/-- stack_detail.cuh:41-46 `push`: `_c.push_back(element)`. -/
def stackPush (d : Deq α) (x : α) : Except Fault (Bool × Deq α) := Deque.push .back d x

/-- stack_detail.cuh:48-53 `pop`: `_c.pop_back()`. -/
def stackPop (d : Deq α) : Except Fault (Option α × Deq α) := Deque.pop .back d

/-- queue_detail.cuh:41-88. -/
def queueExec (d : Deq α) : AOp α → Except Fault (Out α × Deq α)
  | .push x => do let (b, d') ← queuePush d x; return (.bool b, d')
  | .pop => do let (r, d') ← queuePop d; return (.pop r, d')
  | .empty => .ok (.bool (Deque.empty d), d)
  | .full => .ok (.bool (Deque.full d), d)
  | .size => .ok (.num (Deque.size d), d)
  | .capacity => .ok (.num (Deque.cap d), d)
  | .valid => .ok (.bool (Deque.valid d), d)

/-- stack_detail.cuh:41-88. -/
def stackExec (d : Deq α) : AOp α → Except Fault (Out α × Deq α)
  | .push x => do let (b, d') ← stackPush d x; return (.bool b, d')
  | .pop => do let (r, d') ← stackPop d; return (.pop r, d')
  | .empty => .ok (.bool (Deque.empty d), d)
  | .full => .ok (.bool (Deque.full d), d)
  | .size => .ok (.num (Deque.size d), d)
  | .capacity => .ok (.num (Deque.cap d), d)
  | .valid => .ok (.bool (Deque.valid d), d)

/-- A history, with the list of operations paired with their results. Calls of impl/queue_detail.cuh:26-92,
impl/stack_detail.cuh:26-92 one after another. -/
def trace (exec : Deq α → AOp α → Except Fault (Out α × Deq α)) (d : Deq α) :
    List (AOp α) → Except Fault (List (AOp α × Out α) × Deq α)
  | [] => .ok ([], d)
  | op :: ops => do
    let (o, d1) ← exec d op
    let (tr, d2) ← trace exec d1 ops
    return ((op, o) :: tr, d2)

end Stdgpu.Adaptor
