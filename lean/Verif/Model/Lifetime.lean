import Verif.Model.Deque
import Verif.Model.Unordered
/-
Model of the end of a container's life (`destroyDeviceObject`) and of the insert iterators (impl/iterator_detail.h).

The model of the containers tracks which storage holds a live object: constructing over a live object and destroying
storage without one are faults (`Fault.ub`) of the operations. `destroyDeviceObject` returns the objects that are still
alive when the storage is released, i.e. the objects whose destructor is never called.
-/
namespace Stdgpu.Lifetime
open Stdgpu.SlotConc
open Stdgpu.Vector (Fault)

variable {α K V : Type}

/-- The objects still alive in the first `n` elements of the storage. No code: what impl/memory_detail.h:667-672
(`destroy_at`) has not been called for. -/
def alive (n : Nat) (obj : Nat → Option α) : List α := (List.range n).filterMap obj

/-- impl/vector_detail.cuh:71-93 `vector::destroyDeviceObject`, up to the release of `_data` (the release of the blocks
themselves: C41). `trivial` is `is_destroy_optimizable<T>()` (impl/memory_detail.h:36-41). -/
def destroyVector (trivial : Bool) (ord : Nat → List Nat) (v : Vector.Vec α) : Except Fault (List α) := do
  let v1 ← if !trivial then Vector.clear (ord (Vector.size v).toNat) v else pure v
  return alive (Vector.cap v1) v1.slots.data

/-- deque_detail.cuh:76-108 `deque::destroyDeviceObject`. -/
def destroyDeque (trivial : Bool) (ord : Nat → Nat → List Nat) (d : Deque.Deq α) : Except Fault (List α) := do
  let d1 ← if !trivial then Deque.clear ord d else pure d
  return alive (Deque.cap d1) d1.slots.data

/-- impl/unordered_base_detail.cuh:1310-1348 `unordered_base::destroyDeviceObject`. -/
def destroyUnordered (trivial : Bool) (ord : Nat → List Nat) (t : Unordered.Tab V) : Except Fault (List V) := do
  let t1 ← if !trivial then Unordered.clear ord t else pure t
  return alive t1.total (fun p => if t1.live p then t1.val p else none)

/-! ### Insert iterators -/

/-- impl/iterator_detail.h:230-248, 331-349 `back_inserter(c)`: dereferencing gives a proxy holding a (shallow) copy of
the container handle, assigning a value to it calls `push_back` and ignores the result. -/
def backInsertVector (v : Vector.Vec α) (x : α) : Except Fault (Vector.Vec α) := do
  let (_, v') ← Vector.pushBack v x
  return v'

/-- The same for a deque. impl/iterator_detail.h:230-260 with impl/deque_detail.cuh:203-258. -/
def backInsertDeque (d : Deque.Deq α) (x : α) : Except Fault (Deque.Deq α) := do
  let (_, d') ← Deque.push .back d x
  return d'

/-- impl/iterator_detail.h:261-279, 351-369 `front_inserter(c)`. -/
def frontInsertDeque (d : Deque.Deq α) (x : α) : Except Fault (Deque.Deq α) := do
  let (_, d') ← Deque.push .front d x
  return d'

/-- impl/iterator_detail.h:292-310, 371-389 `inserter(c)`. -/
def insertUnordered (P : Unordered.Params K V) (t : Unordered.Tab V) (v : V) : Except Fault (Unordered.Tab V) := do
  let (_, t') ← Unordered.insert P t v
  return t'

/-- Copying a sequence to an insert iterator, one assignment after the other (the iterators are stateless: incrementing
them has no effect). impl/iterator_detail.h:230-385, impl/algorithm_detail.h:142-164. -/
def writeAll {S A : Type} (assign : S → A → Except Fault S) (s : S) (xs : List A) : Except Fault S := xs.foldlM assign s

end Stdgpu.Lifetime
