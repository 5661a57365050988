import Verif.Model.Deque
import Verif.Model.UnorderedConc
/-
Model of the algorithms of src/stdgpu/impl/algorithm_detail.h (and of thrust) writing through the insert iterators of
impl/iterator_detail.h, in parallel.

Simplification: how the loop distributes its indices to threads is up to the library; it is a parameter `dist` (the
indices of each thread, in its order).
-/
namespace Stdgpu.InsertCopy
open Stdgpu.Conc

variable {A B : Type}

/-- The distribution gives every index below `n` to exactly one thread. How `thrust::for_each` (external,
impl/algorithm_detail.h:59-62) distributes the indices of `copy` (142-164). -/
def Distributes (dist : List (List Nat)) (n : Nat) : Prop := dist.flatten.Perm (List.range n)

/-- impl/algorithm_detail.h:125-129 `copy_functor::operator()`: `_output_begin[i] = _begin[i]`, where `_output_begin` is an
insert iterator. It is stateless, so that `_output_begin[i]` is a proxy with a copy of the container handle whatever `i`
is, and the assignment is the call `op` of the container, whose result is ignored (impl/iterator_detail.h:230-310). The
program of a thread calls `op` for its indices. -/
def programs (op : A → B) (dist : List (List Nat)) (xs : List A) : List (List B) :=
  dist.map (fun is => is.filterMap (fun i => xs[i]?.map op))

/-- impl/algorithm_detail.h:140-162 `copy(policy, begin, end, back_inserter(v))`, `v` a vector
(impl/iterator_detail.h:230-248: `push_back`). -/
def backInsertVector {α : Type} (v : Vector.Vec α) (dist : List (List Nat)) (xs : List α) (sched : List Nat) :
    Sys (Vector.Vec α) (SlotConc.Thread Unit Vector.FPC α) :=
  run (SlotConc.step (Vector.vfront (Vector.cap v))) (SlotConc.init (Vector.vfront (Vector.cap v)) v (programs (.push ()) dist xs)) sched

/-- The same with `back_inserter(d)` (`side = .back`) and `front_inserter(d)` (`side = .front`), `d` a deque
(impl/iterator_detail.h:230-279: `push_back`, `push_front`). -/
def insertDeque {α : Type} (side : Deque.Side) (d : Deque.Deq α) (dist : List (List Nat)) (xs : List α) (sched : List Nat) :
    Sys (Deque.Deq α) (SlotConc.Thread Deque.Side Deque.FPC α) :=
  run (SlotConc.step (Deque.dfront (Deque.cap d))) (SlotConc.init (Deque.dfront (Deque.cap d)) d (programs (.push side) dist xs)) sched

/-- The same with `inserter(t)`, `t` an unordered container (impl/iterator_detail.h:292-310: `insert`). -/
def insertUnordered {K V : Type} (P : Unordered.Params K V) (t : Unordered.Tab V) (dist : List (List Nat)) (vs : List V)
    (sched : List Nat) : Sys (UnorderedConc.Shared V) (UnorderedConc.Thread K V) :=
  run (UnorderedConc.step P) (UnorderedConc.init t (programs .insert dist vs)) sched

end Stdgpu.InsertCopy
