/-
Model of src/stdgpu/impl/algorithm_detail.h and impl/numeric_detail.h.

`thrust::for_each` is external: it is modelled as one thread per index, whose accesses to memory interleave with those of
the other threads in any order. `thrust::transform_reduce` is external: it is modelled as an arbitrary reduction tree
over the values and `init`. Memory is a function from element addresses to values; an iterator is an address.
-/
namespace Stdgpu.Algorithm

/-! ### Parallel loops -/

/-- The body of a loop for one index: its memory accesses in order, with a private register. Models the functors passed
to `for_each_index` (impl/algorithm_detail.h:52-63). -/
abbrev Body (M R : Type) := List (M → R → M × R)

/-- State of a parallel loop: memory, registers and the number of accesses each index has made. Execution of
`thrust::for_each` as called in impl/algorithm_detail.h:59-62 (external; one thread per index). -/
structure LoopState (M R : Type) where
  mem : M
  reg : Nat → R
  pc : Nat → Nat

/-- The thread of index `i` makes its next access, if there is one. impl/algorithm_detail.h:59-62 (`thrust::for_each`,
external): indices outside `[0, n)` have no thread. -/
def loopStep {M R : Type} (n : Nat) (body : Nat → Body M R) (s : LoopState M R) (i : Nat) : LoopState M R :=
  if i < n then
    match (body i)[s.pc i]? with
    | none => s
    | some f =>
      let (m, r) := f s.mem (s.reg i)
      { mem := m, reg := fun j => if j = i then r else s.reg j, pc := fun j => if j = i then s.pc i + 1 else s.pc j }
  else s

/-- impl/algorithm_detail.h:59-62: a schedule of the threads of the loop. -/
def loopRun {M R : Type} (n : Nat) (body : Nat → Body M R) (s : LoopState M R) (sched : List Nat) : LoopState M R :=
  sched.foldl (loopStep n body) s

/-- impl/algorithm_detail.h:59-62: no thread of the loop has started. -/
def loopInit {M R : Type} (mem : M) (r : R) : LoopState M R := ⟨mem, fun _ => r, fun _ => 0⟩

/-- All threads have finished. impl/algorithm_detail.h:59-62: the call returns. -/
def loopDone {M R : Type} (n : Nat) (body : Nat → Body M R) (s : LoopState M R) : Prop := ∀ i, i < n → s.pc i = (body i).length

/-- impl/algorithm_detail.h:52-63 `for_each_index`: the result of a schedule, when it is complete. A negative size gives
an empty loop. -/
def forEachIndex {M R : Type} (size : Int) (body : Nat → Body M R) (mem : M) (r : R) (sched : List Nat) : LoopState M R :=
  loopRun size.toNat body (loopInit mem r) sched

variable {α : Type}

/-- The array behind the iterators of impl/algorithm_detail.h:68-164. Simplification: an address holds a whole element. -/
abbrev Mem (α : Type) := Int → α

/-- An assignment `_begin[i] = …` (impl/algorithm_detail.h:74-79, 125-129). -/
def write (m : Mem α) (a : Int) (v : α) : Mem α := fun b => if b = a then v else m b

/-- impl/algorithm_detail.h:74-79 `fill_functor::operator()`. -/
def fillBody (begin_ : Int) (value : α) (i : Nat) : Body (Mem α) Unit := [fun m r => (write m (begin_ + i) value, r)]

/-- impl/algorithm_detail.h:101-112 `fill_n`: the memory and the returned iterator. -/
def fillN (begin_ : Int) (n : Int) (value : α) (mem : Mem α) (sched : List Nat) : LoopState (Mem α) Unit × Int :=
  (forEachIndex n (fillBody begin_ value) mem () sched, begin_ + n)

/-- impl/algorithm_detail.h:91-99 `fill`. -/
def fill (begin_ end_ : Int) (value : α) (mem : Mem α) (sched : List Nat) : LoopState (Mem α) Unit :=
  (fillN begin_ (end_ - begin_) value mem sched).1

/-- impl/algorithm_detail.h:125-129 `copy_functor::operator()`: a read and a write. -/
def copyBody (begin_ out : Int) (i : Nat) : Body (Mem α) (Option α) :=
  [fun m _ => (m, some (m (begin_ + i))),
   fun m r => (match r with | some v => write m (out + i) v | none => m, r)]

/-- impl/algorithm_detail.h:150-162 `copy_n`. -/
def copyN (begin_ : Int) (n : Int) (out : Int) (mem : Mem α) (sched : List Nat) : LoopState (Mem α) (Option α) × Int :=
  (forEachIndex n (copyBody begin_ out) mem none sched, out + n)

/-- impl/algorithm_detail.h:140-148 `copy`. -/
def copy (begin_ end_ out : Int) (mem : Mem α) (sched : List Nat) : LoopState (Mem α) (Option α) × Int :=
  copyN begin_ (end_ - begin_) out mem sched

/-- impl/numeric_detail.h:66-70 `iota_functor::operator()`, for an integer type of `w` bits: `static_cast<T>(i)` and the
addition wrap around (for signed types an overflow is undefined). -/
def iotaBody {w : Nat} (begin_ : Int) (value : BitVec w) (i : Nat) : Body (Mem (BitVec w)) Unit :=
  [fun m r => (write m (begin_ + i) (value + BitVec.ofNat w i), r)]

/-- impl/numeric_detail.h:80-91 `iota`. -/
def iota {w : Nat} (begin_ end_ : Int) (value : BitVec w) (mem : Mem (BitVec w)) (sched : List Nat) :
    LoopState (Mem (BitVec w)) Unit := forEachIndex (end_ - begin_) (iotaBody begin_ value) mem () sched

/-! ### Reductions -/

/-- How a reduction groups its operands. Freedom of `thrust::transform_reduce` (external) as called in
impl/numeric_detail.h:134-139. -/
inductive RTree (α : Type) where
  | leaf (a : α)
  | node (l r : RTree α)

/-- The result of the grouping (impl/numeric_detail.h:134-139). -/
def RTree.eval (op : α → α → α) : RTree α → α
  | .leaf a => a
  | .node l r => op (l.eval op) (r.eval op)

/-- The operands of the grouping (impl/numeric_detail.h:134-139). -/
def RTree.leaves : RTree α → List α
  | .leaf a => [a]
  | .node l r => l.leaves ++ r.leaves

/-- The operands of the reduction of `f 0, …, f (size - 1)`. impl/numeric_detail.h:115-121 and 134-139. -/
def transformed (size : Int) (f : Nat → α) : List α := (List.range size.toNat).map f

/-- impl/numeric_detail.h:93-140 `transform_reduce_index`, the path for HIP devices and small sizes. -/
def transformReduceHost (size : Int) (init : α) (op : α → α → α) (f : Nat → α) : α :=
  if size ≤ 0 then init else (transformed size f).foldl op init

/-- `t` is a way in which `thrust::transform_reduce` may compute its result: `init` and every value are used once.
impl/numeric_detail.h:134-139. -/
def LibraryTree (size : Int) (init : α) (f : Nat → α) (t : RTree α) : Prop := t.leaves.Perm (init :: transformed size f)

/-- impl/numeric_detail.h:93-140 `transform_reduce_index`; `hip` tells whether the backend is HIP with the device policy. -/
def transformReduceIndex (hip : Bool) (size : Int) (init : α) (op : α → α → α) (f : Nat → α) (t : RTree α) : α :=
  if hip && decide (size ≤ 4096) then transformReduceHost size init op f else t.eval op

/-! ### min, max, clamp -/

/-- impl/algorithm_detail.h:28-33 `min`; `lt` is `operator<`. -/
def min (lt : α → α → Bool) (a b : α) : α := if lt b a then b else a

/-- impl/algorithm_detail.h:35-40 `max`. -/
def max (lt : α → α → Bool) (a b : α) : α := if lt a b then b else a

/-- impl/algorithm_detail.h:42-50 `clamp`. -/
def clamp (lt : α → α → Bool) (v lower upper : α) : α := if lt v lower then lower else if lt upper v then upper else v

end Stdgpu.Algorithm
