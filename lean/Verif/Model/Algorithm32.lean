import Verif.Model.Algorithm
import Verif.Model.Counter32
/-
Model of the algorithms of src/stdgpu/impl/algorithm_detail.h and impl/numeric_detail.h with `index_t` as a 32 bit signed
integer (the default, STDGPU_USE_32_BIT_INDEX in src/stdgpu/CMakeLists.txt:22 and cstddef.h:55-59), and of the algorithms
on raw memory of impl/memory_detail.h, which always use 64 bit. Model/Algorithm describes the former for unbounded
integers.

Simplifications: as in Model/Algorithm. `index64_t` and the differences of iterators are unbounded integers (a range has
fewer than 2^63 elements). The conversion of a value that does not fit to `index_t` is the value modulo 2^32, as in C++20
and in all compilers.
-/
namespace Stdgpu.Algorithm32
open Stdgpu.Algorithm

/-- cstddef.h:55-56: a conversion to `index_t`. -/
def index32 (x : Int) : Int := Counter32.wrap x

variable {α : Type}

/-- impl/algorithm_detail.h:74-79 `fill_functor::operator()(const index_t i)`: the index of the loop, which has the type
of the size, is converted to `index_t`. -/
def fillBody (begin_ : Int) (value : α) (i : Nat) : Body (Mem α) Unit :=
  [fun m r => (write m (begin_ + index32 i) value, r)]

/-- impl/algorithm_detail.h:101-112 `fill_n`, for a 64 bit `Size`. -/
def fillN (begin_ : Int) (n : Int) (value : α) (mem : Mem α) (sched : List Nat) : LoopState (Mem α) Unit × Int :=
  (forEachIndex n (fillBody begin_ value) mem () sched, begin_ + n)

/-- impl/algorithm_detail.h:91-99 `fill`: `static_cast<index_t>(end - begin)`. -/
def fill (begin_ end_ : Int) (value : α) (mem : Mem α) (sched : List Nat) : LoopState (Mem α) Unit :=
  (fillN begin_ (index32 (end_ - begin_)) value mem sched).1

/-- impl/algorithm_detail.h:125-129 `copy_functor::operator()(const index_t i)`. -/
def copyBody (begin_ out : Int) (i : Nat) : Body (Mem α) (Option α) :=
  [fun m _ => (m, some (m (begin_ + index32 i))),
   fun m r => (match r with | some v => write m (out + index32 i) v | none => m, r)]

/-- impl/algorithm_detail.h:150-162 `copy_n`, for a 64 bit `Size`. -/
def copyN (begin_ : Int) (n : Int) (out : Int) (mem : Mem α) (sched : List Nat) : LoopState (Mem α) (Option α) × Int :=
  (forEachIndex n (copyBody begin_ out) mem none sched, out + n)

/-- impl/algorithm_detail.h:140-148 `copy`: `static_cast<index_t>(end - begin)`. -/
def copy (begin_ end_ out : Int) (mem : Mem α) (sched : List Nat) : LoopState (Mem α) (Option α) × Int :=
  copyN begin_ (index32 (end_ - begin_)) out mem sched

/-- impl/numeric_detail.h:66-70 `iota_functor::operator()(const index_t i)`. -/
def iotaBody {w : Nat} (begin_ : Int) (value : BitVec w) (i : Nat) : Body (Mem (BitVec w)) Unit :=
  [fun m r => (write m (begin_ + index32 i) (value + BitVec.ofInt w (index32 i)), r)]

/-- impl/numeric_detail.h:80-91 `iota`: `static_cast<index_t>(end - begin)`. -/
def iota {w : Nat} (begin_ end_ : Int) (value : BitVec w) (mem : Mem (BitVec w)) (sched : List Nat) :
    LoopState (Mem (BitVec w)) Unit := forEachIndex (index32 (end_ - begin_)) (iotaBody begin_ value) mem () sched

/-! ### Algorithms on raw memory (impl/memory_detail.h) -/

/-- Storage of one element: its object, if one has been constructed, and the numbers of constructor and destructor
calls (ghost variables). Storage that impl/memory_detail.h:101-164 (`uninitialized_fill_functor`,
`uninitialized_copy_functor`, `destroy_functor`) work on. -/
structure Cell (α : Type) where
  val : Option α
  made : Nat
  gone : Nat
  deriving DecidableEq

/-- impl/memory_detail.h:657-663 `construct_at`. -/
def constructAt (m : Mem (Cell α)) (a : Int) (v : Option α) : Mem (Cell α) := write m a ⟨v, (m a).made + 1, (m a).gone⟩

/-- impl/memory_detail.h:665-670 `destroy_at`. -/
def destroyAt (m : Mem (Cell α)) (a : Int) : Mem (Cell α) := write m a ⟨none, (m a).made, (m a).gone + 1⟩

/-- impl/memory_detail.h:111-115 `uninitialized_fill_functor::operator()(const index64_t i)`. -/
def ufillBody (begin_ : Int) (value : α) (i : Nat) : Body (Mem (Cell α)) Unit :=
  [fun m r => (constructAt m (begin_ + i) (some value), r)]

/-- impl/memory_detail.h:685-696 `uninitialized_fill_n`. -/
def ufillN (begin_ : Int) (n : Int) (value : α) (mem : Mem (Cell α)) (sched : List Nat) : LoopState (Mem (Cell α)) Unit × Int :=
  (forEachIndex n (ufillBody begin_ value) mem () sched, begin_ + n)

/-- impl/memory_detail.h:673-682 `uninitialized_fill`. -/
def ufill (begin_ end_ : Int) (value : α) (mem : Mem (Cell α)) (sched : List Nat) : LoopState (Mem (Cell α)) Unit :=
  (ufillN begin_ (end_ - begin_) value mem sched).1

/-- impl/memory_detail.h:132-138 `uninitialized_copy_functor::operator()(const index64_t i)`: a read and a construction.
The register is `none` before the read. -/
def ucopyBody (begin_ out : Int) (i : Nat) : Body (Mem (Cell α)) (Option (Option α)) :=
  [fun m _ => (m, some (m (begin_ + i)).val),
   fun m r => (match r with | some v => constructAt m (out + i) v | none => m, r)]

/-- impl/memory_detail.h:711-723 `uninitialized_copy_n`. -/
def ucopyN (begin_ : Int) (n : Int) (out : Int) (mem : Mem (Cell α)) (sched : List Nat) :
    LoopState (Mem (Cell α)) (Option (Option α)) × Int :=
  (forEachIndex n (ucopyBody begin_ out) mem none sched, out + n)

/-- impl/memory_detail.h:698-709 `uninitialized_copy`. -/
def ucopy (begin_ end_ out : Int) (mem : Mem (Cell α)) (sched : List Nat) :
    LoopState (Mem (Cell α)) (Option (Option α)) × Int := ucopyN begin_ (end_ - begin_) out mem sched

/-- impl/memory_detail.h:153-157 `destroy_functor::operator()(const index64_t i)`. -/
def destroyBody (begin_ : Int) (i : Nat) : Body (Mem (Cell α)) Unit := [fun m r => (destroyAt m (begin_ + i), r)]

/-- impl/memory_detail.h:725-735 `destroy` and 164-171 `unoptimized_destroy`; `optimizable` is
`is_destroy_optimizable<T>()` (the destructor is trivial). -/
def destroy (optimizable : Bool) (first last : Int) (mem : Mem (Cell α)) (sched : List Nat) : LoopState (Mem (Cell α)) Unit :=
  if optimizable then loopInit mem () else forEachIndex (last - first) (destroyBody first) mem () sched

/-- impl/memory_detail.h:738-749 `destroy_n`: the memory and the returned iterator. -/
def destroyN (optimizable : Bool) (first : Int) (n : Int) (mem : Mem (Cell α)) (sched : List Nat) :
    LoopState (Mem (Cell α)) Unit × Int := (destroy optimizable first (first + n) mem sched, first + n)

end Stdgpu.Algorithm32
