import Verif.Model.Algorithm
import Verif.Model.PackedUnordered
/-
The operations of the containers that run parallel loops, with the single accesses of the loop bodies to memory as steps
(Model/Algorithm.lean: one thread per index, any interleaving) and with the packed words of Model/Packed.lean. In
Model/Vector, Model/Deque and Model/Unordered a loop body is one step and the loop a sequence of them in any order.
The result is `none` as long as a loop has not finished. The types have non-trivial destructors (for the others the
destruction loops are skipped, which has no observable effect). `index_t` is unbounded here, see Model/Range32.lean.
-/
namespace Stdgpu.ParLoops
open Stdgpu.Algorithm Stdgpu.Packed
open Stdgpu.SlotConc (upd)
open Stdgpu.Bitset (Bitset)

variable {w : Nat} {α V : Type}

/-- impl/algorithm_detail.h:52-63 `for_each_index`: returns when all threads have finished. -/
def parLoop {M R : Type} (n : Int) (body : Nat → Body M R) (mem : M) (r : R) (sched : List Nat) : Option M :=
  if (List.range n.toNat).all (fun i => (forEachIndex n body mem r sched).pc i == (body i).length) then
    some (forEachIndex n body mem r sched).mem
  else none

/-! ### bitset -/

/-- impl/bitset_detail.cuh:250-263, 280-291 `set()` and `reset()` with impl/algorithm_detail.h:74-79 `fill_functor`: writes the
words. -/
def fillWordBody (x : BitVec w) (i : Nat) : Body (Bitset w) Unit :=
  [fun b r => ({ b with blocks := b.blocks.set i x }, r)]

/-- impl/bitset_detail.cuh:254-262 `set()`. -/
def setWords (b : Bitset w) (sched : List Nat) : Option (Bitset w) :=
  parLoop (Bitset.numberBitBlocks w b.size) (fillWordBody (~~~(0 : BitVec w))) b () sched

/-- impl/bitset_detail.cuh:282-290 `reset()`. -/
def resetWords (b : Bitset w) (sched : List Nat) : Option (Bitset w) :=
  parLoop (Bitset.numberBitBlocks w b.size) (fillWordBody (0 : BitVec w)) b () sched

/-- impl/bitset_detail.cuh:162-179 `flip_bits::operator()`, 310-319 `flip()`: reads and writes a word. -/
def flipWordBody (i : Nat) : Body (Bitset w) (Option (BitVec w)) :=
  [fun b _ => (b, b.blocks[i]?),
   fun b r => (match r with | some x => { b with blocks := b.blocks.set i (~~~x) } | none => b, r)]

/-- impl/bitset_detail.cuh:310-319 `flip()`. -/
def flipWords (b : Bitset w) (sched : List Nat) : Option (Bitset w) :=
  parLoop (Bitset.numberBitBlocks w b.size) flipWordBody b none sched

/-! ### vector -/

/-- Construction of `x` at `_data[q]`. impl/vector_detail.cuh:305-332 (`vector_insert`), impl/memory_detail.h:600-606. -/
def construct (m : PSlots w α) (q : Int) (x : Option α) : PSlots w α :=
  if q < 0 ∨ (m.cap : Int) ≤ q ∨ x.isNone then { m with err := true }
  else { m with data := upd m.data q.toNat x, err := m.err || (m.data q.toNat).isSome }

/-- Destruction of `_data[q]`. impl/vector_detail.cuh:335-370 (`vector_erase`), impl/memory_detail.h:146-163
(`destroy_functor`). -/
def destroy (m : PSlots w α) (q : Int) : PSlots w α :=
  if q < 0 ∨ (m.cap : Int) ≤ q then { m with err := true }
  else { m with data := upd m.data q.toNat none, err := m.err || (m.data q.toNat).isNone }

/-- `_occupied.set(q)` or `_occupied.reset(q)`. impl/vector_detail.cuh:305-370. -/
def setBit (m : PSlots w α) (q : Int) (x : Bool) : PSlots w α :=
  if q < 0 then { m with err := true }
  else match (if x then Bitset.set m.occ q.toNat true else Bitset.reset m.occ q.toNat) with
    | none => { m with err := true }
    | some (_, b) => { m with occ := b }

/-- impl/vector_detail.cuh:315-326 `vector_insert::operator()`. -/
def insertBody (begin : Int) (xs : List α) (i : Nat) : Body (PSlots w α) Unit :=
  [fun m r => (construct m (begin + i) xs[i]?, r), fun m r => (setBit m (begin + i) true, r)]

/-- impl/vector_detail.cuh:344-354 `vector_erase::operator()`. -/
def eraseBody (begin : Int) (i : Nat) : Body (PSlots w α) Unit :=
  [fun m r => (destroy m (begin + i), r), fun m r => (setBit m (begin + i) false, r)]

/-- impl/memory_detail.h:150-171 `destroy_functor::operator()` of `unoptimized_destroy`. -/
def destroyBody (begin : Int) (i : Nat) : Body (PSlots w α) Unit := [fun m r => (destroy m (begin + i), r)]

/-- impl/vector_detail.cuh:512-541 `size`. -/
def vsize (m : PMem w Int α) : Int := Vector.clampSize m.slots.cap m.ctr

/-- impl/vector_detail.cuh:380-414 `insert(position, begin, end)`. -/
def vinsert (m : PMem w Int α) (position : Int) (xs : List α) (sched : List Nat) : Option (PMem w Int α) :=
  if position ≠ vsize m then some m
  else if vsize m + xs.length > m.slots.cap then some m
  else do
    let s ← parLoop xs.length (insertBody (vsize m) xs) m.slots () sched
    return { slots := s, ctr := vsize m + xs.length }

/-- impl/vector_detail.cuh:423-450 `erase(begin, end)`. -/
def verase (m : PMem w Int α) (b e : Int) (sched : List Nat) : Option (PMem w Int α) :=
  if e ≠ vsize m then some m
  else if vsize m - (e - b) < 0 then some m
  else do
    let s ← parLoop (e - b) (eraseBody (vsize m - (e - b))) m.slots () sched
    return { slots := s, ctr := vsize m - (e - b) }

/-- impl/vector_detail.cuh:586-612 `clear`: the loop of the destructors, then the loop that resets the words. -/
def vclear (m : PMem w Int α) (sched sched' : List Nat) : Option (PMem w Int α) :=
  if vsize m = 0 then some m
  else do
    let s ← parLoop (vsize m) (destroyBody 0) m.slots () sched
    let o ← resetWords s.occ sched'
    return { slots := { s with occ := o }, ctr := 0 }

/-! ### deque -/

/-- impl/deque_detail.cuh:594-624, 676-700: the blocks of live elements, as `Deque.blocks`. -/
def dblocks (m : PMem w Deque.Ctr α) : List (Nat × Nat) :=
  if Vector.clampSize m.slots.cap m.ctr.size = m.slots.cap then [(0, m.slots.cap)]
  else if m.ctr.begin ≤ m.ctr.endd then [(m.ctr.begin, m.ctr.endd - m.ctr.begin)]
  else [(0, m.ctr.endd), (m.ctr.begin, m.slots.cap - m.ctr.begin)]

/-- The destruction loops, one after the other. impl/deque_detail.cuh:585-633 `clear`. -/
def destroyBlocks : List (Nat × Nat) → List (List Nat) → PSlots w α → Option (PSlots w α)
  | [], _, s => some s
  | b :: bs, scheds, s => do
    let s' ← parLoop (b.2 : Int) (destroyBody b.1) s () (scheds.headD [])
    destroyBlocks bs scheds.tail s'

/-- impl/deque_detail.cuh:585-633 `clear`. -/
def dclear (m : PMem w Deque.Ctr α) (scheds : List (List Nat)) (sched' : List Nat) : Option (PMem w Deque.Ctr α) :=
  if Vector.clampSize m.slots.cap m.ctr.size = 0 then some m
  else do
    let s ← destroyBlocks (dblocks m) scheds m.slots
    let o ← resetWords s.occ sched'
    return { slots := { s with occ := o }, ctr := { size := 0, begin := 0, endd := 0 } }

/-- impl/numeric_detail.h:66-70 `iota_functor::operator()` on an array of positions. -/
def iotaBody (start value : Nat) (i : Nat) : Body (Nat → Nat) Unit := [fun m r => (upd m (start + i) (value + i), r)]

/-- impl/deque_detail.cuh:668-704 `device_range`: the array `_range_indices` (its old contents are `old`); every block is
written behind the previous one. -/
def writeBlocks : List (Nat × Nat) → List (List Nat) → Nat → (Nat → Nat) → Option (Nat → Nat)
  | [], _, _, m => some m
  | b :: bs, scheds, start, m => do
    let m' ← parLoop (b.2 : Int) (iotaBody start b.1) m () (scheds.headD [])
    writeBlocks bs scheds.tail (start + b.2) m'

/-- impl/deque_detail.cuh:668-704 `device_range`. -/
def drange (m : PMem w Deque.Ctr α) (scheds : List (List Nat)) (old : Nat → Nat) : Option (Nat → Nat) :=
  writeBlocks (dblocks m) scheds 0 old

/-! ### unordered containers -/

/-- impl/unordered_base_detail.cuh:533-541 `destroy_values::operator()`: a read of the occupied bit, then the destructor. -/
def destroyValueBody (i : Nat) : Body (PShared w V) Bool :=
  [fun m r => match Bitset.test m.tab.occ i with
     | none => ({ m with ub := true }, r)
     | some o => (m, o),
   fun m r => (if r then pdestroyAt m i else m, r)]

/-- impl/algorithm_detail.h:74-79 `fill_functor::operator()`, on `_offsets`. -/
def fillOffsetBody (i : Nat) : Body (Nat → Int) Unit := [fun m r => (upd m i 0, r)]

/-- impl/numeric_detail.h:66-70 `iota_functor::operator()`, on the data of the free list. -/
def iotaExcessBody (value : Nat) (i : Nat) : Body (Nat → Option Nat) Unit := [fun m r => (upd m i (some (value + i)), r)]

/-- impl/unordered_base_detail.cuh:1227-1252 `clear` with impl/vector_detail.cuh:361-368 `vector_clear_iota`: five loops. -/
def uclear (m : PShared w V) (s1 s2 s3 s4 s5 : List Nat) : Option (PShared w V) :=
  if m.tab.count = 0 then some m
  else do
    let m1 ← parLoop (m.tab.total : Int) destroyValueBody m false s1
    let off ← parLoop (m1.tab.total : Int) fillOffsetBody m1.tab.off () s2
    let occ ← resetWords m1.tab.occ s3
    let data ← parLoop (m1.tab.excess.slots.cap : Int) (iotaExcessBody m1.tab.bc) m1.tab.excess.slots.data () s4
    let eocc ← setWords m1.tab.excess.slots.occ s5
    return { m1 with tab := { m1.tab with
      off := off, occ := occ, count := 0,
      excess := { slots := { m1.tab.excess.slots with data := data, occ := eocc }, ctr := m1.tab.excess.slots.cap } } }

/-- The memory of the collection of positions: the container, `_range_indices_end` and `_range_indices`.
impl/unordered_base.cuh:540-542. -/
structure Collect (w : Nat) (V : Type) where
  tab : PTab w V
  cnt : Nat
  idx : Nat → Nat
  ub : Bool

/-- impl/unordered_base_detail.cuh:146-154 `unordered_base_collect_positions::operator()`: a read of the occupied bit, an
atomic increment, a write. The register holds the bit, then the index. -/
def collectBody (i : Nat) : Body (Collect w V) (Bool × Nat) :=
  [fun m r => match Bitset.test m.tab.occ i with
     | none => ({ m with ub := true }, r)
     | some o => (m, (o, 0)),
   fun m r => if r.1 then ({ m with cnt := m.cnt + 1 }, (true, m.cnt)) else (m, r),
   fun m r => if r.1 then ({ m with idx := upd m.idx r.2 i, ub := m.ub || decide (m.tab.total ≤ r.2) }, r) else (m, r)]

/-- impl/unordered_base_detail.cuh:170-183 `device_range`: the positions of the range. `old` is the contents of
`_range_indices` before. -/
def urange (t : PTab w V) (old : Nat → Nat) (sched : List Nat) : Option (Collect w V) :=
  parLoop (t.total : Int) collectBody { tab := t, cnt := 0, idx := old, ub := false } (false, 0) sched

/-- The positions `_range_indices[0 … _range_indices_end)`. impl/unordered_base_detail.cuh:168-183. -/
def Collect.positions (c : Collect w V) : List Nat := (List.range c.cnt).map c.idx

end Stdgpu.ParLoops
