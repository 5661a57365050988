import Verif.Model.Vector
import Verif.Model.Atomic
/-
Model of `src/stdgpu/impl/deque_detail.cuh`. State: `SlotConc.Mem Ctr α`, i.e. `_locks`, `_occupied`, `_data` and the
three atomic counters `_size`, `_begin`, `_end`.

As in `Model/Vector.lean` the functions below are the ones executed by one thread without interference (the spin loop on
a slot succeeds at once or never, `Fault.hang`), and `dfront` is the concurrent front end: every access to a counter is
a separate step. `_size` is an unbounded integer; `_begin`, `_end` (`unsigned int`) are natural numbers, kept below the
capacity by the modular operations (C06).
-/
namespace Stdgpu.Deque
open Stdgpu.SlotConc
open Stdgpu.Vector (Fault clampSize slotPush slotPop destroyAt countBits Out needVal)
open Stdgpu.Atomic (fetchIncMod fetchDecMod)

/-- deque.cuh:434-436: `_size`, `_begin`, `_end`. -/
structure Ctr where
  size : Int
  begin : Nat
  endd : Nat
  deriving DecidableEq

/-- deque.cuh:430-438: the members of `deque`. Simplification: without `_range_indices` (see `rangeIndices`) and the
allocators. -/
abbrev Deq (α : Type) := Mem Ctr α

/-- The two ends of a deque: `push_back`, `pop_back` (impl/deque_detail.cuh:203-319) and `push_front`, `pop_front`
(330-446). -/
inductive Side where
  | front | back
  deriving DecidableEq

variable {α : Type}

/-- deque_detail.cuh:549 `capacity` (and 542 `max_size`). -/
def cap (d : Deq α) : Nat := d.slots.cap

/-- deque_detail.cuh:481-509 `size`. -/
def size (d : Deq α) : Int := clampSize (cap d) d.ctr.size

/-- deque_detail.cuh:449-453 `empty`. -/
def empty (d : Deq α) : Bool := size d == 0

/-- deque_detail.cuh:465-469 `full`. -/
def full (d : Deq α) : Bool := size d == cap d

/-- The counter updates that determine the slot of an operation:
push_back 221 (`_end.fetch_inc_mod`), pop_back 279-280 (`_end.fetch_dec_mod` and reconstruction of the stored value),
push_front 348-349 (`_begin.fetch_dec_mod`), pop_front 407 (`_begin.fetch_inc_mod`). -/
def position (cap : Nat) (c : Ctr) (isPush : Bool) : Side → Nat × Ctr
  | .back =>
    if isPush then
      let r := fetchIncMod c.endd cap
      (r.1, { c with endd := r.2 })
    else
      let r := fetchDecMod c.endd cap
      ((if r.1 = 0 then cap - 1 else r.1 - 1), { c with endd := r.2 })
  | .front =>
    if isPush then
      let r := fetchDecMod c.begin cap
      ((if r.1 = 0 then cap - 1 else r.1 - 1), { c with begin := r.2 })
    else
      let r := fetchIncMod c.begin cap
      (r.1, { c with begin := r.2 })

/-- deque_detail.cuh:203-258 `push_back`, 330-386 `push_front`; `emplace_*` (195-201, 322-328) construct the value and
call them. -/
def push (side : Side) (d : Deq α) (x : α) : Except Fault (Bool × Deq α) :=
  if full d then .ok (false, d)
  else
    let current := d.ctr.size
    let c1 : Ctr := { d.ctr with size := d.ctr.size + 1 }
    if current < cap d then do
      let r := position (cap d) c1 true side
      let s ← slotPush d.slots r.1 x
      return (true, { slots := s, ctr := r.2 })
    else .ok (false, { d with ctr := c1 })

/-- deque_detail.cuh:261-319 `pop_back`, 389-446 `pop_front` (`none`: second component false). -/
def pop (side : Side) (d : Deq α) : Except Fault (Option α × Deq α) :=
  if empty d then .ok (none, d)
  else
    let current := d.ctr.size
    let c1 : Ctr := { d.ctr with size := d.ctr.size - 1 }
    if current > 0 then do
      let r := position (cap d) c1 false side
      let (x, s) ← slotPop d.slots r.1
      return (some x, { slots := s, ctr := r.2 })
    else .ok (none, { d with ctr := c1 })

/-- deque_detail.cuh:264-265, 392-393: the object `pop_*` copies first; `none` is raw storage. -/
def popInit (d : Deq α) : Option α := if 0 < cap d then d.slots.data 0 else none

/-- deque_detail.cuh:159-164 `operator[]`. C++ `%` truncates; the left operand is non-negative for `n ≥ 0`. -/
def get (d : Deq α) (n : Int) : Option α :=
  let q := (((d.ctr.begin : Int) + n).tmod (cap d : Int))
  if 0 ≤ q ∧ q < cap d then d.slots.data q.toNat else none

/-- deque_detail.cuh:141-149 `at`: the contract checks; `occupied(n)` (754-758) is the raw bit `n`. -/
def atPre (d : Deq α) (n : Int) : Bool := decide (0 ≤ n) && decide (n < size d) && d.slots.occ n.toNat

/-- deque_detail.cuh:174-178 `front`. -/
def front (d : Deq α) : Option α := get d 0

/-- deque_detail.cuh:188-192 `back`. -/
def back (d : Deq α) : Option α := get d (size d - 1)

/-- deque_detail.cuh:594-624: the blocks (start, length) of live elements, also used by `device_range` (676-700). -/
def blocks (d : Deq α) : List (Nat × Nat) :=
  if full d then [(0, cap d)]
  else if d.ctr.begin ≤ d.ctr.endd then [(d.ctr.begin, d.ctr.endd - d.ctr.begin)]
  else [(0, d.ctr.endd), (d.ctr.begin, cap d - d.ctr.begin)]

/-- deque_detail.cuh:585-633 `clear`; `ord k n` is the order in which the destruction of block number `k` (with `n`
elements) processes it. (For trivially destructible types destruction is skipped, without observable effect.) -/
def clear (ord : Nat → Nat → List Nat) (d : Deq α) : Except Fault (Deq α) :=
  if empty d then .ok d
  else do
    let s ← (blocks d).zipIdx.foldlM
      (fun s (b : (Nat × Nat) × Nat) => (ord b.2 b.1.2).foldlM (fun s i => destroyAt s (b.1.1 : Int) i) s) d.slots
    return { slots := { s with occ := fun _ => false }, ctr := { size := 0, begin := 0, endd := 0 } }

/-- deque_detail.cuh:644-658 `valid`, with 761-782. -/
def valid (d : Deq α) : Bool :=
  if cap d = 0 then true
  else (decide (0 ≤ d.ctr.size) && decide (d.ctr.size ≤ cap d)) &&
    (size d == (countBits (cap d) d.slots.occ : Int)) && (countBits (cap d) d.slots.locks == 0)

/-- deque_detail.cuh:31-67 `createDeviceObject`. -/
def create (capacity : Nat) : Deq α :=
  { slots := { cap := capacity, locks := fun _ => false, occ := fun _ => false, data := fun _ => none, err := false },
    ctr := { size := 0, begin := 0, endd := 0 } }

/-- deque_detail.cuh:668-704 `device_range`: the indices written to `_range_indices` … -/
def rangeIndices (d : Deq α) : List Nat := (blocks d).flatMap (fun b => List.range' b.1 b.2)

/-- … and the objects seen through the range, whose length is `size()`: entry `k` is the object at the `k`-th index;
`none` when there is no such object (or no such index was written). impl/deque_detail.cuh:659-704. -/
def deviceRange (d : Deq α) : List (Option α) :=
  (List.range (size d).toNat).map (fun k => (rangeIndices d)[k]?.bind d.slots.data)

/-! ### Concurrent front end -/

/-- Program points of impl/deque_detail.cuh:203-446 before the loop on the slot; see `dfront`. -/
inductive FPC where
  | check | size | pos
  deriving DecidableEq

/-- The three counter accesses of `push_*` and `pop_*`: the preemptive `full()` / `empty()` check, the update of
`_size` with the check of the old value, and the update of `_begin` or `_end`. impl/deque_detail.cuh:206-221,
264-281, 333-349, 392-408. -/
def dfront (cap : Nat) : Front Ctr Side FPC where
  start := .check
  step c isPush side f :=
    match f with
    | .check =>
      if isPush then (if clampSize cap c.size == cap then (c, .fail) else (c, .cont .size))
      else (if clampSize cap c.size == 0 then (c, .fail) else (c, .cont .size))
    | .size =>
      if isPush then
        if c.size < cap then ({ c with size := c.size + 1 }, .cont .pos) else ({ c with size := c.size + 1 }, .fail)
      else
        if c.size > 0 then ({ c with size := c.size - 1 }, .cont .pos) else ({ c with size := c.size - 1 }, .fail)
    | .pos =>
      let r := position cap c isPush side
      (r.2, .go r.1)

/-! ### Sequential histories -/

/-- The member functions of `deque`, impl/deque_detail.cuh:133-658. -/
inductive DOp (α : Type) where
  | push (side : Side) (x : α) | pop (side : Side) | clear
  | size | empty | full | valid | front | back | get (n : Int)

/-- One operation; `ord` as in `clear`. impl/deque_detail.cuh:133-658. -/
def exec (ord : Nat → Nat → List Nat) (d : Deq α) : DOp α → Except Fault (Out α × Deq α)
  | .push side x => do let (b, d') ← push side d x; return (.bool b, d')
  | .pop side => do let (r, d') ← pop side d; return (.pop r, d')
  | .clear => do let d' ← clear ord d; return (.unit, d')
  | .size => .ok (.num (size d), d)
  | .empty => .ok (.bool (empty d), d)
  | .full => .ok (.bool (full d), d)
  | .valid => .ok (.bool (valid d), d)
  | .front => match front d with | some x => .ok (.val x, d) | none => .error .ub
  | .back => match back d with | some x => .ok (.val x, d) | none => .error .ub
  | .get n => match get d n with | some x => .ok (.val x, d) | none => .error .ub

/-- Calls of the functions of impl/deque_detail.cuh:133-658 one after another. -/
def execAll (ords : Nat → Nat → Nat → List Nat) (d : Deq α) : List (DOp α) → Except Fault (List (Out α) × Deq α)
  | [] => .ok ([], d)
  | op :: ops => do
    let (o, d1) ← exec (ords 0) d op
    let (os, d2) ← execAll (fun k => ords (k + 1)) d1 ops
    return (o :: os, d2)

end Stdgpu.Deque
