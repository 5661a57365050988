import Verif.Model.SlotConc
/-
Model of `src/stdgpu/impl/vector_detail.cuh`: functions as executed by one thread / from the host, without
interference. State: `SlotConc.Mem Int α`, i.e. `_locks`, `_occupied`, `_data` and the counter `_size` (`ctr`).

The spin loop `while (!pushed)` on a slot can only be left when the slot is unlocked and its occupied bit has the
wanted value; without interference nothing else changes them, so the loop either succeeds in its first iteration or
never ends (`Fault.hang`). `Fault.ub` is undefined behaviour.

`_size` is an `atomic<int>`; it is an unbounded integer here (capacities above 2^31-1 are not covered).
The parallel loops of the range operations get the order in which the indices are processed as a parameter
(`order`, any permutation of the indices).
-/
namespace Stdgpu.Vector
open Stdgpu.SlotConc

/-- No code: a call that does not return, or undefined behaviour, in impl/vector_detail.cuh:30-799. -/
inductive Fault where
  | hang | ub
  deriving DecidableEq

/-- vector.cuh:587-591: the members of `vector`; the counter is `_size`. Simplification: without the allocator. -/
abbrev Vec (α : Type) := Mem Int α

variable {α : Type}

/-- impl/vector_detail.cuh:551-556 `capacity`. -/
def cap (v : Vec α) : Nat := v.slots.cap

/-- impl/vector_detail.cuh:484-511 `size` (clamping). -/
def clampSize (cap : Nat) (s : Int) : Int := if s < 0 then 0 else if s > cap then cap else s

/-- impl/vector_detail.cuh:484-541 `size`. -/
def size (v : Vec α) : Int := clampSize (cap v) v.ctr

/-- impl/vector_detail.cuh:452-457 `empty`. -/
def empty (v : Vec α) : Bool := size v == 0

/-- impl/vector_detail.cuh:468-473 `full`. -/
def full (v : Vec α) : Bool := size v == cap v

/-- Body of the loop on a slot, push (impl/vector_detail.cuh:202-226). -/
def slotPush (m : Slots α) (p : Nat) (x : α) : Except Fault (Slots α) :=
  if m.cap ≤ p then .error .ub
  else if m.locks p then .error .hang
  else if m.occ p then .error .hang
  else if (m.data p).isSome then .error .ub
  else .ok { m with data := upd m.data p (some x), occ := upd m.occ p true }

/-- Body of the loop on a slot, pop (impl/vector_detail.cuh:262-287). -/
def slotPop (m : Slots α) (p : Nat) : Except Fault (α × Slots α) :=
  if m.cap ≤ p then .error .ub
  else if m.locks p then .error .hang
  else if !m.occ p then .error .hang
  else match m.data p with
    | none => .error .ub
    | some x => .ok (x, { m with data := upd m.data p none, occ := upd m.occ p false })

/-- impl/vector_detail.cuh:181-238 `push_back`; `emplace_back` (l.173-179) constructs the value and calls it. -/
def pushBack (v : Vec α) (x : α) : Except Fault (Bool × Vec α) :=
  if full v then .ok (false, v)
  else
    let pos := v.ctr
    let v1 : Vec α := { v with ctr := v.ctr + 1 }
    if 0 ≤ pos ∧ pos < cap v then do
      let s ← slotPush v1.slots pos.toNat x
      return (true, { v1 with slots := s })
    else .ok (false, v1)

/-- impl/vector_detail.cuh:240-299 `pop_back`; `none` is a pair whose second component is false. The initial copy of
`_data[0]` (l.245) is `popInit`. -/
def popBack (v : Vec α) : Except Fault (Option α × Vec α) :=
  if empty v then .ok (none, v)
  else
    let pos := v.ctr - 1
    let v1 : Vec α := { v with ctr := pos }
    if 0 ≤ pos ∧ pos < cap v then do
      let (x, s) ← slotPop v1.slots pos.toNat
      return (some x, { v1 with slots := s })
    else .ok (none, v1)

/-- impl/vector_detail.cuh:244-245: the object `pop_back` copies before anything else; `none` is raw storage. -/
def popInit (v : Vec α) : Option α := if 0 < cap v then v.slots.data 0 else none

/-- impl/vector_detail.cuh:138-143 `operator[]`: the object at `_data[n]`; `none` (undefined behaviour) for raw storage
or outside the array. -/
def get (v : Vec α) (n : Int) : Option α := if 0 ≤ n ∧ n < cap v then v.slots.data n.toNat else none

/-- impl/vector_detail.cuh:120-129 `at`: the contract checks (debug builds). -/
def atPre (v : Vec α) (n : Int) : Bool := decide (0 ≤ n) && decide (n < size v) && v.slots.occ n.toNat

/-- impl/vector_detail.cuh:152-157 `front`. -/
def front (v : Vec α) : Option α := get v 0

/-- impl/vector_detail.cuh:166-171 `back`. -/
def back (v : Vec α) : Option α := get v (size v - 1)

/-- impl/vector_detail.cuh:315-326 `vector_insert::operator()`. -/
def insertAt (s : Slots α) (begin : Int) (xs : List α) (i : Nat) : Except Fault (Slots α) :=
  let q := begin + i
  match xs[i]? with
  | none => .error .ub
  | some x =>
    if q < 0 ∨ (s.cap : Int) ≤ q then .error .ub
    else if (s.data q.toNat).isSome then .error .ub
    else .ok { s with data := upd s.data q.toNat (some x), occ := upd s.occ q.toNat true }

/-- impl/vector_detail.cuh:344-354 `vector_erase::operator()` (also `destroy_functor`, without the bit). -/
def eraseAt (s : Slots α) (begin : Int) (i : Nat) : Except Fault (Slots α) :=
  let q := begin + i
  if q < 0 ∨ (s.cap : Int) ≤ q then .error .ub
  else if (s.data q.toNat).isNone then .error .ub
  else .ok { s with data := upd s.data q.toNat none, occ := upd s.occ q.toNat false }

/-- impl/vector_detail.cuh:380-414 `insert(position, begin, end)`; `position` as offset from `_data`, the range as a
list. -/
def insertRange (order : List Nat) (v : Vec α) (position : Int) (xs : List α) : Except Fault (Vec α) :=
  if position ≠ size v then .ok v
  else
    let newSize := size v + xs.length
    if newSize > cap v then .ok v
    else do
      let s ← order.foldlM (fun s i => insertAt s (size v) xs i) v.slots
      return { slots := s, ctr := newSize }

/-- impl/vector_detail.cuh:423-450 `erase(begin, end)`; iterators as offsets from `_data`. `order` enumerates the
indices `0 … N-1`; for negative `N = end - begin` the loop is empty. -/
def eraseRange (order : List Nat) (v : Vec α) (b e : Int) : Except Fault (Vec α) :=
  if e ≠ size v then .ok v
  else
    let N := e - b
    let newSize := size v - N
    if newSize < 0 then .ok v
    else do
      let s ← order.foldlM (fun s i => eraseAt s newSize i) v.slots
      return { slots := s, ctr := newSize }

/-- memory_detail.h `destroy_functor`: ends the lifetime of element `i` of the range. impl/memory_detail.h:146-163. -/
def destroyAt (s : Slots α) (begin : Int) (i : Nat) : Except Fault (Slots α) :=
  let q := begin + i
  if q < 0 ∨ (s.cap : Int) ≤ q then .error .ub
  else if (s.data q.toNat).isNone then .error .ub
  else .ok { s with data := upd s.data q.toNat none }

/-- impl/vector_detail.cuh:586-612 `clear`; `order` enumerates `0 … size-1`. (For trivially destructible types the
destruction is skipped, which has no observable effect.) -/
def clear (order : List Nat) (v : Vec α) : Except Fault (Vec α) :=
  if empty v then .ok v
  else do
    let s ← order.foldlM (fun s i => destroyAt s 0 i) v.slots
    return { slots := { s with occ := fun _ => false }, ctr := 0 }

/-- Number of set bits in `[0,cap)` (`bitset::count`, see C11). -/
def countBits (cap : Nat) (f : Nat → Bool) : Nat := (List.range cap).countP f

/-- impl/vector_detail.cuh:621-636 `valid`, with 776-795 `occupied_count_valid`, `size_valid`, and
mutex_detail.cuh:144-151. -/
def valid (v : Vec α) : Bool :=
  if cap v = 0 then true
  else (decide (0 ≤ v.ctr) && decide (v.ctr ≤ cap v)) && (size v == (countBits (cap v) v.slots.occ : Int)) &&
    (countBits (cap v) v.slots.locks == 0)

/-- impl/vector_detail.cuh:39-62 `createDeviceObject`. -/
def create (capacity : Nat) : Vec α :=
  { slots := { cap := capacity, locks := fun _ => false, occ := fun _ => false, data := fun _ => none, err := false },
    ctr := 0 }

/-- impl/vector_detail.cuh:361-368 `detail::vector_clear_iota` (for integral `T`): overwrites all slots with
`value, value+1, …` and marks all of them occupied. Only used for trivial `T`, so plain assignment. -/
def clearIota (v : Vec Nat) (value : Nat) : Vec Nat :=
  { slots := { v.slots with data := fun p => if p < cap v then some (value + p) else v.slots.data p,
                            occ := fun _ => true },
    ctr := cap v }

/-- impl/vector_detail.cuh:734-764 `device_range`: the objects in `[0,size)`; `none` entries are raw storage. -/
def deviceRange (v : Vec α) : List (Option α) := (List.range (size v).toNat).map v.slots.data

/-! ### Concurrent front end -/

/-- Program points of impl/vector_detail.cuh:181-299 before the loop on the slot; see `vfront`. -/
inductive FPC where
  | check | rmw
  deriving DecidableEq

/-- impl/vector_detail.cuh:187-197 (push) and 247-257 (pop): the preemptive `full()` / `empty()` check (one load),
then the counter update (one read-modify-write) which gives the position. -/
def vfront (cap : Nat) : Front Int Unit FPC where
  start := .check
  step s isPush _ f :=
    match f with
    | .check =>
      if isPush then (if clampSize cap s == cap then (s, .fail) else (s, .cont .rmw))
      else (if clampSize cap s == 0 then (s, .fail) else (s, .cont .rmw))
    | .rmw =>
      if isPush then
        if 0 ≤ s ∧ s < cap then (s + 1, .go s.toNat) else (s + 1, .fail)
      else
        if 0 ≤ s - 1 ∧ s - 1 < cap then (s - 1, .go (s - 1).toNat) else (s - 1, .fail)

end Stdgpu.Vector

namespace Stdgpu.Vector
open Stdgpu.SlotConc
variable {α : Type}

/-- Operations of a sequential history. Iterators are offsets from the start of the array. The member functions of
`vector`, impl/vector_detail.cuh:113-765. -/
inductive VOp (α : Type) where
  | push (x : α) | pop | insert (position : Int) (xs : List α) | erase (b e : Int) | clear
  | size | empty | full | valid | front | back | get (n : Int) | deviceRange

/-- Results of the member functions of `vector`, impl/vector_detail.cuh:113-765. -/
inductive Out (α : Type) where
  | unit | bool (b : Bool) | num (n : Int) | pop (v : Option α) | val (v : α) | vals (l : List α)
  deriving DecidableEq

/-- An element access is undefined behaviour when there is no object. impl/vector_detail.cuh:113-172: the returned
reference is used. -/
def needVal (o : Option α) (v : Vec α) : Except Fault (Out α × Vec α) :=
  match o with
  | none => .error .ub
  | some x => .ok (.val x, v)

/-- All objects of a range; undefined behaviour when one is missing. impl/vector_detail.cuh:734-765: all elements of
the range are used. -/
def needVals (l : List (Option α)) (v : Vec α) : Except Fault (Out α × Vec α) :=
  if l.all (·.isSome) then .ok (.vals (l.filterMap id), v) else .error .ub

/-- One operation; `ord n` is the order in which a parallel loop over `n` indices processes them.
impl/vector_detail.cuh:113-765. -/
def exec (ord : Nat → List Nat) (v : Vec α) : VOp α → Except Fault (Out α × Vec α)
  | .push x => do let (b, v') ← pushBack v x; return (.bool b, v')
  | .pop => do let (r, v') ← popBack v; return (.pop r, v')
  | .insert pos xs => do let v' ← insertRange (ord xs.length) v pos xs; return (.unit, v')
  | .erase b e => do let v' ← eraseRange (ord (e - b).toNat) v b e; return (.unit, v')
  | .clear => do let v' ← clear (ord (size v).toNat) v; return (.unit, v')
  | .size => .ok (.num (size v), v)
  | .empty => .ok (.bool (empty v), v)
  | .full => .ok (.bool (full v), v)
  | .valid => .ok (.bool (valid v), v)
  | .front => needVal (front v) v
  | .back => needVal (back v) v
  | .get n => needVal (get v n) v
  | .deviceRange => needVals (deviceRange v) v

/-- A history; `ords k` are the loop orders of operation number `k`. Calls of impl/vector_detail.cuh:113-765 one after
another. -/
def execAll (ords : Nat → Nat → List Nat) (v : Vec α) : List (VOp α) → Except Fault (List (Out α) × Vec α)
  | [] => .ok ([], v)
  | op :: ops => do
    let (o, v1) ← exec (ords 0) v op
    let (os, v2) ← execAll (fun k => ords (k + 1)) v1 ops
    return (o :: os, v2)

end Stdgpu.Vector
