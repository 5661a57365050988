import Verif.Model.Vector
import Verif.Model.Deque
import Verif.Model.Mutex
/-
The locked-slot protocol of `vector` and `deque` (Model/SlotConc.lean) on the real representation of `_locks` and
`_occupied`: a `mutex_array` and a `bitset`, which keep the bits of `w` neighbouring slots in one word (`w` is 32 for the
default block type `unsigned int`). Locking, unlocking, setting, resetting and testing a bit are the functions of
Model/Mutex.lean and Model/Bitset.lean: each is one atomic access to the whole word. `none` from them (a word outside the
array) is undefined behaviour and sets the error flag. Front end, threads and results are those of Model/SlotConc.lean.
-/
namespace Stdgpu.Packed
open Stdgpu.Conc Stdgpu.SlotConc
open Stdgpu.Bitset (Bitset)

variable {w : Nat} {C K F α : Type}

/-- vector.cuh / deque.cuh: the members `_locks`, `_occupied`, `_data`. vector.cuh:587-589, deque.cuh:430-433. -/
structure PSlots (w : Nat) (α : Type) where
  cap : Nat
  locks : Bitset w
  occ : Bitset w
  data : Nat → Option α
  err : Bool

/-- vector.cuh:587-590, deque.cuh:430-436: the slots and the counters. -/
structure PMem (w : Nat) (C α : Type) where
  slots : PSlots w α
  ctr : C

/-- impl/vector_detail.cuh:39-62, impl/deque_detail.cuh:31-67 `createDeviceObject` with impl/mutex_detail.cuh:62-74 and
impl/bitset_detail.cuh:183-204. -/
def create (w capacity : Nat) (ctr : C) : PMem w C α :=
  { slots := { cap := capacity, locks := Bitset.create w capacity, occ := Bitset.create w capacity,
               data := fun _ => none, err := false },
    ctr := ctr }

/-- One step of the loop on slot `p`: vector_detail.cuh:202-226 (push), 262-287 (pop);
deque_detail.cuh:225-249, 285-310, 353-377, 412-437. -/
def pslotStep (m : PSlots w α) (op : Op K α) (p : Nat) : SPC α → PSlots w α × (SPC α ⊕ Res α)
  | .tryLock =>
    if m.cap ≤ p then ({ m with err := true }, .inl .tryLock)
    else match Mutex.tryLock1 m.locks p with
      | none => ({ m with err := true }, .inl .tryLock)
      | some (ok, b) => ({ m with locks := b }, .inl (if ok then .check else .tryLock))
  | .check =>
    match Bitset.test m.occ p with
    | none => ({ m with err := true }, .inl .check)
    | some o =>
      match op with
      | .push _ _ => (m, .inl (if !o then .construct else .unlockRetry))
      | .pop _ => (m, .inl (if o then .resetOcc else .unlockRetry))
  | .construct =>
    match op with
    | .push _ x =>
      ({ m with data := upd m.data p (some x), err := m.err || (m.data p).isSome }, .inl .setOcc)
    | .pop _ => (m, .inl .construct)
  | .setOcc =>
    match Bitset.set m.occ p true with
    | none => ({ m with err := true }, .inl .setOcc)
    | some (_, b) => ({ m with occ := b }, .inl (.unlockDone .pushed))
  | .resetOcc =>
    match Bitset.reset m.occ p with
    | none => ({ m with err := true }, .inl .resetOcc)
    | some (_, b) => ({ m with occ := b }, .inl .take)
  | .take =>
    match m.data p with
    | none => ({ m with err := true }, .inl .take)
    | some v => (m, .inl (.destroy v))
  | .destroy v =>
    ({ m with data := upd m.data p none, err := m.err || (m.data p).isNone }, .inl (.unlockDone (.popped v)))
  | .unlockRetry =>
    match Mutex.unlock m.locks p with
    | none => ({ m with err := true }, .inl .unlockRetry)
    | some b => ({ m with locks := b }, .inl .tryLock)
  | .unlockDone r =>
    match Mutex.unlock m.locks p with
    | none => ({ m with err := true }, .inl (.unlockDone r))
    | some b => ({ m with locks := b }, .inr r)

/-- One step of a thread, as `SlotConc.step`. impl/vector_detail.cuh:181-299, impl/deque_detail.cuh:203-446. -/
def pstep (fr : Front C K F) (m : PMem w C α) (t : Thread K F α) : PMem w C α × Thread K F α :=
  match t.todo with
  | [] => (m, t)
  | op :: rest =>
    match t.pc with
    | .front f =>
      let r := fr.step m.ctr op.isPush op.kind f
      let m' : PMem w C α := { m with ctr := r.1 }
      match r.2 with
      | .cont f' => (m', { t with pc := .front f' })
      | .fail => (m', { todo := rest, pc := .front fr.start, done := t.done ++ [(op, failRes op)] })
      | .go p => (m', { t with pc := .slot p .tryLock })
    | .slot p s =>
      let r := pslotStep m.slots op p s
      let m' : PMem w C α := { m with slots := r.1 }
      match r.2 with
      | .inl s' => (m', { t with pc := .slot p s' })
      | .inr res => (m', { todo := rest, pc := .front fr.start, done := t.done ++ [(op, res)] })

/-- No code: any number of callers of impl/vector_detail.cuh:181-299, impl/deque_detail.cuh:203-446. -/
def pinit (fr : Front C K F) (m : PMem w C α) (programs : List (List (Op K α))) :
    Sys (PMem w C α) (Thread K F α) :=
  { shared := m, threads := programs.map (fun p => { todo := p, pc := .front fr.start, done := [] }) }

/-- impl/vector_detail.cuh:621-636 `valid`, 776-795; `_occupied.count()` and `_locks.valid()` count the bits of the words
(impl/bitset_detail.cuh:400-411, impl/mutex_detail.cuh:144-151). -/
def vvalid (m : PMem w Int α) : Bool :=
  if m.slots.cap = 0 then true
  else (decide (0 ≤ m.ctr) && decide (m.ctr ≤ m.slots.cap)) &&
    (Vector.clampSize m.slots.cap m.ctr == (Bitset.count m.slots.occ : Int)) && Mutex.valid m.slots.locks

/-- impl/deque_detail.cuh `valid`, as `Deque.valid`. impl/deque_detail.cuh:644-657, 762-784. -/
def dvalid (m : PMem w Deque.Ctr α) : Bool :=
  if m.slots.cap = 0 then true
  else (decide (0 ≤ m.ctr.size) && decide (m.ctr.size ≤ m.slots.cap)) &&
    (Vector.clampSize m.slots.cap m.ctr.size == (Bitset.count m.slots.occ : Int)) && Mutex.valid m.slots.locks

end Stdgpu.Packed
