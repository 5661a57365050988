import Verif.Model.Conc
/-
The locked-slot protocol shared by `vector` (impl/vector_detail.cuh:181-299) and `deque`
(impl/deque_detail.cuh:203-446), executed by any number of threads.

`push_*` and `pop_*` first obtain a position from atomic counters (the "front end", different for vector and deque,
see `Model/Vector.lean` and `Model/Deque.lean`) and then run the same loop on the slot at this position:
lock the slot, look at the occupied bit, and when it has the wanted value exchange the element and the bit, unlock,
retry otherwise. Every access to shared memory is a separate step.

The mutex array and the occupied bitset are arrays of booleans here: `Props/Bitset.lean` (C13) and `Props/Mutex.lean`
prove that the real ones behave so under concurrency. A slot of `_data` is `none` while it is raw storage and
`some v` while it holds a live object; constructing over a live object, reading or destroying raw storage and using a
position outside the array set the error flag `err` (undefined behaviour as a distinct outcome).

Simplification: the initial copy `pair<T,bool> popped(_data[0], false)` of `pop_*` (vector_detail.cuh:245), which is
only used as the "no value" result, is not a step here; see `Model/Vector.lean`, `popInit`.
-/
namespace Stdgpu.SlotConc
open Stdgpu.Conc

/-- Operations; `K` distinguishes variants (front / back). impl/vector_detail.cuh:181-299,
impl/deque_detail.cuh:203-446. -/
inductive Op (K α : Type) where
  | push (k : K) (x : α)
  | pop (k : K)
  deriving DecidableEq

/-- impl/vector_detail.cuh:181-299, impl/deque_detail.cuh:203-446: is it `push_*`? -/
def Op.isPush {K α : Type} : Op K α → Bool
  | .push _ _ => true
  | .pop _ => false

/-- impl/vector_detail.cuh:181-299, impl/deque_detail.cuh:203-446: the end at which the operation works. -/
def Op.kind {K α : Type} : Op K α → K
  | .push k _ => k
  | .pop k => k

/-- Results: `push_*` returns a bool, `pop_*` a pair (value, bool). impl/vector_detail.cuh:181-299,
impl/deque_detail.cuh:203-446. -/
inductive Res (α : Type) where
  | pushed | pushFailed | popped (v : α) | popFailed
  deriving DecidableEq

/-- Program points of the loop on the slot (vector_detail.cuh:202-226 and 262-287). -/
inductive SPC (α : Type) where
  | tryLock | check | construct | setOcc | resetOcc | take | destroy (v : α) | unlockRetry | unlockDone (r : Res α)
  deriving DecidableEq

/-- vector.cuh:587-589, deque.cuh:430-433: `_data`, `_locks`, `_occupied`; `err` is a ghost flag for undefined
behaviour. -/
structure Slots (α : Type) where
  cap : Nat
  locks : Nat → Bool          -- `_locks`
  occ : Nat → Bool            -- `_occupied`
  data : Nat → Option α       -- `_data`
  err : Bool

/-- An assignment to one element of an array (e.g. impl/vector_detail.cuh:208-212). -/
def upd {β : Type} (f : Nat → β) (p : Nat) (v : β) : Nat → β := fun q => if q = p then v else f q

/-- One step of the loop on slot `p`; `.inr` when the loop is left.
vector_detail.cuh:202-226 (push), 262-287 (pop); deque_detail.cuh:225-249, 285-310, 353-377, 412-437. -/
def slotStep {K α : Type} (m : Slots α) (op : Op K α) (p : Nat) : SPC α → Slots α × (SPC α ⊕ Res α)
  | .tryLock =>
    if m.cap ≤ p then ({ m with err := true }, .inl .tryLock)
    else if m.locks p then (m, .inl .tryLock)
    else ({ m with locks := upd m.locks p true }, .inl .check)
  | .check =>
    match op with
    | .push _ _ => (m, .inl (if !m.occ p then .construct else .unlockRetry))
    | .pop _ => (m, .inl (if m.occ p then .resetOcc else .unlockRetry))
  | .construct =>
    match op with
    | .push _ x =>
      ({ m with data := upd m.data p (some x), err := m.err || (m.data p).isSome }, .inl .setOcc)
    | .pop _ => (m, .inl .construct)
  | .setOcc => ({ m with occ := upd m.occ p true }, .inl (.unlockDone .pushed))
  | .resetOcc => ({ m with occ := upd m.occ p false }, .inl .take)
  | .take =>
    match m.data p with
    | none => ({ m with err := true }, .inl .take)
    | some v => (m, .inl (.destroy v))
  | .destroy v =>
    ({ m with data := upd m.data p none, err := m.err || (m.data p).isNone }, .inl (.unlockDone (.popped v)))
  | .unlockRetry => ({ m with locks := upd m.locks p false }, .inl .tryLock)
  | .unlockDone r => ({ m with locks := upd m.locks p false }, .inr r)

/-- Outcome of a front-end step: continue, fail the operation, or go to the loop on a slot.
impl/vector_detail.cuh:185-198, 245-258, impl/deque_detail.cuh:206-221, 264-281, 333-349, 392-408. -/
inductive FOut (F : Type) where
  | cont (f : F) | fail | go (p : Nat)

/-- Front end: counters `C`, program points `F`. impl/vector_detail.cuh:185-198, 245-258,
impl/deque_detail.cuh:206-221, 264-281, 333-349, 392-408. -/
structure Front (C K F : Type) where
  start : F
  step : C → Bool → K → F → C × FOut F

/-- Program points of impl/vector_detail.cuh:181-299, impl/deque_detail.cuh:203-446. -/
inductive PC (F α : Type) where
  | front (f : F)
  | slot (p : Nat) (s : SPC α)
  deriving DecidableEq

/-- A thread executes its list of operations; the head of `todo` is the current one. A caller of
impl/vector_detail.cuh:181-299, impl/deque_detail.cuh:203-446; `done` are the calls that have returned, with their
results. -/
structure Thread (K F α : Type) where
  todo : List (Op K α)
  pc : PC F α
  done : List (Op K α × Res α)

/-- vector.cuh:587-590, deque.cuh:430-436: the slots and the counters. -/
structure Mem (C α : Type) where
  slots : Slots α
  ctr : C

/-- impl/vector_detail.cuh:181-299, impl/deque_detail.cuh:203-446: what is returned if the container is full or empty. -/
def failRes {K α : Type} : Op K α → Res α
  | .push _ _ => .pushFailed
  | .pop _ => .popFailed

/-- One step of a thread: impl/vector_detail.cuh:181-299, impl/deque_detail.cuh:203-446. -/
def step {C K F α : Type} (fr : Front C K F) (m : Mem C α) (t : Thread K F α) : Mem C α × Thread K F α :=
  match t.todo with
  | [] => (m, t)
  | op :: rest =>
    match t.pc with
    | .front f =>
      let r := fr.step m.ctr op.isPush op.kind f
      let m' : Mem C α := { m with ctr := r.1 }
      match r.2 with
      | .cont f' => (m', { t with pc := .front f' })
      | .fail => (m', { todo := rest, pc := .front fr.start, done := t.done ++ [(op, failRes op)] })
      | .go p => (m', { t with pc := .slot p .tryLock })
    | .slot p s =>
      let r := slotStep m.slots op p s
      let m' : Mem C α := { m with slots := r.1 }
      match r.2 with
      | .inl s' => (m', { t with pc := .slot p s' })
      | .inr res => (m', { todo := rest, pc := .front fr.start, done := t.done ++ [(op, res)] })

/-- No code: any number of callers of impl/vector_detail.cuh:181-299, impl/deque_detail.cuh:203-446. -/
def init {C K F α : Type} (fr : Front C K F) (m : Mem C α) (programs : List (List (Op K α))) :
    Sys (Mem C α) (Thread K F α) :=
  { shared := m, threads := programs.map (fun p => { todo := p, pc := .front fr.start, done := [] }) }

end Stdgpu.SlotConc
