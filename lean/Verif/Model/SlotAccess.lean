import Verif.Model.SlotConc
/-
Plain (not atomic) accesses to the element storage `_data` by `push_*` and `pop_*` of vector and deque, and the initial
copy `pair<T, bool> popped(_data[0], false)` of `pop_*` (impl/vector_detail.cuh:244-245, impl/deque_detail.cuh:264-265,
392-393), which `Model/SlotConc.lean` leaves out. The machine here is the one of `SlotConc` plus this step.

`raw` records that the copied `_data[0]` was raw storage (or that there is no slot 0): undefined behaviour for the copy
constructor of `T`.
-/
namespace Stdgpu.SlotConc
open Stdgpu.Conc

/-- A thread; `copied` tells that the current `pop_*` has made its initial copy. impl/vector_detail.cuh:240-299,
impl/deque_detail.cuh:260-319, 388-446. -/
structure IThread (K F α : Type) where
  base : Thread K F α
  copied : Bool

/-- vector.cuh:587-590, deque.cuh:430-436, with a ghost flag: raw storage has been copied. -/
structure IMem (C α : Type) where
  base : Mem C α
  raw : Bool

/-- The next step is the initial copy: vector_detail.cuh:245, deque_detail.cuh:265, 393. -/
def needsCopy {K F α : Type} (t : IThread K F α) : Bool :=
  !t.copied && match t.base.todo with
    | .pop _ :: _ => true
    | _ => false

/-- One step. `copied` is forgotten when the operation returns. impl/vector_detail.cuh:181-299,
impl/deque_detail.cuh:203-446. -/
def stepI {C K F α : Type} (fr : Front C K F) (m : IMem C α) (t : IThread K F α) : IMem C α × IThread K F α :=
  if needsCopy t then
    ({ m with raw := m.raw || decide (m.base.slots.cap = 0) || (m.base.slots.data 0).isNone }, { t with copied := true })
  else
    let r := step fr m.base t.base
    ({ m with base := r.1 }, { base := r.2, copied := t.copied && decide (r.2.todo.length = t.base.todo.length) })

/-- No code: any number of callers of impl/vector_detail.cuh:181-299, impl/deque_detail.cuh:203-446. -/
def initI {C K F α : Type} (fr : Front C K F) (m : Mem C α) (programs : List (List (Op K α))) :
    Sys (IMem C α) (IThread K F α) :=
  { shared := ⟨m, false⟩,
    threads := programs.map (fun p => { base := { todo := p, pc := .front fr.start, done := [] }, copied := false }) }

/-- The plain access to the element storage that a thread performs in its next step of the loop on a slot: slot and whether
it is a write (construct: vector_detail.cuh:210, copy of the element: 270-273, destroy: 274). -/
def slotAccess {K F α : Type} (t : Thread K F α) : Option (Nat × Bool) :=
  match t.todo, t.pc with
  | .push _ _ :: _, .slot p .construct => some (p, true)
  | .pop _ :: _, .slot p .take => some (p, false)
  | .pop _ :: _, .slot p (.destroy _) => some (p, true)
  | _, _ => none

/-- The same including the initial copy. impl/vector_detail.cuh:245, impl/deque_detail.cuh:265, 393. -/
def access {K F α : Type} (t : IThread K F α) : Option (Nat × Bool) :=
  if needsCopy t then some (0, false) else slotAccess t.base

end Stdgpu.SlotConc
