import Verif.Model.Objects
/-!
Model of `device_unique_object` (memory.h:240-311, impl/memory_detail.h:421-485): a `std::unique_ptr` whose deleter is a
`std::function` that calls `destroyDeviceObject` and deletes the host copy of the container. The class declares no copy or
move members, so it has the move members of its `std::unique_ptr` and no copies.

The objects are numbered in the order of creation, like in Model/Objects. The host memory of `new T` / `delete ptr` is not
modelled. A variable of type `device_unique_object` is a slot; slots are numbered in the order of their construction. The
destructor leaves an empty slot (a program does not use it any more).
-/
namespace Stdgpu.UniqueObject
open Stdgpu.Memory Stdgpu.Objects
open Stdgpu.Vector (Fault)

/-- `std::unique_ptr<T, std::function<void(T*)>> _object` (memory.h:310): the object it points to, and whether the
`std::function` has a target. -/
structure Slot where
  ptr : Option Nat
  deleter : Bool
  deriving DecidableEq

/-- The program's variables, the containers, the memory, and (ghost) the objects for which `destroyDeviceObject` was
called. impl/memory_detail.h:420-485. -/
structure UState where
  slots : List Slot
  st : List Obj × Sys
  calls : List Nat

/-- impl/memory_detail.h:420-485 and the operations of `std::unique_ptr` (external). -/
inductive UOp where
  | null
  | make (k : Kind)
  | moveConstruct (j : Nat)
  | moveAssign (i j : Nat)
  | destruct (i : Nat)
  deriving DecidableEq

/-- The lambda of impl/memory_detail.h:434-438, 449-453. Calling a `std::function` without a target throws. -/
def callDeleter (E : Env) (u : UState) (deleter : Bool) : Option Nat → Except Fault UState
  | none => .ok u                              -- unique_ptr calls the deleter for non-null pointers only
  | some h =>
    if deleter then do
      let st ← exec E u.st (.destroy h)
      return { u with st := st, calls := u.calls ++ [h] }
    else .error .ub

/-- impl/memory_detail.h:420-485. -/
def execU (E : Env) (u : UState) : UOp → Except Fault UState
  -- impl/memory_detail.h:424-428 `device_unique_object(null_object)`
  | .null => .ok { u with slots := u.slots ++ [⟨none, false⟩] }
  -- impl/memory_detail.h:430-456 `device_unique_object(args...)`
  | .make k => do
    let st ← exec E u.st (.create k)
    return { u with st := st, slots := u.slots ++ [⟨some u.st.1.length, true⟩] }
  -- unique_ptr(unique_ptr&& u): `u.release()`, and the deleter is moved (the moved-from function may be empty)
  | .moveConstruct j =>
    match u.slots[j]? with
    | none => .error .ub
    | some x => .ok { u with slots := u.slots.set j ⟨none, false⟩ ++ [x] }
  -- unique_ptr::operator=(unique_ptr&& u): `reset(u.release())` with the old deleter, then the deleter is moved. A function
  -- moved to itself is valid but unspecified: empty here
  | .moveAssign i j =>
    match u.slots[i]?, u.slots[j]? with
    | some y, some x => do
      let u1 : UState := { u with slots := u.slots.set j ⟨none, x.deleter⟩ }
      let old := if i = j then none else y.ptr
      let u2 : UState := { u1 with slots := u1.slots.set i ⟨x.ptr, y.deleter⟩ }
      let u3 ← callDeleter E u2 y.deleter old
      let u4 : UState := { u3 with slots := u3.slots.set i ⟨x.ptr, x.deleter⟩ }
      if i = j then return { u4 with slots := u4.slots.set i ⟨x.ptr, false⟩ }
      else return { u4 with slots := u4.slots.set j ⟨none, false⟩ }
    | _, _ => .error .ub
  -- ~unique_ptr
  | .destruct i =>
    match u.slots[i]? with
    | none => .error .ub
    | some x => do
      let u1 ← callDeleter E u x.deleter x.ptr
      return { u1 with slots := u1.slots.set i ⟨none, false⟩ }

/-- A program, statement by statement. impl/memory_detail.h:420-485. -/
def execUAll (E : Env) (u : UState) (ops : List UOp) : Except Fault UState := ops.foldlM (execU E) u

/-- impl/memory_detail.h:481-485 `operator bool`. -/
def asBool (u : UState) (i : Nat) : Option Bool := (u.slots[i]?).map (fun x => x.ptr.isSome)

/-- impl/memory_detail.h:458-479 `operator*`, `operator->`: the container; undefined for an empty unique object. -/
def deref (u : UState) (i : Nat) : Except Fault Obj :=
  match u.slots[i]? with
  | some ⟨some h, _⟩ => match u.st.1[h]? with | some o => .ok o | none => .error .ub
  | _ => .error .ub

end Stdgpu.UniqueObject
