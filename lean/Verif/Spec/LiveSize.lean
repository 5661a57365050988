import Verif.Spec.SlotConc
import Verif.Spec.UnorderedConc
/-! Which calls have failed or are going on at a moment of an execution, used to state C94. -/
namespace Stdgpu.Spec
open Stdgpu.Conc

section Slots
open Stdgpu.SlotConc
variable {C K F α : Type}

/-- Number of pushes that have returned false. -/
def failedPushes (s : Sys (Mem C α) (Thread K F α)) : Nat :=
  (results s).countP (fun e => match e.2 with | .pushFailed => true | _ => false)

/-- Number of pops that have returned nothing. -/
def failedPops (s : Sys (Mem C α) (Thread K F α)) : Nat :=
  (results s).countP (fun e => match e.2 with | .popFailed => true | _ => false)

/-- The thread is inside a call of a push (`b = true`) or a pop (`b = false`): it has accessed the container and has not yet
returned. (`start` is the program point of the first access.) -/
def inCall [DecidableEq F] (start : F) (b : Bool) (t : Thread K F α) : Bool :=
  match t.todo, t.pc with
  | op :: _, .front f => op.isPush == b && f != start
  | op :: _, .slot _ _ => op.isPush == b
  | [], _ => false

/-- Number of pushes (pops) that are going on. -/
def running [DecidableEq F] (start : F) (b : Bool) (s : Sys (Mem C α) (Thread K F α)) : Nat :=
  s.threads.countP (inCall start b)

end Slots

section Unordered
open Stdgpu.UnorderedConc
variable {K V : Type}

/-- Number of insertions that are going on. -/
def runningInserts (s : Sys (Shared V) (Thread K V)) : Nat :=
  s.threads.countP (fun t => match t.cur with | .ins _ _ => true | _ => false)

/-- Number of erasures that are going on. -/
def runningErases (s : Sys (Shared V) (Thread K V)) : Nat :=
  s.threads.countP (fun t => match t.cur with | .era _ _ => true | _ => false)

end Unordered

end Stdgpu.Spec
