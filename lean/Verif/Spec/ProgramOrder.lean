import Verif.Spec.SlotConc
/-!
Specification of program order (C96): what one thread of a concurrent execution has pushed and popped so far, in the order
of its program.
-/
namespace Stdgpu.Spec
open Stdgpu.SlotConc Stdgpu.Conc

variable {C K F α : Type}

/-- The calls of thread `i` that have returned, with their results, in the order of its program. -/
def callsBy (s : Sys (Mem C α) (Thread K F α)) (i : Nat) : List (Op K α × Res α) :=
  match s.threads[i]? with
  | none => []
  | some t => t.done

/-- The values that thread `i` has pushed successfully at the end `k`, first one first. -/
def pushedBy [DecidableEq K] (k : K) (s : Sys (Mem C α) (Thread K F α)) (i : Nat) : List α :=
  (callsBy s i).filterMap (fun e => if e.1.kind = k then pushVal e else none)

/-- The values that thread `i` has popped from the end `k`, first one first. -/
def poppedBy [DecidableEq K] (k : K) (s : Sys (Mem C α) (Thread K F α)) (i : Nat) : List α :=
  (callsBy s i).filterMap (fun e => if e.1.kind = k then popVal e else none)

end Stdgpu.Spec
