import Verif.Model.SlotConc
/-! Observations on executions of the concurrent containers, used to state C18–C22, C25, C26. -/
namespace Stdgpu.Spec
open Stdgpu.SlotConc Stdgpu.Conc

variable {C K F α : Type}

/-- All finished operations of all threads, with their results. -/
def results (s : Sys (Mem C α) (Thread K F α)) : List (Op K α × Res α) := s.threads.flatMap (·.done)

/-- Every thread has finished its program. -/
def Finished (s : Sys (Mem C α) (Thread K F α)) : Prop := ∀ t ∈ s.threads, t.todo = []

/-- The value of a push that returned true. -/
def pushVal : Op K α × Res α → Option α
  | (.push _ x, .pushed) => some x
  | _ => none

/-- The value returned by a pop that succeeded. -/
def popVal : Op K α × Res α → Option α
  | (_, .popped v) => some v
  | _ => none

/-- Values of the pushes that returned true. -/
def pushedVals (s : Sys (Mem C α) (Thread K F α)) : List α :=
  (results s).filterMap pushVal

/-- Values returned by the pops that succeeded. -/
def poppedVals (s : Sys (Mem C α) (Thread K F α)) : List α :=
  (results s).filterMap popVal

/-- The live objects in the slots `[a, b)`, in slot order. -/
def liveIn (d : Nat → Option α) (a b : Nat) : List α := (List.range' a (b - a)).filterMap d

end Stdgpu.Spec
