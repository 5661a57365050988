import Verif.Spec.SlotConc
import Verif.Model.Deque
/-! How often operations are called in the programs of a kernel, used to state C95. -/
namespace Stdgpu.Spec
open Stdgpu.SlotConc Stdgpu.Deque

variable {K α : Type}

/-- Number of calls of pop (anywhere) in the programs. -/
def popCalls (progs : List (List (Op K α))) : Nat := progs.flatten.countP (fun op => !op.isPush)

/-- Number of calls of pop at one end of a deque. -/
def popCallsAt (side : Side) (progs : List (List (Op Side α))) : Nat :=
  progs.flatten.countP (fun op => !op.isPush && decide (op.kind = side))

/-- Number of calls of push at one end of a deque. -/
def pushCallsAt (side : Side) (progs : List (List (Op Side α))) : Nat :=
  progs.flatten.countP (fun op => op.isPush && decide (op.kind = side))

/-- The thread is in an operation that has been assigned slot `p`. -/
def worksOn {F : Type} (t : Thread K F α) (p : Nat) : Prop := ∃ op rest sp, t.todo = op :: rest ∧ t.pc = .slot p sp

end Stdgpu.Spec
