import Verif.Model.Execution
import Verif.Model.SlotConc
/-
`push_*` and `pop_*` of vector and deque on wavefronts. A position is obtained from the atomic counters outside of
`warp_convergent_execute`, the loop on the slot at this position is handed to it
(impl/vector_detail.cuh:181-232, 241-299, impl/deque_detail.cuh:203-446).
-/
namespace Stdgpu.Execution
open Stdgpu.SlotConc (Mem Thread Op Res Front)

variable {C K F α : Type}

/-- impl/vector_detail.cuh:181-232 `push_back`, 241-299 `pop_back`, impl/deque_detail.cuh:203-262, 264-328, 331-389, 391-446: a
call by one lane; the steps are those of `Model/SlotConc.lean`. -/
def sLane (fr : Front C K F) : LaneProg (Mem C α) (Op K α) (Res α) (Thread K F α) where
  start op := ⟨[op], .front fr.start, []⟩
  step := SlotConc.step fr
  kind t :=
    match t.done with
    | (_, r) :: _ => .ret r
    | [] => match t.pc with
      | .front _ => .free
      | .slot _ _ => .crit

end Stdgpu.Execution
