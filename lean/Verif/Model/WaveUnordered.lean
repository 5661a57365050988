import Verif.Model.Execution
import Verif.Model.UnorderedConc
/-
`insert` and `erase` of the unordered containers on wavefronts. Their whole body is handed to `warp_convergent_execute`
(impl/unordered_base_detail.cuh:967-994, 1019-1043); what is before and after it accesses no shared memory. Lookups do not
use it and are not part of this model.
-/
namespace Stdgpu.Execution
open Stdgpu.UnorderedConc (Shared Thread Op Res)

variable {K V : Type}

/-- impl/unordered_base_detail.cuh:967-994 `insert`, 1019-1043 `erase`: a call by one lane; the steps are those of
`Model/UnorderedConc.lean`. -/
def uLane (P : Unordered.Params K V) : LaneProg (Shared V) (Op K V) Res (Thread K V) where
  start op := { todo := [op], cur := .idle, ex := ⟨[], .front .check, []⟩, done := [] }
  step := UnorderedConc.step P
  kind t :=
    match t.todo, t.cur, t.done with
    | [], .idle, (_, r) :: _ => .ret r
    | _, _, _ => .crit

end Stdgpu.Execution
