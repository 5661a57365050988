import Verif.Model.UnorderedConc
/-
Model of the bulk operations `insert(begin, end)` and `erase(begin, end)` of
`src/stdgpu/impl/unordered_base_detail.cuh`, which `unordered_map` and `unordered_set` forward to
(impl/unordered_map_detail.cuh:217-263, impl/unordered_set_detail.cuh). The range is the list of its values.
-/
namespace Stdgpu.UnorderedConc
open Stdgpu.Conc
open Stdgpu.Unordered

variable {K V : Type}

/-- impl/unordered_base_detail.cuh:996-1018 `insert(begin, end)`: `for_each_index` runs the functor `insert_value`
(lines 470-496) for every index, that is one thread per value which calls `insert(*(begin + i))` and ignores the result.
The interleaving of the threads is `sched`. -/
def bulkInsert (P : Params K V) (t : Tab V) (vs : List V) (sched : List Nat) : Sys (Shared V) (Thread K V) :=
  run (step P) (init t (vs.map (fun v => [.insert v]))) sched

/-- impl/unordered_base_detail.cuh:1045-1066 `erase(begin, end)` with the functor `erase_from_key` (lines 498-523). -/
def bulkErase (P : Params K V) (t : Tab V) (ks : List K) (sched : List Nat) : Sys (Shared V) (Thread K V) :=
  run (step P) (init t (ks.map (fun k => [.erase k]))) sched

end Stdgpu.UnorderedConc
