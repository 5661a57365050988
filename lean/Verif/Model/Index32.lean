import Verif.Model.UnorderedConc
import Verif.Model.Counter32
import Verif.Model.Sizes
/-
The integers of unordered containers with 32 bits: `_occupied_count` is an `atomic<int>` (impl/unordered_base.cuh:532), the `_size`
of the free list `_excess_list_positions` too (vector.cuh:590), and `index_t`, the type of `_offsets`, `_bucket_count` and of
the sizes computed by `createDeviceObject`, has 32 bits with `STDGPU_USE_32_BIT_INDEX` (cstddef.h:55-59).
`Model/UnorderedConc.lean` and `Model/Sizes.lean` use unbounded integers.
-/
namespace Stdgpu.Index32
open Stdgpu.Counter32 (wrap)
open Stdgpu.Unordered Stdgpu.UnorderedConc

variable {K V : Type}

/-- What has been stored in 32 bit variables. -/
def store32 (m : Shared V) : Shared V :=
  { m with tab := { m.tab with
      count := wrap m.tab.count
      off := fun p => if p < m.tab.total then wrap (m.tab.off p) else m.tab.off p
      excess := { m.tab.excess with ctr := wrap m.tab.excess.ctr } } }

/-- One step of a thread (impl/unordered_base_detail.cuh:655-1043, `Model/UnorderedConc.lean`) in which the results of all
stores to `_occupied_count`, `_offsets` and the `_size` of the free list are wrapped to 32 bits. (The position computed by a
walk, `key_index += _offsets[key_index]`, leaves the table if the sum does not fit in 32 bits, wrapped or not.) -/
def step32 (P : Params K V) (m : Shared V) (t : Thread K V) : Shared V × Thread K V :=
  let r := step P m t
  (store32 r.1, r.2)

/-- impl/unordered_base_detail.cuh:1265-1274: bucket, excess and total count as 32 bit `index_t`. (`expected_collisions` takes
the wrapped bucket count; it is called only if this is positive because of `STDGPU_EXPECTS`.) -/
def sizes32 (capacity : Nat) : Int × Int × Int :=
  let bc := wrap (bucketCount capacity)
  let ec := wrap (wrap (expectedCollisions bc.toNat capacity) + 1)
  (bc, ec, wrap (bc + ec))

end Stdgpu.Index32
