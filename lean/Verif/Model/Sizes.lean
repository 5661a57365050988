import Verif.Model.Unordered
import Verif.Model.Bit
import Mathlib.Algebra.Order.Floor.Ring
import Mathlib.Data.Rat.Floor
/-
Model of the computation of the sizes in `unordered_base::createDeviceObject`
(impl/unordered_base_detail.cuh:1254-1308).
-/
namespace Stdgpu.Unordered

/-- `static_cast<float>(n)` of a non-negative integer: rounding to 24 significant bits, to nearest, ties to even. The
result is an integer. -/
def toFloat (n : Nat) : Nat :=
  let s := n.log2 + 1 - 24
  let q := n / 2 ^ s
  let r := n % 2 ^ s
  if 2 * r < 2 ^ s then q * 2 ^ s
  else if 2 ^ s < 2 * r then (q + 1) * 2 ^ s
  else (if q % 2 = 0 then q else q + 1) * 2 ^ s

/-- impl/unordered_base_detail.cuh:1265-1267: `bit_ceil(static_cast<std::size_t>(std::ceil(static_cast<float>(capacity) /
default_max_load_factor())))`; the load factor (lines 50-54) is 1, so division and `ceil` do nothing. -/
def bucketCount (capacity : Nat) : Nat := (Bit.bitCeil (BitVec.ofNat 64 (toFloat capacity))).toNat

/-- impl/unordered_base_detail.cuh:34-48 `expected_collisions`, in exact arithmetic; the code uses `long double`, and
`Model/SizesRounded.lean` allows any rounding errors of it. -/
def expectedCollisions (bucketCount capacity : Nat) : Nat :=
  (⌈(capacity : ℚ) * (1 - (1 - 1 / (bucketCount : ℚ)) ^ (capacity - 1))⌉).toNat

/-- impl/unordered_base_detail.cuh:1272. -/
def excessCount (capacity : Nat) : Nat := expectedCollisions (bucketCount capacity) capacity + 1

/-- impl/unordered_base_detail.cuh:1254-1308 `createDeviceObject`. -/
def createDeviceObject {V : Type} (capacity : Nat) : Tab V := create (bucketCount capacity) (excessCount capacity)

end Stdgpu.Unordered
