import Verif.Model.Sizes
import Mathlib.Data.Int.Log
/-
Model of `load_factor` and `max_load_factor` of the unordered containers (impl/unordered_base_detail.cuh:1155-1176).
-/
namespace Stdgpu.Unordered

/-- Rounding to an integer, to nearest, ties to even. The rounding of the conversions and of the division in
impl/unordered_base_detail.cuh:1155-1169. -/
def roundEven (q : ℚ) : ℤ :=
  if 2 * (q - ⌊q⌋) < 1 then ⌊q⌋
  else if 1 < 2 * (q - ⌊q⌋) then ⌊q⌋ + 1
  else if ⌊q⌋ % 2 = 0 then ⌊q⌋ else ⌊q⌋ + 1

/-- Rounding of a non-negative number to a `float`: 24 significant bits, to nearest, ties to even. (Overflow and subnormal
numbers are not modelled: the quotients of the sizes of a container are 0 or between 2^-63 and 2^64.) -/
def roundFloat (q : ℚ) : ℚ :=
  if q = 0 then 0
  else
    let e : ℤ := Int.log 2 q - 23
    (roundEven (q / 2 ^ e) : ℚ) * 2 ^ e

/-- impl/unordered_base_detail.cuh:50-54 and 1171-1176. -/
def maxLoadFactor : ℚ := 1

/-- impl/unordered_base_detail.cuh:1155-1169: `static_cast<float>(size()) / static_cast<float>(bucket_count())`, the quotient
again rounded to `float`. -/
def loadFactor {V : Type} (t : Tab V) : ℚ := roundFloat ((toFloat (size t).toNat : ℚ) / (toFloat t.bc : ℚ))

end Stdgpu.Unordered
