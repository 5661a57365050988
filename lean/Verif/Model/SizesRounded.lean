import Verif.Model.Sizes
import Verif.Spec.Rounding
/-
Model of `expected_collisions` (impl/unordered_base_detail.cuh:34-48) with rounding.
-/
namespace Stdgpu.Unordered
open Stdgpu.Spec

/-- impl/unordered_base_detail.cuh:34-48 `expected_collisions` with a `long double` of `p` significant bits: `result` is a possible
result. Every operation may round up or down. The second argument of `std::pow` is an integer for every capacity up to `2^p`, so
only integer exponents occur here. -/
def CollisionsRounded (p bucketCount capacity result : Nat) : Prop :=
  ∃ k n q b e w d r : ℚ, ∃ j : Nat,
    Rounds p bucketCount k ∧ Rounds p capacity n ∧                       -- lines 40, 41
    Rounds p (1 / k) q ∧ Rounds p (1 - q) b ∧ Rounds p (n - 1) e ∧       -- line 43: 1.0L / k, 1.0L - ..., n - 1.0L
    e = j ∧ Rounds p (b ^ j) w ∧                                         -- std::pow
    Rounds p (1 - w) d ∧ Rounds p (n * d) r ∧ result = ⌈r⌉.toNat         -- 1.0L - ..., n * ..., std::ceil, static_cast<index_t>

/-- impl/unordered_base_detail.cuh:1254-1308 `createDeviceObject`, as above; `table` is a possible result. -/
def CreatedRounded {V : Type} (p capacity : Nat) (table : Tab V) : Prop :=
  ∃ c, CollisionsRounded p (bucketCount capacity) capacity c ∧ table = create (bucketCount capacity) (c + 1)

end Stdgpu.Unordered
