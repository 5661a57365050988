import Verif.Model.PackedUnordered
import Verif.Spec.Packed
/-! What an unordered container with packed bits stands for. -/
namespace Stdgpu.Spec
open Stdgpu.Packed

/-- The unordered container with packed occupied bits and locks stands for the one with one boolean per entry. -/
structure PacksT {w : Nat} {V : Type} (m : PTab w V) (t : Unordered.Tab V) : Prop where
  bc : m.bc = t.bc
  total : m.total = t.total
  count : m.count = t.count
  off : ∀ p, p < t.total → m.off p = t.off p
  val : m.val = t.val
  live : m.live = t.live
  occ : Bits m.occ t.total t.occ
  locks : Bits m.locks t.total t.locks
  excess : Packs m.excess t.excess

end Stdgpu.Spec
