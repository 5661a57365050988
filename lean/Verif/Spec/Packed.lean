import Verif.Model.Packed
/-! What a packed array of bits stands for. -/
namespace Stdgpu.Spec
open Stdgpu.Packed Stdgpu.SlotConc
open Stdgpu.Bitset (Bitset)

/-- The words `b` hold the `n` bits `f`: as many words as needed, the block width is one of the C++ types (a power of two)
and reading bit `i` gives `f i`. -/
structure Bits {w : Nat} (b : Bitset w) (n : Nat) (f : Nat → Bool) : Prop where
  width : ∃ k, k < 64 ∧ w = 2 ^ k
  size : b.size = n
  small : n < 2 ^ 64
  blocks : b.blocks.length = (n + w - 1) / w
  bits : ∀ i, i < n → Bitset.test b i = some (f i)

/-- The container with packed bits stands for the container with one boolean per slot. -/
structure Packs {w : Nat} {C α : Type} (m : PMem w C α) (v : Mem C α) : Prop where
  cap : m.slots.cap = v.slots.cap
  data : m.slots.data = v.slots.data
  err : m.slots.err = v.slots.err
  ctr : m.ctr = v.ctr
  locks : Bits m.slots.locks v.slots.cap v.slots.locks
  occ : Bits m.slots.occ v.slots.cap v.slots.occ

end Stdgpu.Spec
