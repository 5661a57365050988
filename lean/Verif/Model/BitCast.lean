import Verif.Model.Limits
import Verif.Model.Hash
/-
Model of `bit_cast` (src/stdgpu/impl/bit_detail.h:131-152) and `simple_bit_cast` (src/stdgpu/impl/limits_detail.h:33-53): the bytes of
an object are copied one by one into an object of another type.
-/
namespace Stdgpu.BitCast

/-- A type of objects in memory (bit.h:112-115, impl/bit_detail.h:131-134): its size, the bytes of an object with a given value
(bytes from `size` on have no meaning), and the value of an object with given bytes. -/
structure Rep (α : Type) where
  size : Nat
  bytes : α → Nat → BitVec 8
  value : (Nat → BitVec 8) → α

/-- impl/bit_detail.h:143-149, impl/limits_detail.h:43-49: the loop over the bytes. `dst` are the bytes of `result` before, which is not
initialised (138, 38): they are arbitrary. -/
def copyBytes (n : Nat) (src dst : Nat → BitVec 8) : Nat → BitVec 8 :=
  (List.range n).foldl (fun m i j => if j = i then src i else m j) dst

/-- impl/bit_detail.h:135-152 `bit_cast<To>(object)`, impl/limits_detail.h:34-53 `simple_bit_cast`. -/
def bitCast {From To : Type} (F : Rep From) (T : Rep To) (garbage : Nat → BitVec 8) (object : From) : To :=
  T.value (copyBytes T.size (F.bytes object) garbage)

/-- impl/functional_detail.h:84-94 `hash<float>`, `hash<double>`: `bit_cast` to the unsigned type `U` of the same size, whose `hash`
extends the value to 64 bits. -/
def hashVia {From : Type} {w : Nat} (F : Rep From) (U : Rep (BitVec w)) (garbage : Nat → BitVec 8) (key : From) : BitVec 64 :=
  Hash.hashInt false (bitCast F U garbage key)

end Stdgpu.BitCast
