/-
Model of src/stdgpu/impl/functional_detail.h: `stdgpu::hash`. A value of an arithmetic type is given by its bits;
`std::size_t` has 64 bits.
-/
namespace Stdgpu.Hash

/-- impl/functional_detail.h:60-64 `hash<T>::operator()` of the integer and character types and `bool`, for a type of `w`
bits: `static_cast<std::size_t>` extends by the sign for signed types. -/
def hashInt {w : Nat} (signed : Bool) (key : BitVec w) : BitVec 64 := if signed then key.signExtend 64 else key.setWidth 64

/-- impl/functional_detail.h:48-56 `hash_base<T, true>`: enumerations, through the underlying type; `bits` are the bits of
the enumerator in that type. -/
def hashEnum {E : Type} {w : Nat} (signed : Bool) (bits : E → BitVec w) (key : E) : BitVec 64 := hashInt signed (bits key)

/-- impl/functional_detail.h:84-88 `hash<float>`: `bit_cast` to `std::uint32_t`. -/
def hashFloat (key : BitVec 32) : BitVec 64 := hashInt false key

/-- impl/functional_detail.h:90-94 `hash<double>`: `bit_cast` to `std::uint64_t`. -/
def hashDouble (key : BitVec 64) : BitVec 64 := hashInt false key

/-- impl/functional_detail.h:96-100 `hash<long double>`; `toDouble` is the conversion, whose result is given by its bits. -/
def hashLongDouble {L : Type} (toDouble : L → BitVec 64) (key : L) : BitVec 64 := hashDouble (toDouble key)

end Stdgpu.Hash
