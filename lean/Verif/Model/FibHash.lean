import Verif.Model.Bit
/-
Model of the bucket computation of the unordered containers.
`std::size_t` is 64 bits wide (`BitVec 64`); `index_t` is a signed 64-bit integer (cstddef.h default), modelled
as `Int`; the casts `index_t -> size_t` are `BitVec.ofInt`, `size_t -> index_t` are `BitVec.toInt`.
-/
namespace Stdgpu.FibHash
open Stdgpu.Bit

/-- The multiplier, impl/unordered_base_detail.cuh:76. -/
def multiplier : BitVec 64 := 11400714819323198485#64

/-- impl/unordered_base_detail.cuh:56-85 `fibonacci_hashing`. -/
def fibonacciHashing (hash : BitVec 64) (bucketCount : Int) : Int :=
  let maxBitWidthResult : Int := (bitWidth (BitVec.ofInt 64 bucketCount) - 1).toInt
  if maxBitWidthResult ≤ 0 then 0
  else
    let droppedBitWidth : BitVec 64 := BitVec.ofInt 64 (64 - maxBitWidthResult)
    let improvedHash := hash ^^^ (hash >>> droppedBitWidth)
    ((multiplier * improvedHash) >>> droppedBitWidth).toInt

/-- impl/unordered_base_detail.cuh:547-565 `unordered_base::bucket`, `bucket_impl`: hash the key, then `fibonacci_hashing`. -/
def bucket {Key : Type _} (hash : Key → BitVec 64) (bucketCount : Int) (key : Key) : Int :=
  fibonacciHashing (hash key) bucketCount

end Stdgpu.FibHash
