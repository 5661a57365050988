import Verif.Model.Memory
/-
Model of src/stdgpu/impl/ranges_detail.h (and ranges.h). `device_range` and `host_range` have the same text; an iterator
is a byte address, `esz` is `sizeof(T)`. The default constructor gives two null pointers.
-/
namespace Stdgpu.Ranges
open Stdgpu.Memory

/-- ranges.h:42-117, 124-199 `device_range`, `host_range`: `_begin` and `_end`. -/
structure Range where
  first : Int
  last : Int
  deriving DecidableEq

/-- impl/ranges_detail.h:28-34, 86-92 `device_range(T* p, index64_t n)`, `host_range(T* p, index64_t n)` and with an iterator
instead of `p` (36-42, 94-100). -/
def ofCount (esz : Nat) (p : Int) (n : Int) : Range := ⟨p, p + n * esz⟩

/-- impl/ranges_detail.h:22-26, 80-84 `device_range(T* p)`, `host_range(T* p)`: the size is that of the registered
array. -/
def ofArray (s : Sys) (esz : Nat) (p : Nat) : Range := ofCount esz p (arraySize s p esz)

/-- impl/ranges_detail.h:44-50, 102-108 `device_range(begin, end)`, `host_range(begin, end)`. -/
def ofBounds (b e : Int) : Range := ⟨b, e⟩

/-- impl/ranges_detail.h:66-71, 124-129 `size`: the difference of two pointers to `T`. -/
def size (esz : Nat) (r : Range) : Int := (r.last - r.first) / esz

/-- impl/ranges_detail.h:73-78, 131-136 `empty`. -/
def empty (esz : Nat) (r : Range) : Bool := size esz r == 0

/-- The addresses `begin()[0], begin()[1], …` up to `end()`: what a loop over the range visits.
impl/ranges_detail.h:52-64, 110-122. -/
def addresses (esz : Nat) (r : Range) : List Int := (List.range (size esz r).toNat).map (fun (i : Nat) => r.first + i * esz)

/-- impl/ranges_detail.h:138-152 `transform_range(r, f)` for a base range with `n` elements that are read by `get`: its
iterators are pairs of a base iterator and `f` (thrust::transform_iterator, external: `it[i]` is `f(base[i])`). -/
structure TransformRange (A B : Type) where
  first : Nat
  last : Nat
  get : Nat → A
  f : A → B

/-- impl/ranges_detail.h:138-152. -/
def transform {A B : Type} (n : Nat) (get : Nat → A) (f : A → B) : TransformRange A B := ⟨0, n, get, f⟩

/-- impl/ranges_detail.h:168-173 `transform_range::size`. -/
def TransformRange.size {A B : Type} (r : TransformRange A B) : Int := (r.last : Int) - r.first

/-- impl/ranges_detail.h:175-180 `transform_range::empty`. -/
def TransformRange.empty {A B : Type} (r : TransformRange A B) : Bool := r.size == 0

/-- What a loop over the range reads. impl/ranges_detail.h:153-166. -/
def TransformRange.elements {A B : Type} (r : TransformRange A B) : List B :=
  (List.range' r.first (r.last - r.first)).map (fun i => r.f (r.get i))

/-- impl/ranges_detail.h:185-211 `detail::select::operator()`: `_values[i]`. -/
def select {B : Type} (values : Int → B) (i : Int) : B := values i

/-- ranges.h:284-293 `device_indexed_range`, `host_indexed_range`: a transform range of a range of indices with
`select`. -/
def indexed {B : Type} (n : Nat) (indices : Nat → Int) (values : Int → B) : TransformRange Int B :=
  transform n indices (select values)

end Stdgpu.Ranges
