import Verif.Model.Bytes64
/-! Numbers of elements that `allocator_traits::max_size` allows. -/
namespace Stdgpu.Spec
open Stdgpu.Memory Stdgpu.Bytes64

/-- The number of elements is at most `max_size()`, in absolute value: negative numbers are refused, not undefined. -/
def AtMostMaxSize (n : Int) (esz : Nat) : Prop := 0 < esz ∧ esz < 2 ^ 63 ∧ -maxSize esz ≤ n ∧ n ≤ maxSize esz

/-- The numbers of elements in the arguments of a call are at most `max_size()`; the size given to `register_memory<void>` is an
`index64_t`. Nothing is asked of calls that destroy an array. -/
def ArgsFit (c : Call) : Prop :=
  match c.op with
  | .allocate _ n esz _ => AtMostMaxSize n esz
  | .deallocate _ _ => AtMostMaxSize c.n c.esz
  | .register _ n _ => n < 2 ^ 63
  | .createHost n esz _ _ => AtMostMaxSize n esz
  | .createDevice n esz _ _ => AtMostMaxSize n esz
  | .createDeviceViaHost n esz _ _ _ => AtMostMaxSize n esz
  | .copyCreate _ n esz _ _ _ => AtMostMaxSize n esz
  | _ => True

/-- Every size that the memory management knows is a positive `index64_t`. -/
def SizesFit (s : Sys) : Prop := ∀ ty, ∀ e ∈ (s.sizes ty).ptrs, 0 < e.2 ∧ e.2 < 2 ^ 63

end Stdgpu.Spec
