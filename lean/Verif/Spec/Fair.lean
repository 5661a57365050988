/-! Infinite executions, used to state C68 and C69. -/
namespace Stdgpu.Spec

/-- The first `n` steps of an infinite schedule. -/
def upTo (σ : Nat → Nat) (n : Nat) : List Nat := (List.range n).map σ

/-- The schedule never stops to give steps to any of the threads `0, …, k - 1`. Nothing else is assumed about it. -/
def Fair (k : Nat) (σ : Nat → Nat) : Prop := ∀ i, i < k → ∀ n, ∃ m, n ≤ m ∧ σ m = i

end Stdgpu.Spec
