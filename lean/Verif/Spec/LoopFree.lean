import Verif.Spec.Valid
/-! The chains of a table, without reference to how `valid()` checks them. -/
namespace Stdgpu.Spec
open Stdgpu.Unordered

/-- After following `n` offsets from entry `b` one is at entry `p`. -/
inductive Steps (off : Nat → Int) (b : Nat) : Nat → Nat → Prop
  | zero : Steps off b 0 b
  | succ {n p q : Nat} (h : Steps off b n p) (h0 : off p ≠ 0) (hq : (q : Int) = p + off p) : Steps off b (n + 1) q

/-- No entry is met twice, neither on the way from one bucket nor on the ways from two. -/
def ChainsApart {V : Type} (t : Tab V) : Prop :=
  ∀ b b' n n' p, b < t.bc → b' < t.bc → Steps t.off b n p → Steps t.off b' n' p → b = b' ∧ n = n'

/-- Offsets stay inside the table. -/
def OffsetsInside {V : Type} (t : Tab V) : Prop := ∀ i, i < t.total → 0 ≤ (i : Int) + t.off i ∧ (i : Int) + t.off i < t.total

/-- Entries whose occupied bit is set hold an object. -/
def Readable {V : Type} (t : Tab V) : Prop := ∀ p, p < t.total → t.occ p = true → t.live p = true ∧ (t.val p).isSome = true

end Stdgpu.Spec
