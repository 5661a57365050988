import Mathlib.Data.Rat.Floor
/-!
Floating-point numbers with `p` significant bits, without limits of the exponent, and results of operations on them that are
rounded to a neighbouring number, in any direction. Used for `long double` in C37 (64 bits on x86, 53 with MSVC, 113 or 53
elsewhere).
-/
namespace Stdgpu.Spec

/-- `c` is a floating-point number with `p` significant bits. -/
def FloatNum (p : Nat) (c : ℚ) : Prop := ∃ m e : ℤ, |m| ≤ 2 ^ p ∧ c = m * (2 : ℚ) ^ e

/-- `y` may be the result of an operation whose exact result is `x`: there is no floating-point number between them. (IEEE
rounding in any mode satisfies this, and so does every function with an error below one unit in the last place.) -/
def Rounds (p : Nat) (x y : ℚ) : Prop := ∀ c, FloatNum p c → (c ≤ x → c ≤ y) ∧ (x ≤ c → y ≤ c)

end Stdgpu.Spec
