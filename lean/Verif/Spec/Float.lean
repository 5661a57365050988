import Mathlib.Algebra.Order.Ring.Int
/-! The numbers represented by IEEE 754 binary formats with `E` exponent and `F` fraction bits, and `operator==`. -/
namespace Stdgpu.Spec

/-- The fields of the bits `x`. -/
def fracField (F : Nat) (x : Nat) : Nat := x % 2 ^ F
def expField (E F : Nat) (x : Nat) : Nat := x / 2 ^ F % 2 ^ E
def signField (E F : Nat) (x : Nat) : Bool := decide (x / 2 ^ (E + F) % 2 = 1)

def IsNaN (E F : Nat) (x : Nat) : Prop := expField E F x = 2 ^ E - 1 ∧ fracField F x ≠ 0

/-- The magnitude, as a multiple of the smallest positive number: subnormal numbers have exponent field 0 and no implicit
bit. (Infinity, exponent field `2 ^ E - 1` and fraction 0, gets the next multiple after the finite numbers.) -/
def magnitude (E F : Nat) (x : Nat) : Nat :=
  if expField E F x = 0 then fracField F x else (2 ^ F + fracField F x) * 2 ^ (expField E F x - 1)

/-- The represented number, as a multiple of the smallest positive one. -/
def number (E F : Nat) (x : Nat) : Int := if signField E F x then -(magnitude E F x : Int) else magnitude E F x

/-- `operator==`: no operand is a NaN and the numbers are equal. -/
def FloatEq (E F : Nat) (x y : Nat) : Prop := ¬ IsNaN E F x ∧ ¬ IsNaN E F y ∧ number E F x = number E F y

end Stdgpu.Spec
