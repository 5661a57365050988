import Verif.Model.Limits
import Mathlib.Data.Rat.Floor
/-
What the values of the C++ arithmetic types are, independently of `numeric_limits`.
-/
namespace Stdgpu.Spec
open Stdgpu.Limits

/-- The number of bits of the value representation, sign included. -/
def typeBits (P : Platform) : CType → Nat
  | .bool => 1
  | .char | .schar | .uchar => 8
  | .char16 => 16
  | .char32 => 32
  | .wchar => P.wcharBits
  | .short | .ushort => P.shortBits
  | .int | .uint => P.intBits
  | .long | .ulong => P.longBits
  | .llong | .ullong => P.llongBits
  | .other => 0

/-- Whether the representation is two's complement (otherwise pure binary). -/
def twosComplement (P : Platform) : CType → Bool
  | .char => P.charSigned
  | .wchar => P.wcharSigned
  | .schar | .short | .int | .long | .llong => true
  | .bool | .uchar | .char16 | .char32 | .ushort | .uint | .ulong | .ullong | .other => false

/-- `x` is the value of some bit pattern of the type. -/
def IsValue (P : Platform) (T : CType) (x : Int) : Prop :=
  ∃ b : BitVec (typeBits P T), x = if twosComplement P T then b.toInt else (b.toNat : Int)

/-- All types have at least a bit. -/
def Platform.Sane (P : Platform) : Prop :=
  0 < P.wcharBits ∧ 0 < P.shortBits ∧ 0 < P.intBits ∧ 0 < P.longBits ∧ 0 < P.llongBits

/-- `q` is a finite floating point number: an integer `m` with at most `p` digits, scaled by an exponent in range. -/
def IsFloat (F : Format) (q : ℚ) : Prop :=
  ∃ (m e : ℤ), |m| < 2 ^ F.p ∧ 2 - (F.emax : ℤ) - F.p ≤ e ∧ e ≤ (F.emax : ℤ) + 1 - F.p ∧ q = m * 2 ^ e

/-- … and it is normal: `m` has all `p` digits. -/
def IsNormal (F : Format) (q : ℚ) : Prop :=
  ∃ (m e : ℤ), 2 ^ (F.p - 1) ≤ |m| ∧ |m| < 2 ^ F.p ∧ 2 - (F.emax : ℤ) - F.p ≤ e ∧ e ≤ (F.emax : ℤ) + 1 - F.p ∧ q = m * 2 ^ e

end Stdgpu.Spec
