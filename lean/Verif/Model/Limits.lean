import Mathlib.Data.Rat.Defs
import Mathlib.Algebra.Order.Ring.Rat
/-
Model of `numeric_limits` (limits.h, impl/limits_detail.h). The constants of `<climits>`, `<cstdint>`, `<cwchar>` and
`<cfloat>` are those of a platform with two's complement integers and IEEE floating point numbers; the sizes of the types,
the signedness of `char` and `wchar_t` and the format of `long double` are parameters.
Values of the integer types are integers, values of the floating point types are rational numbers (infinity as bits).
-/
namespace Stdgpu.Limits

/-- The integer types with a specialisation (limits.h:118-1319) and `other`: any type without (limits.h:38-116), for example
`const int` or `char8_t`. -/
inductive CType where
  | bool | char | schar | uchar | wchar | char16 | char32 | short | ushort | int | uint | long | ulong | llong | ullong
  | other
  deriving DecidableEq

/-- The platform: `CHAR_BIT * sizeof(T)` of the types whose size is not fixed, and the signedness of two types.
Parameters of limits.h:123-1565. -/
structure Platform where
  wcharBits : Nat
  shortBits : Nat
  intBits : Nat
  longBits : Nat
  llongBits : Nat
  charSigned : Bool
  wcharSigned : Bool

/-- x86-64 with Linux. -/
def linux64 : Platform := ⟨32, 16, 32, 64, 64, true, true⟩

/-- The results of the functions and the constants of a specialisation. limits.h:43-116: the members of
`numeric_limits`. -/
structure Entry where
  min : Int
  max : Int
  lowest : Int
  epsilon : Int
  roundError : Int
  infinity : Int
  isSpecialized : Bool
  isSigned : Bool
  isInteger : Bool
  isExact : Bool
  digits : Int
  radix : Int

/-- `SCHAR_MIN`, `SHRT_MIN`, `INT_MIN`, `LONG_MIN`, `LLONG_MIN`, … of `<climits>`. Used in impl/limits_detail.h,
limits.h:203-1239. -/
def smin (w : Nat) : Int := -2 ^ (w - 1)
/-- `SCHAR_MAX`, `SHRT_MAX`, `INT_MAX`, `LONG_MAX`, `LLONG_MAX`, …. Used in impl/limits_detail.h, limits.h:203-1239. -/
def smax (w : Nat) : Int := 2 ^ (w - 1) - 1
/-- `UCHAR_MAX`, `USHRT_MAX`, `UINT_MAX`, `ULONG_MAX`, `ULLONG_MAX`, `UINT_LEAST16_MAX`, …. Used in
impl/limits_detail.h, limits.h:203-1319. -/
def umax (w : Nat) : Int := 2 ^ w - 1

/-- The specialisation for a signed type with `w` bits: limits.h:284-357 (`signed char`), 686-759, 846-919, 1006-1079,
1166-1239 and impl/limits_detail.h. `lowest()` is `min()`, the others return 0. -/
def signedEntry (w : Nat) : Entry :=
  { min := smin w, max := smax w, lowest := smin w, epsilon := 0, roundError := 0, infinity := 0,
    isSpecialized := true, isSigned := true, isInteger := true, isExact := true, digits := (w : Int) - 1, radix := 2 }

/-- The specialisation for an unsigned type with `w` bits: limits.h:364-437 (`unsigned char`), 526-679, 766-839, 926-999,
1086-1159, 1246-1319 and impl/limits_detail.h. -/
def unsignedEntry (w : Nat) : Entry :=
  { min := 0, max := umax w, lowest := 0, epsilon := 0, roundError := 0, infinity := 0,
    isSpecialized := true, isSigned := false, isInteger := true, isExact := true, digits := w, radix := 2 }

/-- limits.h:203-277, 444-519 (`char`, `wchar_t`): `CHAR_MIN`, `CHAR_MAX`, `WCHAR_MIN`, `WCHAR_MAX` depend on the signedness,
`is_signed` is `static_cast<T>(-1) < 0`, `digits` is the number of bits minus `is_signed`. -/
def eitherEntry (w : Nat) (signed : Bool) : Entry :=
  { min := if signed then smin w else 0, max := if signed then smax w else umax w,
    lowest := if signed then smin w else 0, epsilon := 0, roundError := 0, infinity := 0,
    isSpecialized := true, isSigned := decide ((if signed then (-1 : Int) else umax w) < 0), isInteger := true, isExact := true,
    digits := (w : Int) - (if (if signed then (-1 : Int) else umax w) < 0 then 1 else 0), radix := 2 }

/-- limits.h:123-196 (`bool`), impl/limits_detail.h: `false` is 0, `true` is 1. -/
def boolEntry : Entry :=
  { min := 0, max := 1, lowest := 0, epsilon := 0, roundError := 0, infinity := 0,
    isSpecialized := true, isSigned := false, isInteger := true, isExact := true, digits := 1, radix := 2 }

/-- limits.h:38-116, impl/limits_detail.h:54-97: the primary template, `T()` and false. -/
def primaryEntry : Entry :=
  { min := 0, max := 0, lowest := 0, epsilon := 0, roundError := 0, infinity := 0,
    isSpecialized := false, isSigned := false, isInteger := false, isExact := false, digits := 0, radix := 0 }

/-- `numeric_limits<T>` for the integer types. limits.h:123-1319. -/
def limits (P : Platform) : CType → Entry
  | .bool => boolEntry
  | .char => eitherEntry 8 P.charSigned
  | .schar => signedEntry 8
  | .uchar => unsignedEntry 8
  | .wchar => eitherEntry P.wcharBits P.wcharSigned
  | .char16 => unsignedEntry 16
  | .char32 => unsignedEntry 32
  | .short => signedEntry P.shortBits
  | .ushort => unsignedEntry P.shortBits
  | .int => signedEntry P.intBits
  | .uint => unsignedEntry P.intBits
  | .long => signedEntry P.longBits
  | .ulong => unsignedEntry P.longBits
  | .llong => signedEntry P.llongBits
  | .ullong => unsignedEntry P.llongBits
  | .other => primaryEntry

/-! ### Floating point types -/

/-- A binary floating point format: `p` digits (with the hidden bit), the largest exponent `emax`. The constants of
`<cfloat>` used in limits.h:1326-1565. -/
structure Format where
  p : Nat
  emax : Nat

/-- `float` (limits.h:1326-1399). -/
def binary32 : Format := ⟨24, 127⟩
/-- `double` (limits.h:1406-1479). -/
def binary64 : Format := ⟨53, 1023⟩
/-- x87 `long double`. -/
def extended80 : Format := ⟨64, 16383⟩

/-- limits.h:1326-1565, impl/limits_detail.h:636-764. -/
structure FEntry where
  min : ℚ
  max : ℚ
  lowest : ℚ
  epsilon : ℚ
  roundError : ℚ
  digits : Int
  radix : Int
  isSigned : Bool
  isInteger : Bool
  isExact : Bool

/-- `FLT_MIN`, `FLT_MAX`, `-FLT_MAX`, `FLT_EPSILON`, 0.5, `FLT_MANT_DIG`, `FLT_RADIX`; likewise `DBL_…`, `LDBL_…`
(C11, 5.2.4.2.2: minimum normalized, maximum finite, difference between 1 and the next number). -/
def flimits (F : Format) : FEntry :=
  { min := 2 ^ (1 - (F.emax : ℤ)), max := (2 ^ F.p - 1) * 2 ^ ((F.emax : ℤ) + 1 - F.p),
    lowest := -((2 ^ F.p - 1) * 2 ^ ((F.emax : ℤ) + 1 - F.p)), epsilon := 2 ^ (1 - (F.p : ℤ)), roundError := 1 / 2,
    digits := F.p, radix := 2, isSigned := true, isInteger := false, isExact := false }

/-- impl/limits_detail.h:668-679: the bits of `numeric_limits<float>::infinity()` (MSVC; elsewhere `HUGE_VALF`). -/
def infinityBits32 : BitVec 32 := 0b01111111100000000000000000000000#32

/-- impl/limits_detail.h:710-721, 752-763: the bits of `numeric_limits<double>::infinity()`. -/
def infinityBits64 : BitVec 64 := 0b0111111111110000000000000000000000000000000000000000000000000000#64

end Stdgpu.Limits
