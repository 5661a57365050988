/-
Model of `src/stdgpu/impl/bit_detail.h`.

`T` is an unsigned type with `w` binary digits (`numeric_limits<T>::digits`), modelled as `BitVec w`.
Integer promotion of types narrower than `int` is not modelled (it does not change any of the results,
every result is converted back to `T`).
-/
namespace Stdgpu.Bit

/-- impl/bit_detail.h:27-32 `has_single_bit`. -/
def hasSingleBit {w : Nat} (number : BitVec w) : Bool :=
  number != 0 && (number &&& (number - 1)) == 0

/-- The loop `for (i = 0; i < digits; ++i) result |= result >> i;`
impl/bit_detail.h:44-47 and 68-71, for the iterations `i = 0 .. m-1`. -/
def smear {w : Nat} (result : BitVec w) : Nat → BitVec w
  | 0 => result
  | m + 1 => let r := smear result m; r ||| (r >>> m)

/-- impl/bit_detail.h:34-55 `bit_ceil`. -/
def bitCeil {w : Nat} (number : BitVec w) : BitVec w :=
  let result := number
  let result := result + (if result = 0 then 1 else 0)
  let result := result - 1
  let result := smear result w
  let result := result + 1
  result

/-- impl/bit_detail.h:57-77 `bit_floor`. -/
def bitFloor {w : Nat} (number : BitVec w) : BitVec w :=
  if number = 0 then 0
  else
    let result := smear number w
    result &&& ~~~(result >>> 1)

/-- impl/bit_detail.h:79-90 `bit_mod`. The precondition `has_single_bit(divider)` (line 83) is a hypothesis
of the theorems. -/
def bitMod {w : Nat} (number divider : BitVec w) : BitVec w :=
  number &&& (divider - 1)

/-- `while (shifted_number >>= 1) ++result;` impl/bit_detail.h:101-106. Total because the number shrinks. -/
def bitWidthLoop {w : Nat} (shifted result : BitVec w) : BitVec w :=
  if shifted >>> 1 = 0 then result
  else bitWidthLoop (shifted >>> 1) (result + 1)
termination_by shifted.toNat
decreasing_by
  rename_i h
  have h1 : (shifted >>> 1).toNat = shifted.toNat / 2 := by
    simp [Nat.shiftRight_eq_div_pow]
  have h2 : (shifted >>> 1).toNat ≠ 0 := fun e => h (BitVec.eq_of_toNat_eq (by simpa using e))
  omega

/-- impl/bit_detail.h:92-111 `bit_width` (the result has type `T` as in the code). -/
def bitWidth {w : Nat} (number : BitVec w) : BitVec w :=
  if number = 0 then 0 else bitWidthLoop number 1

theorem and_sub_one_lt {w : Nat} (c : BitVec w) (h : c ≠ 0) : (c &&& (c - 1)).toNat < c.toNat := by
  have hc : c.toNat ≠ 0 := fun e => h (BitVec.eq_of_toNat_eq (by simpa using e))
  have hw : 0 < w := by
    rcases Nat.eq_zero_or_pos w with h0 | h0
    · subst h0; have := c.isLt; omega
    · exact h0
  have hlt := c.isLt
  have h1 : (1#w).toNat = 1 := by
    simpa [BitVec.toNat_ofNat] using hw
  have hs : (c - 1).toNat = c.toNat - 1 := by
    rw [BitVec.toNat_sub]
    show (2 ^ w - (1#w).toNat + c.toNat) % 2 ^ w = _
    rw [h1]
    have : 2 ^ w - 1 + c.toNat = 2 ^ w + (c.toNat - 1) := by omega
    rw [this, Nat.add_mod_left]
    exact Nat.mod_eq_of_lt (by omega)
  have : (c &&& (c - 1)).toNat ≤ c.toNat - 1 := by
    rw [BitVec.toNat_and, hs]; exact Nat.and_le_right
  omega

/-- `for (; cleared_number; ++result) cleared_number &= cleared_number - 1;` impl/bit_detail.h:117-123.
Total because clearing the lowest set bit shrinks the number. -/
def popcountLoop {w : Nat} (cleared : BitVec w) (result : Nat) : Nat :=
  if h : cleared = 0 then result
  else popcountLoop (cleared &&& (cleared - 1)) (result + 1)
termination_by cleared.toNat
decreasing_by exact and_sub_one_lt cleared h

/-- impl/bit_detail.h:113-129 `popcount`. -/
def popcount {w : Nat} (number : BitVec w) : Nat := popcountLoop number 0

end Stdgpu.Bit
