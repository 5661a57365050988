import Verif.Spec.Limits
import Verif.Model.LoadFactor
import Mathlib.Tactic.Linarith
import Mathlib.Tactic.Positivity
import Mathlib.Tactic.FieldSimp
import Mathlib.Tactic.Ring
import Mathlib.Tactic.NormNum
/-
C88: `numeric_limits`.
-/
namespace Stdgpu.Props
open Stdgpu.Limits Stdgpu.Spec

theorem signed_range {w : Nat} (h : 0 < w) (b : BitVec w) : smin w ≤ b.toInt ∧ b.toInt ≤ smax w := by
  have h1 := b.le_toInt
  have h2 := b.toInt_lt
  unfold smin smax
  constructor
  · simpa using h1
  · have : b.toInt < 2 ^ (w - 1) := by simpa using h2
    omega

theorem signed_attained {w : Nat} (h : 0 < w) :
    (∃ b : BitVec w, smin w = b.toInt) ∧ ∃ b : BitVec w, smax w = b.toInt := by
  refine ⟨⟨BitVec.intMin w, ?_⟩, ⟨BitVec.intMax w, ?_⟩⟩
  · rw [BitVec.toInt_intMin_of_pos h]; simp [smin]
  · rw [BitVec.toInt_intMax]; rfl

theorem unsigned_attained (w : Nat) : ∃ b : BitVec w, umax w = (b.toNat : Int) := by
  refine ⟨BitVec.allOnes w, ?_⟩
  have : 0 < 2 ^ w := Nat.two_pow_pos w
  rw [BitVec.toNat_allOnes]; unfold umax; push_cast [Nat.sub_add_cancel, this]; omega

theorem unsigned_range {w : Nat} (b : BitVec w) : (0 : Int) ≤ (b.toNat : Int) ∧ (b.toNat : Int) ≤ umax w := by
  have h := b.isLt
  unfold umax
  have : (b.toNat : Int) < 2 ^ w := by exact_mod_cast h
  omega

/-- What C88 says of an integer type with a specialisation. -/
def LimitsOk (E : Entry) (V : Int → Prop) : Prop :=
  (∀ x, V x → E.min ≤ x ∧ x ≤ E.max) ∧ V E.min ∧ V E.max ∧ E.lowest = E.min ∧ (E.isSigned = true ↔ ∃ x, V x ∧ x < 0) ∧
    0 ≤ E.digits ∧ E.max + 1 = E.radix ^ E.digits.toNat ∧ E.isSpecialized = true ∧ E.isInteger = true ∧ E.isExact = true ∧
    E.epsilon = 0 ∧ E.roundError = 0

theorem signedEntry_ok {w : Nat} (h : 0 < w) : LimitsOk (signedEntry w) (fun x => ∃ b : BitVec w, x = b.toInt) := by
  obtain ⟨h1, h2⟩ := signed_attained h
  refine ⟨?_, h1, h2, rfl, ?_, ?_, ?_, rfl, rfl, rfl, rfl, rfl⟩
  · rintro x ⟨b, rfl⟩; exact signed_range h b
  · simp only [signedEntry, true_iff]
    refine ⟨smin w, h1, ?_⟩
    have : (0 : Int) < 2 ^ (w - 1) := by positivity
    unfold smin; omega
  · simp only [signedEntry]; omega
  · have : ((w : Int) - 1).toNat = w - 1 := by omega
    simp only [signedEntry, smax, this]; omega

theorem unsignedEntry_ok (w : Nat) : LimitsOk (unsignedEntry w) (fun x => ∃ b : BitVec w, x = (b.toNat : Int)) := by
  refine ⟨?_, ⟨0#w, by simp [unsignedEntry]⟩, unsigned_attained w, rfl, ?_, ?_, ?_, rfl, rfl, rfl, rfl, rfl⟩
  · rintro x ⟨b, rfl⟩; exact unsigned_range b
  · simp only [unsignedEntry, Bool.false_eq_true, false_iff, not_exists, not_and]
    rintro x ⟨b, rfl⟩; omega
  · simp [unsignedEntry]
  · simp [unsignedEntry, umax]

theorem eitherEntry_eq (w : Nat) (s : Bool) : eitherEntry w s = if s then signedEntry w else unsignedEntry w := by
  have h : ¬ umax w < 0 := by
    have : (0 : Int) < 2 ^ w := by positivity
    unfold umax; omega
  cases s <;> simp [eitherEntry, signedEntry, unsignedEntry, h]

/-- **C88**, integer types. Every value of the type is between `min()` and `max()`, both are values of the type, `lowest()` is
`min()`, `is_signed` tells whether there are negative values, `max()` is `radix ^ digits - 1`, and the type is an exact
integer type. For any sizes of the types and any signedness of `char` and `wchar_t`. -/
theorem C88_integer_limits (P : Platform) (hP : Platform.Sane P) (T : CType) (hT : T ≠ .other) :
    (∀ x, IsValue P T x → (limits P T).min ≤ x ∧ x ≤ (limits P T).max) ∧
    IsValue P T (limits P T).min ∧ IsValue P T (limits P T).max ∧ (limits P T).lowest = (limits P T).min ∧
    ((limits P T).isSigned = true ↔ ∃ x, IsValue P T x ∧ x < 0) ∧
    0 ≤ (limits P T).digits ∧ (limits P T).max + 1 = (limits P T).radix ^ (limits P T).digits.toNat ∧
    (limits P T).isSpecialized = true ∧ (limits P T).isInteger = true ∧ (limits P T).isExact = true ∧
    (limits P T).epsilon = 0 ∧ (limits P T).roundError = 0 := by
  obtain ⟨h1, h2, h3, h4, h5⟩ := hP
  have key : LimitsOk (limits P T) (IsValue P T) := by
    unfold IsValue
    cases T with
    | other => exact absurd rfl hT
    | bool => exact unsignedEntry_ok 1
    | char =>
      simp only [limits, eitherEntry_eq, twosComplement, typeBits]
      rcases Bool.eq_false_or_eq_true P.charSigned with hs | hs
      · simpa only [hs, if_true] using signedEntry_ok (w := 8) (by omega)
      · simpa only [hs, Bool.false_eq_true, if_false] using unsignedEntry_ok 8
    | wchar =>
      simp only [limits, eitherEntry_eq, twosComplement, typeBits]
      rcases Bool.eq_false_or_eq_true P.wcharSigned with hs | hs
      · simpa only [hs, if_true] using signedEntry_ok h1
      · simpa only [hs, Bool.false_eq_true, if_false] using unsignedEntry_ok _
    | schar => exact signedEntry_ok (by decide)
    | uchar => exact unsignedEntry_ok 8
    | char16 => exact unsignedEntry_ok 16
    | char32 => exact unsignedEntry_ok 32
    | short => exact signedEntry_ok h2
    | ushort => exact unsignedEntry_ok _
    | int => exact signedEntry_ok h3
    | uint => exact unsignedEntry_ok _
    | long => exact signedEntry_ok h4
    | ulong => exact unsignedEntry_ok _
    | llong => exact signedEntry_ok h5
    | ullong => exact unsignedEntry_ok _
  exact key

/-- A concrete platform meets the hypothesis, and the bounds are the familiar ones. -/
example : Platform.Sane linux64 ∧ (limits linux64 .int).max = 2147483647 ∧ (limits linux64 .int).min = -2147483648 ∧
    (limits linux64 .ullong).max = 18446744073709551615 ∧ (limits linux64 .char).digits = 7 ∧
    IsValue linux64 .int (-5) ∧ ¬ IsValue linux64 .uint (-5) := by
  refine ⟨by unfold Platform.Sane; decide, by decide, by decide, by decide, by decide, ⟨-5, by decide⟩, ?_⟩
  rintro ⟨b, h⟩; simp [twosComplement] at h

/-- **C88**, types without a specialisation: `numeric_limits<const int>` (or `char8_t`) compiles, says that it is not
specialised, and returns 0 for `max()` although the type has larger values (`std::numeric_limits<const int>` agrees with
that of `int`). -/
theorem C88_counterexample_unspecialized (P : Platform) (h : 1 < P.intBits) :
    (limits P .other).isSpecialized = false ∧ ∃ x, IsValue P .int x ∧ (limits P .other).max < x := by
  refine ⟨rfl, 1, ⟨1#P.intBits, ?_⟩, Int.zero_lt_one⟩
  exact (BitVec.toInt_one h).symm

/-! ### Floating point -/

/-- **C88**, floating point types: `lowest()` and `max()` bound the finite numbers and are finite numbers, `min()` is the
smallest positive normal number, `1 + epsilon()` is the smallest number greater than 1, `digits` is the number of digits. For
every format with at least 2 digits, in particular binary32, binary64 and the x87 format. -/
theorem C88_float_limits (F : Format) (hp : 2 ≤ F.p) (he : F.p ≤ F.emax) :
    (∀ q, IsFloat F q → (flimits F).lowest ≤ q ∧ q ≤ (flimits F).max) ∧
    IsFloat F (flimits F).max ∧ IsFloat F (flimits F).lowest ∧
    (IsNormal F (flimits F).min ∧ 0 < (flimits F).min ∧ ∀ q, IsNormal F q → 0 < q → (flimits F).min ≤ q) ∧
    (IsFloat F (1 + (flimits F).epsilon) ∧ 0 < (flimits F).epsilon ∧ ∀ q, IsFloat F q → 1 < q → 1 + (flimits F).epsilon ≤ q) ∧
    (flimits F).digits = F.p ∧ (flimits F).radix = 2 ∧ (flimits F).isSigned = true ∧ (flimits F).isInteger = false := by
  have two : (2 : ℚ) ≠ 0 := by norm_num
  have pos : ∀ e : ℤ, (0 : ℚ) < 2 ^ e := fun e => zpow_pos (by norm_num) e
  have mono : ∀ {a b : ℤ}, a ≤ b → (2 : ℚ) ^ a ≤ 2 ^ b := fun h => zpow_le_zpow_right₀ (by norm_num) h
  have bound : ∀ m e : ℤ, |m| < 2 ^ F.p → e ≤ (F.emax : ℤ) + 1 - F.p →
      |(m : ℚ) * 2 ^ e| ≤ (2 ^ F.p - 1) * 2 ^ ((F.emax : ℤ) + 1 - F.p) := by
    intro m e hm he
    rw [abs_mul, abs_of_pos (pos e)]
    have h1 : |(m : ℚ)| ≤ 2 ^ F.p - 1 := by
      have : |m| ≤ 2 ^ F.p - 1 := by omega
      exact_mod_cast this
    exact mul_le_mul h1 (mono he) (pos e).le (le_trans (abs_nonneg _) h1)
  have pp : (1 : ℤ) ≤ 2 ^ F.p := one_le_pow₀ (by norm_num)
  refine ⟨?_, ?_, ?_, ⟨?_, ?_, ?_⟩, ⟨?_, ?_, ?_⟩, rfl, rfl, rfl, rfl⟩
  · rintro q ⟨m, e, hm, _, he', rfl⟩
    have := abs_le.1 (bound m e hm he')
    exact this
  · refine ⟨2 ^ F.p - 1, (F.emax : ℤ) + 1 - F.p, ?_, by omega, le_refl _, by simp [flimits]⟩
    rw [abs_of_nonneg (by omega)]; omega
  · refine ⟨-(2 ^ F.p - 1), (F.emax : ℤ) + 1 - F.p, ?_, by omega, le_refl _, by simp only [flimits]; push_cast; ring⟩
    rw [abs_neg, abs_of_nonneg (by omega)]; omega
  · refine ⟨2 ^ (F.p - 1), 2 - (F.emax : ℤ) - F.p, ?_, ?_, le_refl _, by omega, ?_⟩
    · exact le_abs_self _
    · rw [abs_of_nonneg (by positivity)]
      exact pow_lt_pow_right₀ (by norm_num) (by omega)
    · simp only [flimits]
      push_cast
      rw [← zpow_natCast, ← zpow_add₀ two]
      congr 1; push_cast [Nat.cast_sub (show 1 ≤ F.p by omega)]; ring
  · exact pos _
  · rintro q ⟨m, e, hm, _, he1, _, rfl⟩ hq
    have hm0 : 0 < m := by
      by_contra hcon
      have : (m : ℚ) ≤ 0 := by exact_mod_cast not_lt.1 hcon
      have := mul_nonpos_of_nonpos_of_nonneg this (pos e).le
      linarith
    rw [abs_of_pos hm0] at hm
    have hmq : (2 : ℚ) ^ (F.p - 1) ≤ m := by exact_mod_cast hm
    calc (flimits F).min = (2 : ℚ) ^ (F.p - 1) * 2 ^ (2 - (F.emax : ℤ) - F.p) := by
          simp only [flimits]
          rw [← zpow_natCast, ← zpow_add₀ two]
          congr 1; push_cast [Nat.cast_sub (show 1 ≤ F.p by omega)]; ring
      _ ≤ m * 2 ^ e := mul_le_mul hmq (mono he1) (pos _).le (le_trans (by positivity) hmq)
  · refine ⟨2 ^ (F.p - 1) + 1, 1 - (F.p : ℤ), ?_, by omega, by omega, ?_⟩
    · rw [abs_of_nonneg (by positivity)]
      have h2 : (2 : ℤ) ^ F.p = 2 * 2 ^ (F.p - 1) := by rw [← pow_succ']; congr 1; omega
      have h3 : (2 : ℤ) ^ 1 ≤ 2 ^ (F.p - 1) := pow_le_pow_right₀ (by norm_num) (by omega)
      omega
    · simp only [flimits]
      push_cast
      rw [add_mul, one_mul, ← zpow_natCast, ← zpow_add₀ two]
      congr 1
      rw [show ((F.p - 1 : Nat) : ℤ) + (1 - (F.p : ℤ)) = 0 by omega, zpow_zero]
  · exact pos _
  · rintro q ⟨m, e, hm, _, _, rfl⟩ hq
    have hm' : (m : ℚ) < 2 ^ F.p := by
      have : m < 2 ^ F.p := lt_of_le_of_lt (le_abs_self m) hm
      exact_mod_cast this
    have he' : 1 - (F.p : ℤ) ≤ e := by
      by_contra hcon
      have h1 : (2 : ℚ) ^ e ≤ 2 ^ (-(F.p : ℤ)) := mono (by omega)
      have hm0 : (0 : ℚ) < m := by
        by_contra hc
        have := mul_nonpos_of_nonpos_of_nonneg (not_lt.1 hc) (pos e).le
        linarith
      have h2 : (m : ℚ) * 2 ^ e ≤ 2 ^ F.p * 2 ^ (-(F.p : ℤ)) := mul_le_mul hm'.le h1 (pos e).le (by positivity)
      rw [zpow_neg, zpow_natCast, mul_inv_cancel₀ (by positivity)] at h2
      linarith
    obtain ⟨k, hk⟩ : ∃ k : Nat, e = 1 - (F.p : ℤ) + k := ⟨(e - (1 - (F.p : ℤ))).toNat, by omega⟩
    have hq' : (m : ℚ) * 2 ^ e = ((m * 2 ^ k : ℤ) : ℚ) * 2 ^ (1 - (F.p : ℤ)) := by
      rw [hk, zpow_add₀ two, zpow_natCast]; push_cast; ring
    rw [hq'] at hq ⊢
    generalize m * 2 ^ k = n at *
    have one : (1 : ℚ) = ((2 ^ (F.p - 1) : ℤ) : ℚ) * 2 ^ (1 - (F.p : ℤ)) := by
      push_cast
      rw [← zpow_natCast, ← zpow_add₀ two, show ((F.p - 1 : Nat) : ℤ) + (1 - (F.p : ℤ)) = 0 by omega, zpow_zero]
    have hn : (2 : ℤ) ^ (F.p - 1) < n := by
      rw [one] at hq
      have := lt_of_mul_lt_mul_right hq (pos _).le
      exact_mod_cast this
    have hn' : (((2 ^ (F.p - 1) + 1 : ℤ)) : ℚ) ≤ n := by exact_mod_cast hn
    calc 1 + (flimits F).epsilon = ((2 ^ (F.p - 1) + 1 : ℤ) : ℚ) * 2 ^ (1 - (F.p : ℤ)) := by
          rw [show (flimits F).epsilon = (2 : ℚ) ^ (1 - (F.p : ℤ)) from rfl]
          conv_lhs => rw [one]
          push_cast; ring
      _ ≤ n * 2 ^ (1 - (F.p : ℤ)) := mul_le_mul_of_nonneg_right hn' (pos _).le

/-- The formats of the platforms meet the hypotheses; the largest `float`. -/
example : (2 ≤ binary32.p ∧ binary32.p ≤ binary32.emax) ∧ (2 ≤ binary64.p ∧ binary64.p ≤ binary64.emax) ∧
    (2 ≤ extended80.p ∧ extended80.p ≤ extended80.emax) ∧ (flimits binary32).max = 340282346638528859811704183484516925440 ∧
    (flimits binary32).epsilon = 1 / 8388608 := by
  refine ⟨by decide, by decide, by decide, ?_, ?_⟩
  · simp only [flimits, binary32]; norm_num
  · simp only [flimits, binary32]; norm_num

/-- **C88**: rounding to nearest is off by at most `round_error()` units, and by that much for a tie. -/
theorem C88_round_error (F : Format) :
    (∀ q : ℚ, |(Unordered.roundEven q : ℚ) - q| ≤ (flimits F).roundError) ∧
    ∃ q : ℚ, |(Unordered.roundEven q : ℚ) - q| = (flimits F).roundError := by
  have hr : (flimits F).roundError = 1 / 2 := rfl
  rw [hr]
  refine ⟨fun q => ?_, 1 / 2, ?_⟩
  · have h0 := Int.floor_le q
    have h1 := Int.lt_floor_add_one q
    unfold Unordered.roundEven
    rw [abs_le]
    split_ifs <;> push_cast <;> constructor <;> linarith
  · have h : ⌊(1 / 2 : ℚ)⌋ = 0 := by norm_num
    unfold Unordered.roundEven
    rw [h]; norm_num

/-- **C88**: the bits of `infinity()` of `float` have sign 0, exponent 255 and fraction 0; as an unsigned number they are
greater than those of every positive finite number (sign 0, exponent below 255). -/
theorem C88_infinity_float :
    infinityBits32.extractLsb' 31 1 = 0 ∧ infinityBits32.extractLsb' 23 8 = 255 ∧ infinityBits32.extractLsb' 0 23 = 0 ∧
    ∀ b : BitVec 32, b.toNat / 2 ^ 31 = 0 → b.toNat / 2 ^ 23 % 2 ^ 8 ≠ 255 → b.toNat < infinityBits32.toNat := by
  refine ⟨by decide, by decide, by decide, fun b h h' => ?_⟩
  have hb := b.isLt
  have : infinityBits32.toNat = 255 * 2 ^ 23 := by decide
  rw [this]; omega

/-- The same for `double`: exponent 2047. -/
theorem C88_infinity_double :
    infinityBits64.extractLsb' 63 1 = 0 ∧ infinityBits64.extractLsb' 52 11 = 2047 ∧ infinityBits64.extractLsb' 0 52 = 0 ∧
    ∀ b : BitVec 64, b.toNat / 2 ^ 63 = 0 → b.toNat / 2 ^ 52 % 2 ^ 11 ≠ 2047 → b.toNat < infinityBits64.toNat := by
  refine ⟨by decide, by decide, by decide, fun b h h' => ?_⟩
  have hb := b.isLt
  have : infinityBits64.toNat = 2047 * 2 ^ 52 := by decide
  rw [this]; omega

/-- Such numbers exist: the bits of 1.0f. -/
example : ∃ b : BitVec 32, b.toNat / 2 ^ 31 = 0 ∧ b.toNat / 2 ^ 23 % 2 ^ 8 ≠ 255 ∧ b.toNat ≠ 0 :=
  ⟨0x3f800000#32, by decide, by decide, by decide⟩

end Stdgpu.Props
