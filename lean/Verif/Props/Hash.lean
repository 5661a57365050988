import Verif.Model.Hash
import Verif.Spec.Float
import Verif.Spec.Maps
import Mathlib.Tactic.Ring
import Mathlib.Tactic.Push
/-! C48: hash functions. -/
namespace Stdgpu.Props
open Stdgpu.Hash Stdgpu.Spec

/-- C48: for `bool`, characters, integers: different values of a type not wider than `std::size_t` have different hashes,
so equality of values is equality of hashes. -/
theorem C48_integer_hash_injective {w : Nat} (hw : w ≤ 64) (signed : Bool) (a b : BitVec w) :
    hashInt signed a = hashInt signed b ↔ a = b := by
  refine ⟨fun h => ?_, fun h => by rw [h]⟩
  unfold hashInt at h
  cases signed with
  | false =>
    simp only [Bool.false_eq_true, if_false] at h
    apply BitVec.eq_of_toNat_eq
    have h2 := congrArg BitVec.toNat h
    rw [BitVec.toNat_setWidth, BitVec.toNat_setWidth] at h2
    have e : ∀ x : BitVec w, x.toNat < 2 ^ 64 := fun x => lt_of_lt_of_le x.isLt (Nat.pow_le_pow_right (by omega) hw)
    rwa [Nat.mod_eq_of_lt (e a), Nat.mod_eq_of_lt (e b)] at h2
  | true =>
    simp only [if_true] at h
    apply BitVec.eq_of_toInt_eq
    have h2 := congrArg BitVec.toInt h
    rwa [BitVec.toInt_signExtend_of_le hw, BitVec.toInt_signExtend_of_le hw] at h2

/-- C48: the same value in two integer types of the same signedness has the same hash. -/
theorem C48_integer_hash_width {w w' : Nat} (hw : w ≤ w') (hw' : w' ≤ 64) (a : BitVec w) :
    hashInt true (a.signExtend w') = hashInt true a ∧ hashInt false (a.setWidth w') = hashInt false a := by
  constructor
  · simp only [hashInt, if_true]
    apply BitVec.eq_of_toInt_eq
    rw [BitVec.toInt_signExtend_of_le hw', BitVec.toInt_signExtend_of_le hw, BitVec.toInt_signExtend_of_le (by omega)]
  · simp only [hashInt, Bool.false_eq_true, if_false]
    apply BitVec.eq_of_toNat_eq
    simp only [BitVec.toNat_setWidth]
    have e : a.toNat < 2 ^ w' := lt_of_lt_of_le a.isLt (Nat.pow_le_pow_right (by omega) hw)
    rw [Nat.mod_eq_of_lt e]

/-- C48: for enumerations, which are determined by their value in the underlying type. -/
theorem C48_enum_hash_injective {E : Type} {w : Nat} (hw : w ≤ 64) (signed : Bool) (bits : E → BitVec w)
    (hb : ∀ a b, bits a = bits b → a = b) (a b : E) : hashEnum signed bits a = hashEnum signed bits b ↔ a = b := by
  unfold hashEnum
  rw [C48_integer_hash_injective hw]
  exact ⟨hb a b, fun h => by rw [h]⟩

/-- C48: the hash is the value of the key converted to `std::size_t`: unchanged for unsigned types, modulo 2^64 for signed
ones. -/
theorem C48_integer_hash_value {w : Nat} (hw : w ≤ 64) (key : BitVec w) :
    (hashInt false key).toNat = key.toNat ∧ ((hashInt true key).toNat : Int) = key.toInt % 2 ^ 64 := by
  constructor
  · simp only [hashInt, Bool.false_eq_true, if_false, BitVec.toNat_setWidth]
    exact Nat.mod_eq_of_lt (lt_of_lt_of_le key.isLt (Nat.pow_le_pow_right (by omega) hw))
  · simp only [hashInt, if_true]
    have h1 : (key.signExtend 64).toInt = key.toInt := BitVec.toInt_signExtend_of_le hw
    have h2 := (key.signExtend 64).isLt
    rw [← h1, BitVec.toInt_eq_toNat_cond]
    split <;> omega

/-- C48: an enumerator hashes to the value of its underlying type, converted to `std::size_t`. -/
theorem C48_enum_hash_value {E : Type} {w : Nat} (hw : w ≤ 64) (bits : E → BitVec w) (e : E) :
    (hashEnum false bits e).toNat = (bits e).toNat ∧ ((hashEnum true bits e).toNat : Int) = (bits e).toInt % 2 ^ 64 :=
  C48_integer_hash_value hw (bits e)

example : hashInt true (-1 : BitVec 8) = 0xFFFFFFFFFFFFFFFF#64 ∧ hashInt false (-1 : BitVec 8) = 255#64 := by decide

/-- C48: integer keys satisfy the requirements of the unordered containers (C29-C36). -/
theorem C48_integer_keys_lawful {w : Nat} {V : Type} (signed : Bool) (keyOf : V → BitVec w) :
    KeyLaws (⟨keyOf, hashInt signed, fun a b => a == b⟩ : Unordered.Params (BitVec w) V) :=
  ⟨fun a => by simp, fun a b h => by simp_all, fun a b c h1 h2 => by simp_all, fun a b h => by simp at h; rw [h]⟩

/-! ### Floating point -/

theorem mag_lt (E F x : Nat) : magnitude E F x < 2 ^ F * 2 ^ expField E F x := by
  unfold magnitude
  have hf : fracField F x < 2 ^ F := Nat.mod_lt _ (Nat.pow_pos (by omega))
  split
  · next h => rw [h]; omega
  · next h =>
    obtain ⟨e, he⟩ : ∃ e, expField E F x = e + 1 := ⟨_, (Nat.succ_pred h).symm⟩
    rw [he, Nat.add_sub_cancel, pow_succ]
    have : (2 ^ F + fracField F x) * 2 ^ e < (2 ^ F + 2 ^ F) * 2 ^ e := Nat.mul_lt_mul_of_pos_right (by omega) (Nat.pow_pos (by omega))
    calc _ < _ := this
      _ = _ := by ring

theorem le_mag (E F x : Nat) (h : expField E F x ≠ 0) : 2 ^ F * 2 ^ (expField E F x - 1) ≤ magnitude E F x := by
  unfold magnitude
  rw [if_neg h]
  exact Nat.mul_le_mul_right _ (by omega)

theorem exp_le_of_mag {E F x y : Nat} (h : magnitude E F x = magnitude E F y) : expField E F x ≤ expField E F y := by
  by_contra hc
  have h1 := mag_lt E F y
  have h2 := le_mag E F x (by omega)
  have h3 : 2 ^ F * 2 ^ expField E F y ≤ 2 ^ F * 2 ^ (expField E F x - 1) :=
    Nat.mul_le_mul_left _ (Nat.pow_le_pow_right (by omega) (by omega))
  omega

theorem mag_inj {E F x y : Nat} (h : magnitude E F x = magnitude E F y) :
    expField E F x = expField E F y ∧ fracField F x = fracField F y := by
  have he : expField E F x = expField E F y := le_antisymm (exp_le_of_mag h) (exp_le_of_mag h.symm)
  refine ⟨he, ?_⟩
  unfold magnitude at h
  rw [he] at h
  split at h
  · exact h
  · have := Nat.eq_of_mul_eq_mul_right (Nat.pow_pos (by omega)) h
    omega

/-- The bits are determined by the fields. -/
theorem bits_eq {E F x y : Nat} (hx : x < 2 ^ (1 + E + F)) (hy : y < 2 ^ (1 + E + F)) (hs : signField E F x = signField E F y)
    (he : expField E F x = expField E F y) (hf : fracField F x = fracField F y) : x = y := by
  have hq : ∀ z, z < 2 ^ (1 + E + F) → z / 2 ^ (E + F) < 2 := by
    intro z hz
    apply Nat.div_lt_of_lt_mul
    calc z < 2 ^ (1 + E + F) := hz
      _ = 2 ^ (E + F) * 2 := by rw [show 1 + E + F = (E + F) + 1 by omega, pow_succ]
  have hs' : x / 2 ^ (E + F) = y / 2 ^ (E + F) := by
    unfold signField at hs
    have h1 := hq x hx
    have h2 := hq y hy
    simp only [decide_eq_decide] at hs
    generalize x / 2 ^ (E + F) = a at *
    generalize y / 2 ^ (E + F) = b at *
    omega
  have hd : ∀ z, z / 2 ^ (E + F) = z / 2 ^ F / 2 ^ E := by
    intro z; rw [Nat.div_div_eq_div_mul, ← pow_add, Nat.add_comm F E]
  rw [hd, hd] at hs'
  unfold expField at he
  unfold fracField at hf
  have h1 : x / 2 ^ F = y / 2 ^ F := by
    rw [← Nat.div_add_mod (x / 2 ^ F) (2 ^ E), ← Nat.div_add_mod (y / 2 ^ F) (2 ^ E), hs', he]
  rw [← Nat.div_add_mod x (2 ^ F), ← Nat.div_add_mod y (2 ^ F), h1, hf]

theorem float_bits {E F x y : Nat} (hx : x < 2 ^ (1 + E + F)) (hy : y < 2 ^ (1 + E + F)) (h : FloatEq E F x y)
    (hz : number E F x ≠ 0) : x = y := by
  obtain ⟨-, -, hn⟩ := h
  have hm : magnitude E F x = magnitude E F y ∧ signField E F x = signField E F y := by
    unfold number at hn hz
    by_cases hsx : signField E F x = true <;> by_cases hsy : signField E F y = true <;>
      simp only [hsx, hsy, if_true, if_false, Bool.false_eq_true] at hn hz ⊢
    · exact ⟨by omega, trivial⟩
    · omega
    · omega
    · exact ⟨by omega, trivial⟩
  obtain ⟨he, hf⟩ := mag_inj hm.1
  exact bits_eq hx hy hm.2 he hf

/-- C48, partial: equal `float`s (`double`s) other than zero have equal hashes. Missing: zero, see
`C48_zero_counterexample`. -/
theorem C48_float_hash_partial (a b : BitVec 32) (h : FloatEq 8 23 a.toNat b.toNat) (hz : number 8 23 a.toNat ≠ 0) :
    hashFloat a = hashFloat b := by
  rw [BitVec.eq_of_toNat_eq (float_bits a.isLt b.isLt h hz)]

theorem C48_double_hash_partial (a b : BitVec 64) (h : FloatEq 11 52 a.toNat b.toNat) (hz : number 11 52 a.toNat ≠ 0) :
    hashDouble a = hashDouble b := by
  rw [BitVec.eq_of_toNat_eq (float_bits a.isLt b.isLt h hz)]

/-- `long double`, hashed through `double`: if equal values are converted to equal values. -/
theorem C48_long_double_hash_partial {L : Type} (toDouble : L → BitVec 64) (a b : L)
    (h : FloatEq 11 52 (toDouble a).toNat (toDouble b).toNat) (hz : number 11 52 (toDouble a).toNat ≠ 0) :
    hashLongDouble toDouble a = hashLongDouble toDouble b := C48_double_hash_partial _ _ h hz

/-- Unequal numbers have different hashes. -/
theorem C48_float_hash_injective (a b : BitVec 32) (h : hashFloat a = hashFloat b) : a = b :=
  (C48_integer_hash_injective (by omega) false a b).1 h

/-- 1.5f is a number different from 0 and equal to itself; its number is 1.5 times that of 1.0f. -/
example : FloatEq 8 23 0x3FC00000 0x3FC00000 ∧ number 8 23 0x3FC00000 ≠ 0 ∧
    2 * number 8 23 0x3FC00000 = 3 * number 8 23 0x3F800000 := by
  unfold FloatEq IsNaN number magnitude expField fracField signField; decide

/-- +0.0 and -0.0 are equal but have different hashes, for `float` and for `double`. -/
theorem C48_zero_counterexample :
    (FloatEq 8 23 (0x00000000#32).toNat (0x80000000#32).toNat ∧ hashFloat 0x00000000#32 ≠ hashFloat 0x80000000#32) ∧
    (FloatEq 11 52 (0#64).toNat (0x8000000000000000#64).toNat ∧ hashDouble 0#64 ≠ hashDouble 0x8000000000000000#64) := by
  unfold FloatEq IsNaN number magnitude expField fracField signField; decide

/-- `operator==` of `float`, as a function. -/
def floatEqB (a b : BitVec 32) : Bool :=
  decide (¬ (expField 8 23 a.toNat = 255 ∧ fracField 23 a.toNat ≠ 0)) &&
  decide (¬ (expField 8 23 b.toNat = 255 ∧ fracField 23 b.toNat ≠ 0)) && decide (number 8 23 a.toNat = number 8 23 b.toNat)

theorem floatEqB_iff (a b : BitVec 32) : floatEqB a b = true ↔ FloatEq 8 23 a.toNat b.toNat := by
  unfold floatEqB FloatEq IsNaN
  simp [and_assoc, ← imp_iff_not_or]

/-- `unordered_set<float>`. -/
def floatSet : Unordered.Params (BitVec 32) (BitVec 32) := ⟨id, hashFloat, floatEqB⟩

/-- The consequence: a set of `float`s can hold 0.0 twice, once per sign, and a lookup of -0.0 misses a stored +0.0. -/
theorem C48_zero_stored_twice :
    floatEqB 0x00000000#32 0x80000000#32 = true ∧
    ((Unordered.execAll floatSet (fun _ => List.range) (Unordered.create 4 2)
      [.insert 0x00000000#32, .contains 0x80000000#32, .insert 0x80000000#32]).toOption.map
        (fun r => (r.1, contents r.2))) =
      some ([.inserted (some 0x00000000#32) true, .bool false, .inserted (some 0x80000000#32) true],
        [0x00000000#32, 0x80000000#32]) := by
  refine ⟨by decide, by decide +kernel⟩

end Stdgpu.Props
