import Verif.Model.FibHash
import Verif.Proof.Bit
import Mathlib.Data.Fintype.EquivFin
/-! Helper lemmas for Fibonacci hashing. -/
namespace Stdgpu.FibHash
open Stdgpu.Bit

theorem bitWidth_ofInt (n : Nat) (h0 : 0 < n) (h1 : n < 2 ^ 63) :
    (bitWidth (BitVec.ofInt 64 (n : Int)) - 1).toInt = n.log2 := by
  have hne : BitVec.ofInt 64 (n : Int) ≠ 0 := by
    intro e
    have := congrArg BitVec.toNat e
    simp [BitVec.ofInt_natCast, BitVec.toNat_ofNat] at this
    omega
  have hto : (BitVec.ofInt 64 (n : Int)).toNat = n := by
    rw [BitVec.ofInt_natCast, BitVec.toNat_ofNat]; omega
  have hb := bitWidth_toNat _ hne
  rw [hto] at hb
  have hl : n.log2 < 63 := (Nat.log2_lt (by omega)).2 h1
  have hs : bitWidth (BitVec.ofInt 64 (n : Int)) ≠ 0 := by
    intro e; rw [e] at hb; simp at hb
  have h2 : (bitWidth (BitVec.ofInt 64 (n : Int)) - 1).toNat = n.log2 := by
    rw [toNat_sub_one hs, hb]; rfl
  rw [BitVec.toInt_eq_toNat_cond, h2]
  have : 2 * n.log2 < 2 ^ 64 := by omega
  simp only [this, if_true]

theorem dropped_toNat (L : Nat) (h0 : L < 64) : (BitVec.ofInt 64 (64 - (L : Int))).toNat = 64 - L := by
  have e : (64 - (L : Int)) = ((64 - L : Nat) : Int) := by omega
  rw [e, BitVec.ofInt_natCast, BitVec.toNat_ofNat]; omega

theorem shift_toInt (x : BitVec 64) (d : BitVec 64) (L : Nat) (hL : L < 63) (hd : d.toNat = 64 - L) :
    (x >>> d).toInt = (x.toNat / 2 ^ (64 - L) : Nat) ∧ x.toNat / 2 ^ (64 - L) < 2 ^ L := by
  have h1 : (x >>> d).toNat = x.toNat / 2 ^ (64 - L) := by
    rw [BitVec.ushiftRight_eq', BitVec.toNat_ushiftRight, hd, Nat.shiftRight_eq_div_pow]
  have h2 : x.toNat / 2 ^ (64 - L) < 2 ^ L := by
    rw [Nat.div_lt_iff_lt_mul (Nat.two_pow_pos _), ← Nat.pow_add]
    have : L + (64 - L) = 64 := by omega
    rw [this]; exact x.isLt
  refine ⟨?_, h2⟩
  have h3 : 2 ^ L ≤ 2 ^ 62 := Nat.pow_le_pow_right (by omega) (by omega)
  rw [BitVec.toInt_eq_toNat_cond, h1]
  have : 2 * (x.toNat / 2 ^ (64 - L)) < 2 ^ 64 := by omega
  simp only [this, if_true]

/-- Closed form on the domain that is used. -/
theorem fib_eq (hash : BitVec 64) (n : Nat) (h0 : 0 < n) (h1 : n < 2 ^ 63) :
    fibonacciHashing hash n =
      if n.log2 = 0 then 0
      else ((multiplier * (hash ^^^ (hash >>> (64 - n.log2)))).toNat / 2 ^ (64 - n.log2) : Nat) := by
  unfold fibonacciHashing
  have hl : n.log2 < 63 := (Nat.log2_lt (by omega)).2 h1
  simp only [bitWidth_ofInt n h0 h1]
  by_cases hz : n.log2 = 0
  · simp [hz]
  · have hz' : ¬ ((n.log2 : Int) ≤ 0) := by omega
    simp only [hz', hz, if_false]
    have hd := dropped_toNat n.log2 (by omega)
    rw [(shift_toInt _ _ n.log2 hl hd).1]
    rw [BitVec.ushiftRight_eq' hash, hd]

theorem fib_range (hash : BitVec 64) (n : Nat) (h0 : 0 < n) (h1 : n < 2 ^ 63) :
    0 ≤ fibonacciHashing hash n ∧ fibonacciHashing hash n < 2 ^ n.log2 := by
  rw [fib_eq hash n h0 h1]
  have hl : n.log2 < 63 := (Nat.log2_lt (by omega)).2 h1
  by_cases hz : n.log2 = 0
  · simp [hz]
  · simp only [hz, if_false]
    have := (shift_toInt (multiplier * (hash ^^^ (hash >>> (64 - n.log2)))) _ n.log2 hl
      (dropped_toNat n.log2 (by omega))).2
    refine ⟨Int.natCast_nonneg _, ?_⟩
    exact_mod_cast this

/-- xor-shift is injective for a positive shift distance. -/
theorem xorshift_injective (d : Nat) (hd : 0 < d) :
    Function.Injective (fun h : BitVec 64 => h ^^^ (h >>> d)) := by
  intro a b hab
  have key : ∀ k i, 64 ≤ i + k → a.getLsbD i = b.getLsbD i := by
    intro k
    induction k with
    | zero => intro i hi; rw [BitVec.getLsbD_of_ge _ _ (by omega), BitVec.getLsbD_of_ge _ _ (by omega)]
    | succ k ih =>
      intro i hi
      have h := congrArg (fun v : BitVec 64 => v.getLsbD i) hab
      simp only [BitVec.getLsbD_xor, BitVec.getLsbD_ushiftRight] at h
      rw [ih (d + i) (by omega)] at h
      exact (Bool.xor_left_inj).1 h
  apply BitVec.eq_of_getLsbD_eq
  intro i _
  exact key 64 i (by omega)

instance : Finite (BitVec 64) := Finite.of_injective BitVec.toFin (fun a b h => by
  cases a; cases b; simpa using h)

theorem xorshift_surjective (d : Nat) (hd : 0 < d) :
    Function.Surjective (fun h : BitVec 64 => h ^^^ (h >>> d)) :=
  Finite.injective_iff_surjective.1 (xorshift_injective d hd)

/-- Multiplicative inverse of the multiplier modulo 2^64. -/
def inverse : BitVec 64 := 17428512612931826493#64

theorem multiplier_mul_inverse : multiplier * inverse = 1#64 := by decide

theorem fib_surj (n : Nat) (h0 : 0 < n) (h1 : n < 2 ^ 63) (t : Nat) (ht : t < 2 ^ n.log2) :
    ∃ hash : BitVec 64, fibonacciHashing hash n = t := by
  have hl : n.log2 < 63 := (Nat.log2_lt (by omega)).2 h1
  by_cases hz : n.log2 = 0
  · refine ⟨0, ?_⟩
    rw [fib_eq _ n h0 h1]; rw [hz] at ht; simp [hz]; omega
  · obtain ⟨hash, hh⟩ := xorshift_surjective (64 - n.log2) (by omega)
      (inverse * BitVec.ofNat 64 (t * 2 ^ (64 - n.log2)))
    refine ⟨hash, ?_⟩
    rw [fib_eq _ n h0 h1]
    simp only [hz, if_false]
    simp only at hh
    rw [hh, ← BitVec.mul_assoc, multiplier_mul_inverse, BitVec.one_mul, BitVec.toNat_ofNat]
    have hlt : t * 2 ^ (64 - n.log2) < 2 ^ 64 := by
      calc t * 2 ^ (64 - n.log2) < 2 ^ n.log2 * 2 ^ (64 - n.log2) :=
            Nat.mul_lt_mul_of_pos_right ht (Nat.two_pow_pos _)
        _ = 2 ^ 64 := by rw [← Nat.pow_add]; congr 1; omega
    rw [Nat.mod_eq_of_lt hlt, Nat.mul_div_cancel _ (Nat.two_pow_pos _)]

end Stdgpu.FibHash
