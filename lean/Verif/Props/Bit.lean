import Verif.Proof.Bit
import Verif.Proof.FibHash
/-!
Property theorems C01–C05 (bit manipulation, bucket index).
`w` is the number of binary digits of the unsigned type.
-/
namespace Stdgpu.Props
open Stdgpu.Bit Stdgpu.FibHash

/-- C01. `has_single_bit(n)` is true exactly for the powers of two that the type can represent. -/
theorem C01_has_single_bit {w : Nat} (n : BitVec w) :
    hasSingleBit n = true ↔ ∃ k, k < w ∧ n.toNat = 2 ^ k :=
  hasSingleBit_iff' n

example : hasSingleBit (64 : BitVec 32) = true ∧ hasSingleBit (65 : BitVec 32) = false := by decide

/-- C02 (bit_ceil, representable case): when some power of two `≥ n` is representable, `bit_ceil(n)` is the
smallest power of two that is not smaller than `n`. -/
theorem C02_bit_ceil {w : Nat} (hw : 0 < w) (n : BitVec w) (hn : n.toNat ≤ 2 ^ (w - 1)) :
    ∃ k, (bitCeil n).toNat = 2 ^ k ∧ n.toNat ≤ 2 ^ k ∧ ∀ j, n.toNat ≤ 2 ^ j → k ≤ j := by
  by_cases h2 : n.toNat < 2
  · exact ⟨0, by simpa using bitCeil_small hw n h2, by omega, fun j _ => Nat.zero_le j⟩
  · have h2' : 2 ≤ n.toNat := by omega
    have hne : n.toNat - 1 ≠ 0 := by omega
    refine ⟨(n.toNat - 1).log2 + 1, ?_, ?_, ?_⟩
    · rw [bitCeil_toNat n h2']
      apply Nat.mod_eq_of_lt
      apply Nat.pow_lt_pow_right (by omega)
      have : (n.toNat - 1).log2 < w - 1 := (Nat.log2_lt hne).2 (by omega)
      omega
    · have : n.toNat - 1 < 2 ^ ((n.toNat - 1).log2 + 1) := Nat.lt_log2_self
      omega
    · intro j hj
      have : (n.toNat - 1).log2 < j := (Nat.log2_lt hne).2 (by omega)
      omega

/-- C02 (bit_ceil, overflow case): when no power of two `≥ n` is representable the result is 0. -/
theorem C02_bit_ceil_overflow {w : Nat} (n : BitVec w) (hn : 2 ^ (w - 1) < n.toNat) : bitCeil n = 0 := by
  have hw : 1 < w := by
    rcases w with _ | _ | w
    · have := n.isLt; simp at this hn; omega
    · have := n.isLt; simp at this hn; omega
    · omega
  have h1 : 2 ^ 1 ≤ 2 ^ (w - 1) := Nat.pow_le_pow_right (by omega) (by omega)
  apply BitVec.eq_of_toNat_eq
  rw [bitCeil_toNat n (by omega)]
  have hlt := n.isLt
  have hne : n.toNat - 1 ≠ 0 := by omega
  have h2 : (n.toNat - 1).log2 < w := (Nat.log2_lt hne).2 (by omega)
  have h3 : ¬ (n.toNat - 1).log2 < w - 1 := by
    intro h; have := (Nat.log2_lt hne).1 h; omega
  have h4 : (n.toNat - 1).log2 + 1 = w := by omega
  rw [h4]; simp

example : bitCeil (100 : BitVec 8) = 128 ∧ bitCeil (129 : BitVec 8) = 0 ∧ bitCeil (0 : BitVec 8) = 1 := by
  decide

/-- C02 (bit_floor): the largest power of two that is not greater than `n`; 0 for 0. -/
theorem C02_bit_floor {w : Nat} (n : BitVec w) :
    (n = 0 → bitFloor n = 0) ∧
    (n ≠ 0 → ∃ k, (bitFloor n).toNat = 2 ^ k ∧ 2 ^ k ≤ n.toNat ∧ ∀ j, 2 ^ j ≤ n.toNat → j ≤ k) := by
  constructor
  · intro h; simp [bitFloor, h]
  · intro h
    refine ⟨n.toNat.log2, bitFloor_toNat n h, Nat.log2_self_le (toNat_ne_zero h), ?_⟩
    intro j hj
    exact (Nat.le_log2 (toNat_ne_zero h)).2 hj

example : bitFloor (100 : BitVec 8) = 64 ∧ (100 : BitVec 8) ≠ 0 := by decide

/-- C03. For a power-of-two divisor `bit_mod` is the remainder. -/
theorem C03_bit_mod {w : Nat} (n d : BitVec w) (hd : hasSingleBit d = true) :
    (bitMod n d).toNat = n.toNat % d.toNat ∧ (bitMod n d).toNat < d.toNat := by
  obtain ⟨k, hk, hdk⟩ := (hasSingleBit_iff' d).1 hd
  have hd0 : d ≠ 0 := by
    intro e; rw [e] at hdk; have := Nat.two_pow_pos k; simp at hdk; omega
  have h : (bitMod n d).toNat = n.toNat % d.toNat := by
    unfold bitMod
    rw [BitVec.toNat_and, toNat_sub_one hd0, hdk, Nat.and_two_pow_sub_one_eq_mod]
  exact ⟨h, by rw [h]; exact Nat.mod_lt _ (by rw [hdk]; exact Nat.two_pow_pos k)⟩

example : hasSingleBit (32 : BitVec 64) = true ∧ (bitMod (77 : BitVec 64) 32).toNat = 13 := by decide

/-- C04 (bit_width): 0 for 0, otherwise the `k` with `2^(k-1) ≤ n < 2^k`. -/
theorem C04_bit_width {w : Nat} (n : BitVec w) :
    (n = 0 → bitWidth n = 0) ∧
    (n ≠ 0 → 1 ≤ (bitWidth n).toNat ∧ 2 ^ ((bitWidth n).toNat - 1) ≤ n.toNat ∧
      n.toNat < 2 ^ (bitWidth n).toNat ∧ (bitWidth n).toNat ≤ w) := by
  constructor
  · intro h; simp [bitWidth, h]
  · intro h
    rw [bitWidth_toNat n h]
    refine ⟨by omega, ?_, Nat.lt_log2_self, ?_⟩
    · simpa using Nat.log2_self_le (toNat_ne_zero h)
    · have := log2_lt_width n h; omega

example : (bitWidth (100 : BitVec 8)).toNat = 7 := by
  have := (C04_bit_width (100 : BitVec 8)).2 (by decide)
  have h : ((100 : BitVec 8)).toNat = 100 := rfl
  rw [h] at this
  obtain ⟨h1, h2, h3, h4⟩ := this
  have a : (bitWidth (100 : BitVec 8)).toNat - 1 < 7 := (Nat.pow_lt_pow_iff_right (a := 2) (by omega)).1 (by omega)
  have b : 6 < (bitWidth (100 : BitVec 8)).toNat := (Nat.pow_lt_pow_iff_right (a := 2) (by omega)).1 (by omega)
  omega

/-- C04 (popcount): the number of positions whose bit is set; at most the number of digits. -/
theorem C04_popcount {w : Nat} (n : BitVec w) :
    popcount n = (List.range w).countP (fun i => n.getLsbD i) ∧ popcount n ≤ w := by
  have h : popcount n = (List.range w).countP (fun i => n.getLsbD i) := by
    unfold popcount; rw [popcountLoop_eq]; omega
  refine ⟨h, ?_⟩
  rw [h]
  calc _ ≤ (List.range w).length := List.countP_le_length
    _ = w := List.length_range

example : popcount (0b1011 : BitVec 8) = 3 := by rw [(C04_popcount _).1]; decide

/-- C05 (range). For every hash value and every representable bucket count ≥ 1 the bucket index is inside
`[0, bucket_count)` (no power-of-two assumption is needed for safety). -/
theorem C05_bucket_in_range {Key : Type} (hash : Key → BitVec 64) (key : Key) (bucketCount : Nat)
    (h0 : 0 < bucketCount) (h1 : bucketCount < 2 ^ 63) :
    0 ≤ bucket hash bucketCount key ∧ bucket hash bucketCount key < bucketCount := by
  obtain ⟨ha, hb⟩ := fib_range (hash key) bucketCount h0 h1
  refine ⟨ha, ?_⟩
  have : 2 ^ bucketCount.log2 ≤ bucketCount := Nat.log2_self_le (by omega)
  have h2 : ((2 ^ bucketCount.log2 : Nat) : Int) ≤ bucketCount := by exact_mod_cast this
  have h3 : fibonacciHashing (hash key) bucketCount < ((2 ^ bucketCount.log2 : Nat) : Int) := by
    exact_mod_cast hb
  exact lt_of_lt_of_le h3 h2

/-- C05 (onto). For a power-of-two bucket count every bucket is the bucket of some hash value. -/
theorem C05_bucket_surjective (k : Nat) (hk : k < 63) (b : Nat) (hb : b < 2 ^ k) :
    ∃ h : BitVec 64, fibonacciHashing h ((2 ^ k : Nat) : Int) = b := by
  apply fib_surj (2 ^ k) (Nat.two_pow_pos k) (Nat.pow_lt_pow_right (by omega) hk)
  rw [Nat.log2_two_pow]; exact hb

/-- C05 (equal keys). Keys with equal hash values are looked up in the same bucket. -/
theorem C05_bucket_respects_hash {Key : Type} (hash : Key → BitVec 64) (a b : Key) (bucketCount : Int)
    (h : hash a = hash b) : bucket hash bucketCount a = bucket hash bucketCount b := by
  unfold bucket; rw [h]

example : (0 < 8 ∧ 8 < 2 ^ 63) ∧ (5 < 2 ^ 3 ∧ 3 < 63) := by decide

end Stdgpu.Props
