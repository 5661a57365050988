import Verif.Model.Sizes
import Verif.Props.Bit
import Verif.Proof.Unordered3
import Mathlib.Algebra.Order.Ring.Pow
import Mathlib.Tactic.Linarith
import Mathlib.Tactic.Positivity
import Mathlib.Tactic.FieldSimp
/-! C37: the sizes of a new unordered container. -/
namespace Stdgpu.Props
open Stdgpu.Unordered Stdgpu.Spec

/-- Conversion to `float` is exact below 2^24, and otherwise between the neighbouring powers of two. -/
theorem toFloat_small {n : Nat} (h : n < 2 ^ 24) : toFloat n = n := by
  unfold toFloat
  have : n.log2 + 1 - 24 = 0 := by
    by_cases h0 : n = 0
    · subst h0; rfl
    · have := (Nat.log2_lt h0).2 h; omega
  simp [this, Nat.mod_one]

theorem toFloat_large {n : Nat} (h : 2 ^ 24 ≤ n) : 2 ^ n.log2 ≤ toFloat n ∧ toFloat n ≤ 2 ^ (n.log2 + 1) ∧
    (toFloat n = 2 ^ n.log2 ↔ n ≤ 2 ^ n.log2 + 2 ^ (n.log2 - 24)) := by
  have hn0 : n ≠ 0 := by omega
  have hL : 24 ≤ n.log2 := (Nat.le_log2 hn0).2 h
  have hlo : 2 ^ n.log2 ≤ n := Nat.log2_self_le hn0
  have hhi : n < 2 ^ (n.log2 + 1) := Nat.lt_log2_self
  unfold toFloat
  dsimp only
  generalize n.log2 = L at *
  obtain ⟨s, rfl⟩ : ∃ s, L = 23 + (s + 1) := ⟨L - 24, by omega⟩
  have e1 : 23 + (s + 1) + 1 - 24 = s + 1 := by omega
  have e2 : 23 + (s + 1) - 24 = s := by omega
  have e3 : 2 ^ (23 + (s + 1)) = 2 ^ 23 * 2 ^ (s + 1) := by rw [pow_add]
  have e4 : 2 ^ (23 + (s + 1) + 1) = 2 ^ 24 * 2 ^ (s + 1) := by rw [show 23 + (s + 1) + 1 = 24 + (s + 1) by omega, pow_add]
  have e5 : 2 ^ (s + 1) = 2 * 2 ^ s := by rw [pow_succ]; omega
  rw [e1, e2, e3, e4]
  rw [e3] at hlo
  rw [e4] at hhi
  have hT : 0 < 2 ^ s := Nat.pow_pos (by omega)
  have hT1 : 0 < 2 ^ (s + 1) := Nat.pow_pos (by omega)
  have hq1 : 2 ^ 23 ≤ n / 2 ^ (s + 1) := (Nat.le_div_iff_mul_le hT1).2 hlo
  have hq2 : n / 2 ^ (s + 1) < 2 ^ 24 := Nat.div_lt_of_lt_mul (by rw [Nat.mul_comm]; exact hhi)
  have hr : n % 2 ^ (s + 1) < 2 ^ (s + 1) := Nat.mod_lt _ hT1
  have hd : n = n / 2 ^ (s + 1) * 2 ^ (s + 1) + n % 2 ^ (s + 1) := by
    rw [Nat.mul_comm]; exact (Nat.div_add_mod _ _).symm
  generalize n / 2 ^ (s + 1) = q at *
  generalize n % 2 ^ (s + 1) = r at *
  generalize 2 ^ (s + 1) = T at *
  generalize 2 ^ s = H at *
  have a1 : 2 ^ 23 * T ≤ q * T := Nat.mul_le_mul_right _ hq1
  have a2 : (q + 1) * T ≤ 2 ^ 24 * T := Nat.mul_le_mul_right _ hq2
  have a3 : (q + 1) * T = q * T + T := by ring
  have a4 : q ≠ 2 ^ 23 → 2 ^ 23 * T + T ≤ q * T := by
    intro hne
    calc 2 ^ 23 * T + T = (2 ^ 23 + 1) * T := by ring
      _ ≤ q * T := Nat.mul_le_mul_right _ (by omega)
  by_cases hq : q = 2 ^ 23
  · subst hq
    rw [if_pos (c := 2 ^ 23 % 2 = 0) (by norm_num), a3]
    split
    · refine ⟨by omega, by omega, by omega⟩
    · split
      · refine ⟨by omega, by omega, by omega⟩
      · refine ⟨by omega, by omega, by omega⟩
  · have a4 := a4 hq
    split
    · refine ⟨by omega, by omega, by omega⟩
    · split
      · rw [a3]; refine ⟨by omega, by omega, by omega⟩
      · split
        · refine ⟨by omega, by omega, by omega⟩
        · rw [a3]; refine ⟨by omega, by omega, by omega⟩

theorem bucketCount_spec (n : Nat) (h1 : toFloat n ≤ 2 ^ 62) :
    ∃ k, bucketCount n = 2 ^ k ∧ toFloat n ≤ 2 ^ k ∧ ∀ j, toFloat n ≤ 2 ^ j → k ≤ j := by
  unfold bucketCount
  have e : (BitVec.ofNat 64 (toFloat n)).toNat = toFloat n := by
    rw [BitVec.toNat_ofNat]; exact Nat.mod_eq_of_lt (by omega)
  have := C02_bit_ceil (by omega) (BitVec.ofNat 64 (toFloat n)) (by rw [e]; omega)
  rwa [e] at this

/-- C37, partial: for every capacity up to 2^62 the bucket count is a power of two, namely the smallest one that is not
below the capacity, except when the capacity exceeds a power of two from 2^24 on by at most one part in 2^24: then it is
that power of two, which is below the capacity. (What is missing is `bucket_count >= capacity` in the exceptional case,
where it is false.) -/
theorem C37_bucket_count_partial (n : Nat) (h0 : 0 < n) (h1 : n ≤ 2 ^ 62) :
    ∃ k, k ≤ 62 ∧ bucketCount n = 2 ^ k ∧
      ((∃ m, 24 ≤ m ∧ 2 ^ m < n ∧ n ≤ 2 ^ m + 2 ^ (m - 24)) → 24 ≤ k ∧ 2 ^ k < n ∧ n ≤ 2 ^ k + 2 ^ (k - 24)) ∧
      (¬ (∃ m, 24 ≤ m ∧ 2 ^ m < n ∧ n ≤ 2 ^ m + 2 ^ (m - 24)) → n ≤ 2 ^ k ∧ ∀ j, n ≤ 2 ^ j → k ≤ j) := by
  by_cases hs : n < 2 ^ 24
  · obtain ⟨k, e, e1, e2⟩ := bucketCount_spec n (by rw [toFloat_small hs]; omega)
    rw [toFloat_small hs] at e1 e2
    refine ⟨k, e2 62 h1, e, ?_, fun _ => ⟨e1, e2⟩⟩
    rintro ⟨m, hm, hlt, -⟩
    have : 2 ^ 24 ≤ 2 ^ m := Nat.pow_le_pow_right (by omega) hm
    omega
  · have hn0 : n ≠ 0 := by omega
    obtain ⟨f1, f2, f3⟩ := toFloat_large (n := n) (by omega)
    have hL : 24 ≤ n.log2 := (Nat.le_log2 hn0).2 (by omega)
    have hlo : 2 ^ n.log2 ≤ n := Nat.log2_self_le hn0
    have hhi : n < 2 ^ (n.log2 + 1) := Nat.lt_log2_self
    have hL2 : n.log2 ≤ 62 := by
      by_contra hc
      have : 2 ^ 63 ≤ 2 ^ n.log2 := Nat.pow_le_pow_right (by omega) (by omega)
      omega
    -- the only power of two with which `n` can be in the exceptional case
    have huniq : ∀ m, 24 ≤ m → 2 ^ m < n → n ≤ 2 ^ m + 2 ^ (m - 24) → m = n.log2 := by
      intro m hm h2 h3
      have hmm : 2 ^ (m - 24) ≤ 2 ^ m := Nat.pow_le_pow_right (by omega) (by omega)
      have hm1 : 2 ^ (m + 1) = 2 ^ m + 2 ^ m := by rw [pow_succ]; omega
      by_contra hne
      rcases Nat.lt_or_gt_of_ne hne with hlt | hlt
      · have : 2 ^ (m + 1) ≤ 2 ^ n.log2 := Nat.pow_le_pow_right (by omega) hlt
        have hx : 2 ^ (m - 24) < 2 ^ m := Nat.pow_lt_pow_right (by omega) (by omega)
        omega
      · have : 2 ^ (n.log2 + 1) ≤ 2 ^ m := Nat.pow_le_pow_right (by omega) hlt
        omega
    have hf62 : toFloat n ≤ 2 ^ 62 := by
      by_cases hx : n.log2 = 62
      · have hn : n = 2 ^ 62 := by rw [hx] at hlo; omega
        have : toFloat n = 2 ^ n.log2 := f3.2 (by rw [hx, hn]; omega)
        rw [this, hx]
      · have : 2 ^ (n.log2 + 1) ≤ 2 ^ 62 := Nat.pow_le_pow_right (by omega) (by omega)
        omega
    obtain ⟨k, e, e1, e2⟩ := bucketCount_spec n hf62
    have hk62 : k ≤ 62 := e2 62 hf62
    by_cases hd : toFloat n = 2 ^ n.log2
    · have hk : k = n.log2 := by
        have h3 : k ≤ n.log2 := e2 _ (le_of_eq hd)
        rw [hd] at e1
        have := (Nat.pow_le_pow_iff_right (a := 2) (by omega)).1 e1
        omega
      have h4 := f3.1 hd
      subst hk
      refine ⟨n.log2, hk62, e, ?_, ?_⟩
      · rintro ⟨m, hm, h2, h3⟩
        obtain rfl := huniq m hm h2 h3
        exact ⟨hL, h2, h3⟩
      · intro hne
        have hn : n = 2 ^ n.log2 := by
          by_contra hx
          exact hne ⟨n.log2, hL, by omega, h4⟩
        exact ⟨le_of_eq hn, fun j hj => e2 j (by rw [hd, ← hn]; exact hj)⟩
    · have hk : k = n.log2 + 1 := by
        have h3 : k ≤ n.log2 + 1 := e2 _ f2
        have : 2 ^ n.log2 < 2 ^ k := by omega
        have := (Nat.pow_lt_pow_iff_right (a := 2) (by omega)).1 this
        omega
      have hgt : 2 ^ n.log2 < n := by
        by_contra hx
        exact hd (f3.2 (le_trans (by omega) (Nat.le_add_right _ _)))
      subst hk
      refine ⟨n.log2 + 1, hk62, e, ?_, ?_⟩
      · rintro ⟨m, hm, h2, h3⟩
        obtain rfl := huniq m hm h2 h3
        exact absurd (f3.2 h3) hd
      · intro _
        refine ⟨le_of_lt hhi, fun j hj => ?_⟩
        by_contra hc
        have : 2 ^ j ≤ 2 ^ n.log2 := Nat.pow_le_pow_right (by omega) (by omega)
        omega

/-- Up to 2^24 the bucket count is at least the capacity. -/
theorem C37_bucket_count_small (n : Nat) (h0 : 0 < n) (h1 : n ≤ 2 ^ 24) : n ≤ bucketCount n := by
  obtain ⟨k, -, e, -, h⟩ := C37_bucket_count_partial n h0 (by omega)
  rw [e]
  refine (h ?_).1
  rintro ⟨m, hm, hlt, -⟩
  have : 2 ^ 24 ≤ 2 ^ m := Nat.pow_le_pow_right (by omega) hm
  omega

/-- Above it can be smaller: 2^24 buckets for a capacity of 2^24 + 1. -/
theorem C37_bucket_count_counterexample : bucketCount (2 ^ 24 + 1) = 2 ^ 24 := by
  obtain ⟨k, -, e, h, -⟩ := C37_bucket_count_partial (2 ^ 24 + 1) (by omega) (by omega)
  obtain ⟨h1, h2, -⟩ := h ⟨24, by omega, by omega, by omega⟩
  have : k = 24 := by
    by_contra hne
    have : 2 ^ 25 ≤ 2 ^ k := Nat.pow_le_pow_right (by omega) (by omega)
    omega
  rw [e, this]

example : bucketCount 1000 = 1024 ∧ bucketCount 1024 = 1024 ∧ bucketCount 1 = 1 := by decide +kernel

/-- Probability that none of `m` other elements meets a given one. -/
theorem collision_bounds (k m : Nat) (hk : 0 < k) :
    0 ≤ (1 - 1 / (k : ℚ)) ^ m ∧ (1 - 1 / (k : ℚ)) ^ m ≤ 1 ∧ (k ≤ m → (1 - 1 / (k : ℚ)) ^ m ≤ 1 / 2) := by
  have hk' : (0 : ℚ) < k := by exact_mod_cast hk
  have hx0 : 0 < 1 / (k : ℚ) := by positivity
  have hx1 : 1 / (k : ℚ) ≤ 1 := by
    rw [div_le_one hk']; exact_mod_cast hk
  refine ⟨pow_nonneg (by linarith) _, pow_le_one₀ (by linarith) (by linarith), fun hkm => ?_⟩
  set x := 1 / (k : ℚ) with hx
  have hb : 1 + (m : ℚ) * x ≤ (1 + x) ^ m := one_add_mul_le_pow (by linarith) m
  have hmx : 1 ≤ (m : ℚ) * x := by
    rw [hx, mul_one_div, le_div_iff₀ hk']
    simp only [one_mul]
    exact_mod_cast hkm
  have hp : (1 - x) ^ m * (1 + x) ^ m ≤ 1 := by
    rw [← mul_pow]
    apply pow_le_one₀
    · have : (1 - x) * (1 + x) = 1 - x * x := by ring
      rw [this]; nlinarith
    · have : (1 - x) * (1 + x) = 1 - x * x := by ring
      rw [this]; nlinarith
  have hnn : 0 ≤ (1 - x) ^ m := pow_nonneg (by linarith) _
  nlinarith

/-- C37: there is at least one and at most `capacity + 1` excess entries, and the table has at least `capacity` entries in
total (also in the exceptional case of `C37_bucket_count_partial`). -/
theorem C37_excess_and_total (n : Nat) (h0 : 0 < n) (h1 : n ≤ 2 ^ 62) :
    1 ≤ excessCount n ∧ excessCount n ≤ n + 1 ∧ n ≤ bucketCount n + excessCount n := by
  obtain ⟨k, -, e, hex, hno⟩ := C37_bucket_count_partial n h0 h1
  have hbc : 0 < bucketCount n := by rw [e]; exact Nat.pow_pos (by omega)
  obtain ⟨b1, b2, b3⟩ := collision_bounds (bucketCount n) (n - 1) hbc
  have hn : (0 : ℚ) ≤ n := by exact_mod_cast Nat.zero_le n
  refine ⟨by unfold excessCount; omega, ?_, ?_⟩
  · unfold excessCount expectedCollisions
    have : ⌈(n : ℚ) * (1 - (1 - 1 / (bucketCount n : ℚ)) ^ (n - 1))⌉ ≤ (n : ℤ) := by
      rw [Int.ceil_le]
      push_cast
      nlinarith
    omega
  · by_cases hm : ∃ m, 24 ≤ m ∧ 2 ^ m < n ∧ n ≤ 2 ^ m + 2 ^ (m - 24)
    · obtain ⟨g1, g2, g3⟩ := hex hm
      have b3 := b3 (by rw [e]; omega)
      have h4 : (n : ℚ) / 2 ≤ (n : ℚ) * (1 - (1 - 1 / (bucketCount n : ℚ)) ^ (n - 1)) := by nlinarith
      have h5 : (n : ℚ) * (1 - (1 - 1 / (bucketCount n : ℚ)) ^ (n - 1)) ≤
          ((⌈(n : ℚ) * (1 - (1 - 1 / (bucketCount n : ℚ)) ^ (n - 1))⌉ : ℤ) : ℚ) := Int.le_ceil _
      have h6 : (n : ℚ) ≤ ((2 * ⌈(n : ℚ) * (1 - (1 - 1 / (bucketCount n : ℚ)) ^ (n - 1))⌉ : ℤ) : ℚ) := by
        push_cast; linarith
      have h7 : (n : ℤ) ≤ 2 * ⌈(n : ℚ) * (1 - (1 - 1 / (bucketCount n : ℚ)) ^ (n - 1))⌉ := by exact_mod_cast h6
      unfold excessCount expectedCollisions
      have h8 : 2 ^ (k - 24) ≤ 2 ^ k := Nat.pow_le_pow_right (by omega) (by omega)
      have h9 : n ≤ 2 * bucketCount n := by rw [e]; omega
      omega
    · have := (hno hm).1
      rw [e]; omega

/-- C37: a new container is empty and valid, whatever the excess count that the floating-point computation yields. -/
theorem C37_created {K V : Type} {P : Params K V} (hl : KeyLaws P) (n : Nat) (h0 : 0 < n) (h1 : n ≤ 2 ^ 62) (ec : Nat)
    (ord : Nat → List Nat) (ho : ∀ n, (ord n).Perm (List.range n)) :
    let t : Tab V := create (bucketCount n) ec
    contents t = [] ∧ size t = 0 ∧ empty t = true ∧ t.total = bucketCount n + ec ∧
      (freeList t).Perm (List.range' (bucketCount n) ec) ∧ valid P ord t = .ok true := by
  obtain ⟨k, hk, e, -⟩ := C37_bucket_count_partial n h0 h1
  have hbc : 0 < bucketCount n := by rw [e]; exact Nat.pow_pos (by omega)
  have hlt : bucketCount n < 2 ^ 63 := by rw [e]; exact Nat.pow_lt_pow_right (by omega) (by omega)
  have hr := rep_create P (V := V) (bucketCount n) ec hbc hlt
  refine ⟨contents_nil_of_occ _ (fun _ _ => rfl), rfl, rfl, rfl, ?_, valid_eq hr hl ho⟩
  rw [freeList_eq hr]

/-- C37: `createDeviceObject` with a capacity from 1 to 2^62 gives an empty valid container whose bucket count is a power
of two (the one of C37_bucket_count_partial), which has at least one excess entry and at least as many entries as asked
for. -/
theorem C37_created_device_object {K V : Type} {P : Params K V} (hl : KeyLaws P) (n : Nat) (h0 : 0 < n) (h1 : n ≤ 2 ^ 62)
    (ord : Nat → List Nat) (ho : ∀ n, (ord n).Perm (List.range n)) :
    let t : Tab V := createDeviceObject n
    t.bc = bucketCount n ∧ (∃ k, t.bc = 2 ^ k) ∧ t.bc < t.total ∧ n ≤ t.total ∧ (n ≤ 2 ^ 24 → n ≤ t.bc) ∧
      contents t = [] ∧ size t = 0 ∧ empty t = true ∧ (freeList t).Perm (List.range' t.bc (t.total - t.bc)) ∧
      valid P ord t = .ok true := by
  obtain ⟨c1, c2, c3, c4, c5, c6⟩ := C37_created (V := V) hl n h0 h1 (excessCount n) ord ho
  obtain ⟨k, -, e, -⟩ := C37_bucket_count_partial n h0 h1
  obtain ⟨e1, -, e2⟩ := C37_excess_and_total n h0 h1
  refine ⟨rfl, ⟨k, e⟩, ?_, ?_, fun h => C37_bucket_count_small n h0 h, c1, c2, c3, ?_, c6⟩
  · show bucketCount n < bucketCount n + excessCount n
    omega
  · exact e2
  · show (freeList (createDeviceObject n : Tab V)).Perm (List.range' (bucketCount n) (bucketCount n + excessCount n - bucketCount n))
    rw [Nat.add_sub_cancel_left]
    exact c5

/-- All the sizes the model of `createDeviceObject` computes. -/
example : bucketCount 3 = 4 ∧ excessCount 3 = 3 ∧ excessCount 1 = 1 := by
  refine ⟨by decide +kernel, ?_, ?_⟩
  · have h : bucketCount 3 = 4 := by decide +kernel
    unfold excessCount expectedCollisions; rw [h]
    norm_num [Int.ceil_eq_iff]
    decide
  · unfold excessCount expectedCollisions; norm_num

end Stdgpu.Props
