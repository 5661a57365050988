import Verif.Model.SizesRounded
import Verif.Props.Sizes
/-
C37 with rounding errors of `long double`.
-/
namespace Stdgpu.Spec

theorem floatNum_nat {p n : Nat} (h : n ≤ 2 ^ p) : FloatNum p n :=
  ⟨n, 0, by rw [abs_of_nonneg (by omega)]; exact_mod_cast h, by simp⟩

theorem floatNum_zero (p : Nat) : FloatNum p 0 := by simpa using floatNum_nat (p := p) (n := 0) (by simp)

theorem floatNum_one (p : Nat) : FloatNum p 1 := by simpa using floatNum_nat (p := p) (n := 1) Nat.one_le_two_pow

theorem floatNum_half {p n : Nat} (h : n ≤ 2 ^ p) : FloatNum p (n / 2) :=
  ⟨n, -1, by rw [abs_of_nonneg (by omega)]; exact_mod_cast h, by simp [zpow_neg_one, div_eq_mul_inv]⟩

theorem Rounds.exact {p : Nat} {x y : ℚ} (h : Rounds p x y) (hx : FloatNum p x) : y = x :=
  le_antisymm ((h x hx).2 le_rfl) ((h x hx).1 le_rfl)

theorem Rounds.unit {p : Nat} {x y : ℚ} (h : Rounds p x y) (h0 : 0 ≤ x) (h1 : x ≤ 1) : 0 ≤ y ∧ y ≤ 1 :=
  ⟨(h 0 (floatNum_zero p)).1 h0, (h 1 (floatNum_one p)).2 h1⟩

theorem Rounds.refl (p : Nat) (x : ℚ) : Rounds p x x := fun _ _ => ⟨id, id⟩

/-- There is no floating-point number strictly between two neighbours `a 2^f` and `(a + 1) 2^f` with full significands. -/
theorem floatNum_gap {p a : Nat} (ha : 2 ^ p ≤ 2 * a) (f : ℤ) {c : ℚ} (hc : FloatNum p c) (h0 : (a : ℚ) * 2 ^ f < c) :
    ((a : ℚ) + 1) * 2 ^ f ≤ c := by
  obtain ⟨m, e, hm, rfl⟩ := hc
  have h2 : (0 : ℚ) < 2 ^ f := zpow_pos (by norm_num) _
  by_cases hef : f ≤ e
  · obtain ⟨k, hk⟩ := Int.eq_ofNat_of_zero_le (sub_nonneg.2 hef)
    have he : (2 : ℚ) ^ e = 2 ^ k * 2 ^ f := by
      rw [← zpow_natCast, ← zpow_add₀ (by norm_num)]; congr 1; omega
    rw [he, ← mul_assoc] at h0 ⊢
    have h1 : (a : ℚ) < m * 2 ^ k := lt_of_mul_lt_mul_right h0 h2.le
    have h3 : (a : ℤ) < m * 2 ^ k := by exact_mod_cast h1
    have h4 : ((a : ℚ) + 1) ≤ m * 2 ^ k := by exact_mod_cast h3
    exact mul_le_mul_of_nonneg_right h4 h2.le
  · exfalso
    obtain ⟨k, hk⟩ := Int.eq_ofNat_of_zero_le (show 0 ≤ f - e - 1 by omega)
    have he : (2 : ℚ) ^ f = (2 * 2 ^ k) * 2 ^ e := by
      rw [show f = (((k + 1 : Nat) : ℤ)) + e by omega, zpow_add₀ (by norm_num), zpow_natCast, pow_succ]; ring
    have h5 : (0 : ℚ) < 2 ^ e := zpow_pos (by norm_num) _
    rw [he, ← mul_assoc] at h0
    have h1 : (a : ℚ) * (2 * 2 ^ k) < m := lt_of_mul_lt_mul_right h0 h5.le
    have h3 : (a : ℤ) * (2 * 2 ^ k) < m := by exact_mod_cast h1
    have h6 : m ≤ 2 ^ p := (le_abs_self m).trans hm
    have h7 : ((2 : ℤ) ^ p) ≤ 2 * a := by exact_mod_cast ha
    have h8 : (1 : ℤ) ≤ 2 ^ k := one_le_pow₀ (by norm_num)
    nlinarith

/-- Rounding up and rounding down to a neighbour are `Rounds`. -/
theorem Rounds.up {p a : Nat} (ha : 2 ^ p ≤ 2 * a) (f : ℤ) {x y : ℚ} (hx : (a : ℚ) * 2 ^ f < x) (hy : y = (a + 1) * 2 ^ f)
    (hxy : x ≤ y) : Rounds p x y :=
  fun _ hc => ⟨fun h => h.trans hxy, fun h => hy ▸ floatNum_gap ha f hc (hx.trans_le h)⟩

theorem Rounds.down {p a : Nat} (ha : 2 ^ p ≤ 2 * a) (f : ℤ) {x y : ℚ} (hx : x < (a + 1) * 2 ^ f) (hy : y = a * 2 ^ f)
    (hxy : y ≤ x) : Rounds p x y :=
  fun c hc => ⟨fun h => le_of_not_gt fun h' => absurd (floatNum_gap ha f hc (hy ▸ h')) (not_le.2 (h.trans_lt hx)),
    fun h => hxy.trans h⟩

end Stdgpu.Spec

namespace Stdgpu.Props
open Stdgpu.Unordered Stdgpu.Spec

/-- C37: whatever the rounding errors in the computation of the excess count are, there is at least one and at most `capacity + 1`
excess entries, and the table has at least `capacity` entries in total, for all capacities that a `long double` represents
exactly. -/
theorem C37_excess_any_rounding (p n c : Nat) (h0 : 0 < n) (h1 : n ≤ 2 ^ 62) (hp : n ≤ 2 ^ p)
    (hc : CollisionsRounded p (bucketCount n) n c) : c ≤ n ∧ n ≤ bucketCount n + (c + 1) := by
  obtain ⟨k', -, ebc, hex, hno⟩ := C37_bucket_count_partial n h0 h1
  have hbc : 0 < bucketCount n := by rw [ebc]; exact Nat.pow_pos (by omega)
  obtain ⟨k, n', q, b, e, w, d, r, j, r1, r2, r3, r4, r5, hj, r6, r7, r8, hres⟩ := hc
  have hn' : n' = n := r2.exact (floatNum_nat hp)
  subst hn'
  have hk1 : 1 ≤ k := (r1 1 (floatNum_one p)).1 (by exact_mod_cast hbc)
  have hq := r3.unit (by positivity) (by rw [div_le_one (by linarith)]; exact hk1)
  have hb := r4.unit (by linarith [hq.2]) (by linarith [hq.1])
  have hw := r6.unit (pow_nonneg hb.1 _) (pow_le_one₀ hb.1 hb.2)
  have hd := r7.unit (by linarith [hw.2]) (by linarith [hw.1])
  have hn0 : (0 : ℚ) ≤ n := by positivity
  have hr0 : 0 ≤ r := (r8 0 (floatNum_zero p)).1 (mul_nonneg hn0 hd.1)
  have hrn : r ≤ n := (r8 n (floatNum_nat hp)).2 (by nlinarith [hd.2])
  have hcn : c ≤ n := by
    have : ⌈r⌉ ≤ (n : ℤ) := Int.ceil_le.2 (by push_cast; exact hrn)
    omega
  refine ⟨hcn, ?_⟩
  by_cases hm : ∃ m, 24 ≤ m ∧ 2 ^ m < n ∧ n ≤ 2 ^ m + 2 ^ (m - 24)
  · obtain ⟨g1, g2, g3⟩ := hex hm
    have hbp : bucketCount n ≤ 2 ^ p := by rw [ebc]; omega
    have hk : k = bucketCount n := r1.exact (floatNum_nat hbp)
    subst hk
    have hkp : k' ≤ p := by
      rw [ebc] at hbp
      exact (Nat.pow_le_pow_iff_right (by omega)).1 hbp
    have hfq : FloatNum p (1 / (bucketCount n : ℚ)) := by
      refine ⟨1, -(k' : ℤ), by simpa using one_le_pow₀ (by norm_num), ?_⟩
      rw [ebc]; push_cast
      rw [zpow_neg, zpow_natCast]; simp
    have hq' := r3.exact hfq
    subst hq'
    have hfb : FloatNum p (1 - 1 / (bucketCount n : ℚ)) := by
      refine ⟨2 ^ k' - 1, -(k' : ℤ), ?_, ?_⟩
      · have h2 : (1 : ℤ) ≤ 2 ^ k' := one_le_pow₀ (by norm_num)
        have h3 : (2 : ℤ) ^ k' ≤ 2 ^ p := pow_le_pow_right₀ (by norm_num) hkp
        rw [abs_of_nonneg (by omega)]; omega
      · rw [ebc]; push_cast
        rw [zpow_neg, zpow_natCast]
        field_simp
    have hb' := r4.exact hfb
    subst hb'
    have hfe : FloatNum p ((n : ℚ) - 1) := by
      have := floatNum_nat (p := p) (n := n - 1) (by omega)
      rwa [Nat.cast_sub h0, Nat.cast_one] at this
    have he := r5.exact hfe
    have hjn : j = n - 1 := by
      have : (j : ℚ) = (n : ℚ) - 1 := by rw [← hj, he]
      have : (j : ℚ) = ((n - 1 : Nat) : ℚ) := by rw [this, Nat.cast_sub h0, Nat.cast_one]
      exact_mod_cast this
    subst hjn
    obtain ⟨-, -, b3⟩ := collision_bounds (bucketCount n) (n - 1) hbc
    have b3 := b3 (by rw [ebc]; omega)
    have hhalf : FloatNum p (1 / 2) := by simpa using floatNum_half (p := p) (n := 1) Nat.one_le_two_pow
    have hw2 : w ≤ 1 / 2 := (r6 _ hhalf).2 b3
    have hd2 : 1 / 2 ≤ d := (r7 _ hhalf).1 (by linarith)
    have hr2 : (n : ℚ) / 2 ≤ r := (r8 _ (floatNum_half hp)).1 (by nlinarith)
    have h5 : r ≤ ((⌈r⌉ : ℤ) : ℚ) := Int.le_ceil _
    have h6 : (n : ℚ) ≤ ((2 * ⌈r⌉ : ℤ) : ℚ) := by push_cast; linarith
    have h7 : (n : ℤ) ≤ 2 * ⌈r⌉ := by exact_mod_cast h6
    have h8 : 2 ^ (k' - 24) ≤ 2 ^ k' := Nat.pow_le_pow_right (by omega) (by omega)
    have h9 : n ≤ 2 * bucketCount n := by rw [ebc]; omega
    omega
  · have := (hno hm).1
    rw [ebc]; omega

/-- C37: the container that `createDeviceObject` gives, whatever the rounding errors are. -/
theorem C37_created_any_rounding {K V : Type} {P : Params K V} (hl : KeyLaws P) (p n : Nat) (h0 : 0 < n) (h1 : n ≤ 2 ^ 62)
    (hp : n ≤ 2 ^ p) (t : Tab V) (ht : CreatedRounded p n t) (ord : Nat → List Nat) (ho : ∀ n, (ord n).Perm (List.range n)) :
    t.bc = bucketCount n ∧ t.bc < t.total ∧ n ≤ t.total ∧ t.total ≤ t.bc + n + 1 ∧
      contents t = [] ∧ size t = 0 ∧ empty t = true ∧ (freeList t).Perm (List.range' t.bc (t.total - t.bc)) ∧
      valid P ord t = .ok true := by
  obtain ⟨c, hc, rfl⟩ := ht
  obtain ⟨e1, e2⟩ := C37_excess_any_rounding p n c h0 h1 hp hc
  obtain ⟨c1, c2, c3, c4, c5, c6⟩ := C37_created (V := V) hl n h0 h1 (c + 1) ord ho
  have ht : (create (bucketCount n) (c + 1) : Tab V).total = bucketCount n + (c + 1) := rfl
  have hb : (create (bucketCount n) (c + 1) : Tab V).bc = bucketCount n := rfl
  refine ⟨rfl, by rw [ht, hb]; omega, by rw [ht]; omega, by rw [ht, hb]; omega, c1, c2, c3, ?_, c6⟩
  rw [ht, hb, Nat.add_sub_cancel_left]
  exact c5

/-- The exact result is one of the possible ones. -/
theorem C37_exact_is_a_rounding (p n : Nat) (h0 : 0 < n) : CollisionsRounded p (bucketCount n) n (expectedCollisions (bucketCount n) n) := by
  refine ⟨_, _, _, _, _, _, _, _, n - 1, .refl _ _, .refl _ _, .refl _ _, .refl _ _, .refl _ _, ?_, .refl _ _, .refl _ _, .refl _ _, rfl⟩
  rw [Nat.cast_sub h0, Nat.cast_one]

/-- With three significant bits the rounding errors may change the result: for a capacity of 3 the exact result is 2, and 1 is
possible, where `9/16` is rounded up to `5/8` and `9/8` down to `1`. -/
theorem C37_rounding_matters : CollisionsRounded 3 4 3 1 ∧ expectedCollisions 4 3 = 2 := by
  refine ⟨⟨4, 3, 1 / 4, 3 / 4, 2, 5 / 8, 3 / 8, 1, 2, Rounds.refl _ _, Rounds.refl _ _, .refl _ _, ?_, ?_,
    by norm_num, ?_, ?_, ?_, by norm_num⟩, by decide +kernel⟩
  · convert Rounds.refl 3 (3 / 4) using 1; norm_num
  · convert Rounds.refl 3 2 using 1; norm_num
  · exact .up (a := 4) (by norm_num) (-3) (by norm_num) (by norm_num) (by norm_num)
  · convert Rounds.refl 3 (3 / 8) using 1; norm_num
  · exact .down (a := 4) (by norm_num) (-2) (by norm_num) (by norm_num) (by norm_num)

/-- A case that meets the hypotheses, with that inexact result: three entries fit. -/
example : ∃ t : Tab Nat, CreatedRounded 3 3 t ∧ t.bc = 4 ∧ t.total = 6 :=
  have h : bucketCount 3 = 4 := by decide +kernel
  ⟨_, ⟨1, by rw [h]; exact C37_rounding_matters.1, rfl⟩, by rw [h]; rfl, by rw [h]; rfl⟩

end Stdgpu.Props
