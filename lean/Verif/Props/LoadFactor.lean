import Verif.Model.LoadFactor
import Verif.Props.Sizes
import Verif.Props.UnorderedConc
import Mathlib.Tactic.Ring
/-!
C85: `load_factor` and `max_load_factor`.
-/
namespace Stdgpu.Props
open Stdgpu.Unordered Stdgpu.UnorderedConc Stdgpu.Spec

theorem roundEven_int (z : ℤ) : roundEven (z : ℚ) = z := by
  unfold roundEven
  rw [Int.floor_intCast, if_pos (by simp)]

/-- Numbers with at most 24 significant bits are not changed. -/
theorem roundFloat_exact (m : Nat) (e : ℤ) (hm : m < 2 ^ 24) : roundFloat ((m : ℚ) * 2 ^ e) = (m : ℚ) * 2 ^ e := by
  by_cases h0 : m = 0
  · subst h0; simp [roundFloat]
  have hmp : (0 : ℚ) < m := by exact_mod_cast Nat.pos_of_ne_zero h0
  have h2 : (0 : ℚ) < 2 ^ e := zpow_pos (by norm_num) e
  have hq : (0 : ℚ) < (m : ℚ) * 2 ^ e := mul_pos hmp h2
  unfold roundFloat
  rw [if_neg (ne_of_gt hq)]
  dsimp only
  have hlog : Int.log 2 ((m : ℚ) * 2 ^ e) = m.log2 + e := by
    have hlo : 2 ^ m.log2 ≤ m := Nat.log2_self_le h0
    have hhi : m < 2 ^ (m.log2 + 1) := Nat.lt_log2_self
    apply le_antisymm
    · rw [← Int.lt_add_one_iff, ← Int.lt_zpow_iff_log_lt (by norm_num) hq]
      have : (m : ℚ) < 2 ^ (m.log2 + 1) := by exact_mod_cast hhi
      calc (m : ℚ) * 2 ^ e < 2 ^ (m.log2 + 1) * 2 ^ e := by gcongr
        _ = ((2 : ℕ) : ℚ) ^ ((m.log2 : ℤ) + e + 1) := by
            rw [Nat.cast_ofNat, ← zpow_natCast, ← zpow_add₀ (by norm_num)]; congr 1; push_cast; ring
    · rw [← Int.zpow_le_iff_le_log (by norm_num) hq]
      have : (2 : ℚ) ^ m.log2 ≤ m := by exact_mod_cast hlo
      calc ((2 : ℕ) : ℚ) ^ ((m.log2 : ℤ) + e) = 2 ^ m.log2 * 2 ^ e := by
            rw [Nat.cast_ofNat, zpow_add₀ (by norm_num), zpow_natCast]
        _ ≤ (m : ℚ) * 2 ^ e := by gcongr
  rw [hlog]
  have hl : m.log2 ≤ 23 := by have := (Nat.log2_lt h0).2 hm; omega
  have hx : (m : ℚ) * 2 ^ e / 2 ^ ((m.log2 : ℤ) + e - 23) = ((m * 2 ^ (23 - m.log2) : ℕ) : ℤ) := by
    rw [div_eq_iff (ne_of_gt (zpow_pos (by norm_num) _))]
    push_cast
    rw [mul_assoc, ← zpow_natCast, ← zpow_add₀ (by norm_num)]
    congr 2
    push_cast [hl]
    ring
  rw [hx, roundEven_int]
  rw [← hx]
  field_simp

/-- What conversion to `float` gives. -/
theorem toFloat_repr (n : Nat) : ∃ m s, m < 2 ^ 24 ∧ toFloat n = m * 2 ^ s := by
  by_cases hs : n < 2 ^ 24
  · exact ⟨n, 0, hs, by rw [toFloat_small hs]; simp⟩
  have hn0 : n ≠ 0 := by omega
  have hL : 24 ≤ n.log2 := (Nat.le_log2 hn0).2 (by omega)
  have hhi : n < 2 ^ (n.log2 + 1) := Nat.lt_log2_self
  have key : ∃ m, m ≤ 2 ^ 24 ∧ toFloat n = m * 2 ^ (n.log2 + 1 - 24) := by
    have hq : n / 2 ^ (n.log2 + 1 - 24) < 2 ^ 24 := by
      refine Nat.div_lt_of_lt_mul ?_
      rw [← pow_add]
      rwa [show n.log2 + 1 - 24 + 24 = n.log2 + 1 by omega]
    unfold toFloat
    dsimp only
    split
    · exact ⟨_, by omega, rfl⟩
    · split
      · exact ⟨_, by omega, rfl⟩
      · split
        · exact ⟨_, by omega, rfl⟩
        · exact ⟨_, by omega, rfl⟩
  obtain ⟨m, hm, e⟩ := key
  by_cases hm' : m < 2 ^ 24
  · exact ⟨m, _, hm', e⟩
  · have : m = 2 ^ 24 := by omega
    subst this
    exact ⟨2 ^ 23, n.log2 + 1 - 24 + 1, by omega, by rw [e]; ring⟩

theorem toFloat_pow (k : Nat) : toFloat (2 ^ k) = 2 ^ k := by
  by_cases hs : (2 : Nat) ^ k < 2 ^ 24
  · exact toFloat_small hs
  · obtain ⟨-, -, h⟩ := toFloat_large (n := 2 ^ k) (by omega)
    rw [Nat.log2_two_pow] at h
    exact h.2 (Nat.le_add_right _ _)

/-- The error of the conversion to `float`. -/
theorem toFloat_error (n : Nat) : toFloat n * 2 ^ 24 ≤ n * 2 ^ 24 + n ∧ n * 2 ^ 24 ≤ toFloat n * 2 ^ 24 + n := by
  by_cases hs : n < 2 ^ 24
  · rw [toFloat_small hs]; omega
  have hn0 : n ≠ 0 := by omega
  have hL : 24 ≤ n.log2 := (Nat.le_log2 hn0).2 (by omega)
  have hlo : 2 ^ n.log2 ≤ n := Nat.log2_self_le hn0
  unfold toFloat
  dsimp only
  generalize n.log2 = L at *
  obtain ⟨s, rfl⟩ : ∃ s, L = 23 + s := ⟨L - 23, by omega⟩
  have e1 : 23 + s + 1 - 24 = s := by omega
  rw [e1]
  rw [pow_add] at hlo
  have hT : 0 < 2 ^ s := Nat.pow_pos (by omega)
  have hr : n % 2 ^ s < 2 ^ s := Nat.mod_lt _ hT
  have hd : n = n / 2 ^ s * 2 ^ s + n % 2 ^ s := by
    rw [Nat.mul_comm]; exact (Nat.div_add_mod _ _).symm
  generalize n / 2 ^ s = q at *
  generalize n % 2 ^ s = r at *
  generalize 2 ^ s = T at *
  have a : (q + 1) * T = q * T + T := by ring
  split
  · omega
  · split
    · rw [a]; omega
    · split
      · omega
      · rw [a]; omega

theorem toFloat_mono {a b : Nat} (h : a ≤ b) : toFloat a ≤ toFloat b := by
  by_cases hb : b < 2 ^ 24
  · rw [toFloat_small hb, toFloat_small (by omega)]; exact h
  obtain ⟨b1, b2, -⟩ := toFloat_large (n := b) (by omega)
  by_cases ha : a < 2 ^ 24
  · rw [toFloat_small ha]
    have : 2 ^ 24 ≤ 2 ^ b.log2 := Nat.pow_le_pow_right (by omega) ((Nat.le_log2 (by omega)).2 (by omega))
    omega
  obtain ⟨a1, a2, -⟩ := toFloat_large (n := a) (by omega)
  have hl : a.log2 ≤ b.log2 := (Nat.le_log2 (by omega)).2 (Nat.le_trans (Nat.log2_self_le (by omega)) h)
  by_cases hlt : a.log2 < b.log2
  · have : 2 ^ (a.log2 + 1) ≤ 2 ^ b.log2 := Nat.pow_le_pow_right (by omega) hlt
    omega
  have hE : a.log2 = b.log2 := by omega
  unfold toFloat
  dsimp only
  rw [hE]
  generalize b.log2 + 1 - 24 = s
  have hT : 0 < 2 ^ s := Nat.pow_pos (by omega)
  have hra : a % 2 ^ s < 2 ^ s := Nat.mod_lt _ hT
  have hrb : b % 2 ^ s < 2 ^ s := Nat.mod_lt _ hT
  have hda : a = a / 2 ^ s * 2 ^ s + a % 2 ^ s := by
    rw [Nat.mul_comm]; exact (Nat.div_add_mod _ _).symm
  have hdb : b = b / 2 ^ s * 2 ^ s + b % 2 ^ s := by
    rw [Nat.mul_comm]; exact (Nat.div_add_mod _ _).symm
  have hq : a / 2 ^ s ≤ b / 2 ^ s := Nat.div_le_div_right h
  generalize a / 2 ^ s = qa at *
  generalize b / 2 ^ s = qb at *
  generalize a % 2 ^ s = ra at *
  generalize b % 2 ^ s = rb at *
  generalize 2 ^ s = T at *
  have ea : (qa + 1) * T = qa * T + T := by ring
  have eb : (qb + 1) * T = qb * T + T := by ring
  by_cases hqq : qa = qb
  · subst hqq
    split_ifs <;> omega
  · have : (qa + 1) * T ≤ qb * T := Nat.mul_le_mul_right _ (by omega)
    split_ifs <;> omega

section
variable {K V : Type} {P : Params K V} {ec : Nat} {t t' : Tab V} {capacity : Nat}

/-- Facts about a container made by `createDeviceObject`. -/
theorem lf_facts (hl : KeyLaws P) (h0 : 0 < capacity) (h1 : capacity ≤ 2 ^ 62)
    (hr : PReachable P (bucketCount capacity) ec t) :
    (∃ k, t.bc = 2 ^ k) ∧ t.bc = bucketCount capacity ∧ t.total = bucketCount capacity + ec ∧
      Unordered.size t = (contents t).length ∧
      loadFactor t = (toFloat (contents t).length : ℚ) / t.bc := by
  obtain ⟨k, hk, e, -⟩ := C37_bucket_count_partial capacity h0 h1
  have hpos : 0 < bucketCount capacity := by rw [e]; exact Nat.pow_pos (by omega)
  have hlt : bucketCount capacity < 2 ^ 63 := by rw [e]; exact Nat.pow_lt_pow_right (by omega) (by omega)
  obtain ⟨⟨chain, free, h⟩, hb, ht⟩ := preachable_rep hl hpos hlt hr
  have hs : Unordered.size t = (contents t).length := by
    unfold Unordered.size
    rw [h.count, ← length_contents h]
  have hbk : t.bc = 2 ^ k := hb.trans e
  refine ⟨⟨k, hbk⟩, hb, ht, hs, ?_⟩
  unfold loadFactor
  rw [hs, Int.toNat_natCast, hbk, toFloat_pow]
  obtain ⟨m, s, hm, em⟩ := toFloat_repr (contents t).length
  have : ((toFloat (contents t).length : ℕ) : ℚ) / ((2 ^ k : ℕ) : ℚ) = (m : ℚ) * 2 ^ ((s : ℤ) - k) := by
    rw [em, zpow_sub₀ (by norm_num), zpow_natCast, zpow_natCast]
    push_cast
    ring
  rw [this, roundFloat_exact m _ hm]

/-- C85. Up to 2^24 - 1 elements `load_factor()` is exactly the number of elements divided by the number of buckets. -/
theorem C85_exact (hl : KeyLaws P) (h0 : 0 < capacity) (h1 : capacity ≤ 2 ^ 62)
    (hr : PReachable P (bucketCount capacity) ec t) (hs : (contents t).length < 2 ^ 24) :
    loadFactor t = ((contents t).length : ℚ) / (bucketCount capacity : ℚ) := by
  obtain ⟨-, hb, -, -, e⟩ := lf_facts hl h0 h1 hr
  rw [e, toFloat_small hs, hb]

/-- C85. For more elements its relative error is at most 2^-24. -/
theorem C85_error (hl : KeyLaws P) (h0 : 0 < capacity) (h1 : capacity ≤ 2 ^ 62)
    (hr : PReachable P (bucketCount capacity) ec t) :
    |loadFactor t - ((contents t).length : ℚ) / (bucketCount capacity : ℚ)| ≤
      ((contents t).length : ℚ) / (bucketCount capacity : ℚ) / 2 ^ 24 := by
  obtain ⟨⟨k, hk⟩, hb, -, -, e⟩ := lf_facts hl h0 h1 hr
  have hbp : (0 : ℚ) < bucketCount capacity := by rw [← hb, hk]; positivity
  rw [e, hb, ← sub_div, abs_div, abs_of_pos hbp, div_right_comm]
  gcongr
  obtain ⟨e1, e2⟩ := toFloat_error (contents t).length
  generalize toFloat (contents t).length = a at *
  generalize (contents t).length = n at *
  have q1 : (a : ℚ) * 2 ^ 24 ≤ n * 2 ^ 24 + n := by exact_mod_cast e1
  have q2 : (n : ℚ) * 2 ^ 24 ≤ a * 2 ^ 24 + n := by exact_mod_cast e2
  rw [abs_le, le_div_iff₀ (by norm_num), ← neg_div, div_le_iff₀ (by norm_num)]
  constructor <;> linarith

/-- C85. It is zero exactly for an empty container. -/
theorem C85_zero_iff_empty (hl : KeyLaws P) (h0 : 0 < capacity) (h1 : capacity ≤ 2 ^ 62)
    (hr : PReachable P (bucketCount capacity) ec t) : loadFactor t = 0 ↔ contents t = [] := by
  obtain ⟨⟨k, hk⟩, hb, -, -, e⟩ := lf_facts hl h0 h1 hr
  have hbp : (t.bc : ℚ) ≠ 0 := by rw [hk]; positivity
  rw [e, div_eq_zero_iff, or_iff_left hbp, Nat.cast_eq_zero, ← List.length_eq_zero_iff]
  obtain ⟨e1, e2⟩ := toFloat_error (contents t).length
  constructor
  · intro h; rw [h] at e2; omega
  · intro h; rw [h] at e1 ⊢; omega

/-- C85. It does not fall when elements are added. -/
theorem C85_monotone {ec' : Nat} (hl : KeyLaws P) (h0 : 0 < capacity) (h1 : capacity ≤ 2 ^ 62)
    (hr : PReachable P (bucketCount capacity) ec t) (hr' : PReachable P (bucketCount capacity) ec' t')
    (h : (contents t).length ≤ (contents t').length) : loadFactor t ≤ loadFactor t' := by
  obtain ⟨⟨k, hk⟩, hb, -, -, e⟩ := lf_facts hl h0 h1 hr
  obtain ⟨-, hb', -, -, e'⟩ := lf_facts hl h0 h1 hr'
  rw [e, e', hb', ← hb]
  have := toFloat_mono h
  gcongr

/-- C85. It is at most `max_load_factor()` as long as there are no more elements than buckets, and, up to 2^24 - 1 elements,
only then. -/
theorem C85_max_load_factor (hl : KeyLaws P) (h0 : 0 < capacity) (h1 : capacity ≤ 2 ^ 62)
    (hr : PReachable P (bucketCount capacity) ec t) :
    ((contents t).length ≤ bucketCount capacity → loadFactor t ≤ maxLoadFactor) ∧
    ((contents t).length < 2 ^ 24 → (loadFactor t ≤ maxLoadFactor ↔ (contents t).length ≤ bucketCount capacity)) := by
  obtain ⟨⟨k, hk⟩, hb, -, -, e⟩ := lf_facts hl h0 h1 hr
  have hbp : (0 : ℚ) < t.bc := by rw [hk]; positivity
  unfold maxLoadFactor
  rw [e, div_le_one hbp, Nat.cast_le, ← hb]
  refine ⟨fun h => ?_, fun h => ?_⟩
  · have := toFloat_mono h
    rwa [hk, toFloat_pow, ← hk] at this
  · rw [toFloat_small h]

/-- C85, counterexample: a full container (here with fewer than 2^24 entries) is always above `max_load_factor()`. -/
theorem C85_counterexample_full (hl : KeyLaws P) (h0 : 0 < capacity) (h1 : capacity ≤ 2 ^ 62)
    (hr : PReachable P (bucketCount capacity) ec t) (he : 0 < ec) (hs : bucketCount capacity + ec < 2 ^ 24)
    (hf : full t = true) : maxLoadFactor < loadFactor t := by
  obtain ⟨-, hb, ht, hsz, -⟩ := lf_facts hl h0 h1 hr
  have hlen : (contents t).length = bucketCount capacity + ec := by
    have : Unordered.size t = t.total := by simpa [full] using hf
    rw [hsz, ht] at this
    exact_mod_cast this
  rw [← not_le, (C85_max_load_factor hl h0 h1 hr).2 (by omega)]
  omega

end

/-- Capacity 1 gives one bucket and one excess entry. With two elements the load factor is 2. -/
example : bucketCount 1 = 1 ∧ full (exTab exP 1 1 [.insert (1, 10), .insert (2, 20)]) = true ∧
    loadFactor (exTab exP 1 1 [.insert (1, 10), .insert (2, 20)]) = 2 := by
  have hb : bucketCount 1 = 1 := by decide +kernel
  have hc : contents (exTab exP 1 1 [.insert (1, 10), .insert (2, 20)]) = [(1, 10), (2, 20)] := by decide +kernel
  refine ⟨hb, by decide +kernel, ?_⟩
  have hr : PReachable exP (bucketCount 1) 1 (exTab exP 1 1 [.insert (1, 10), .insert (2, 20)]) := by
    rw [hb]; exact exTab_reachable _ _ _ _
  rw [C85_exact (capacity := 1) exP_laws (by omega) (by omega) hr (by rw [hc]; decide), hc, hb]
  norm_num

/-- Conversion of 2^24 + 1 elements to `float` rounds. -/
example : toFloat (2 ^ 24 + 1) = 2 ^ 24 ∧ toFloat (2 ^ 24 + 3) = 2 ^ 24 + 4 := by decide +kernel

/-- Rounding of the quotient is modelled: 1/3 is not a `float`. -/
example : roundFloat (1 / 3) = 11184811 / 2 ^ 25 := by
  have hl : Int.log 2 (1 / 3 : ℚ) = -2 := by
    apply le_antisymm
    · rw [← Int.lt_add_one_iff, ← Int.lt_zpow_iff_log_lt (by norm_num) (by norm_num)]; norm_num
    · rw [← Int.zpow_le_iff_le_log (by norm_num) (by norm_num)]; norm_num
  have hx : (1 / 3 : ℚ) / 2 ^ ((-2 : ℤ) - 23) = 33554432 / 3 := by norm_num
  have hfl : ⌊(33554432 / 3 : ℚ)⌋ = 11184810 := by rw [Int.floor_eq_iff]; norm_num
  unfold roundFloat
  rw [if_neg (by norm_num), hl]
  dsimp only
  rw [hx]
  unfold roundEven
  rw [hfl, if_neg (by norm_num), if_pos (by norm_num)]
  norm_num

end Stdgpu.Props
