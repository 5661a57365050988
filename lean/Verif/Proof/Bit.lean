import Verif.Model.Bit
import Mathlib.Tactic.Ring
/-! Helper lemmas for the bit functions. -/
namespace Stdgpu.Bit

theorem toNat_ne_zero {w : Nat} {c : BitVec w} (h : c ≠ 0) : c.toNat ≠ 0 :=
  fun e => h (BitVec.eq_of_toNat_eq (by simpa using e))

theorem width_pos {w : Nat} {c : BitVec w} (h : c ≠ 0) : 0 < w := by
  rcases Nat.eq_zero_or_pos w with h0 | h0
  · subst h0; have := c.isLt; have := toNat_ne_zero h; omega
  · exact h0

theorem toNat_one {w : Nat} (hw : 0 < w) : (1 : BitVec w).toNat = 1 := by
  show (1#w).toNat = 1
  simpa [BitVec.toNat_ofNat] using hw

theorem toNat_sub_one {w : Nat} {c : BitVec w} (h : c ≠ 0) : (c - 1).toNat = c.toNat - 1 := by
  have hw := width_pos h
  have hc := toNat_ne_zero h
  have hlt := c.isLt
  rw [BitVec.toNat_sub, toNat_one hw]
  have : 2 ^ w - 1 + c.toNat = 2 ^ w + (c.toNat - 1) := by omega
  rw [this, Nat.add_mod_left]
  exact Nat.mod_eq_of_lt (by omega)

/-- Every positive number is an odd number times a power of two. -/
theorem exists_two_pow_mul_odd (n : Nat) (h : n ≠ 0) : ∃ k m, n = 2 ^ k * (2 * m + 1) := by
  induction n using Nat.strongRecOn with
  | _ n ih =>
    rcases Nat.even_or_odd' n with ⟨c, hc | hc⟩
    · obtain ⟨k, m, hk⟩ := ih c (by omega) (by omega)
      refine ⟨k + 1, m, ?_⟩
      rw [hc, hk, Nat.pow_succ]; ring
    · exact ⟨0, c, by simpa using hc⟩

theorem testBit_and_sub_one (k m j : Nat) :
    ((2 ^ k * (2 * m + 1)) &&& (2 ^ k * (2 * m + 1) - 1)).testBit j
      = ((2 ^ k * (2 * m + 1)).testBit j && decide (j ≠ k)) := by
  have hpos : 0 < 2 ^ k := Nat.two_pow_pos k
  have e1 : 2 ^ k * (2 * m + 1) = 2 ^ k * (2 * m + 1) + 0 := rfl
  have e2 : 2 ^ k * (2 * m + 1) - 1 = 2 ^ k * (2 * m) + (2 ^ k - 1) := by
    rw [Nat.mul_add]; omega
  rw [Nat.testBit_and, e2]
  rw [Nat.testBit_two_pow_mul_add _ (by omega : 2 ^ k - 1 < 2 ^ k)]
  rw [e1, Nat.testBit_two_pow_mul_add _ hpos]
  by_cases hj : j < k
  · simp [hj]
  · simp only [hj, if_false]
    by_cases hk : j = k
    · subst hk; simp
    · have : ∃ d, j - k = d + 1 := ⟨j - k - 1, by omega⟩
      obtain ⟨d, hd⟩ := this
      rw [hd, Nat.testBit_succ, Nat.testBit_succ]
      have : (2 * m + 1) / 2 = m := by omega
      have h2 : 2 * m / 2 = m := by omega
      simp [this, h2, hk]

theorem testBit_lowest (k m : Nat) : (2 ^ k * (2 * m + 1)).testBit k = true := by
  have hpos : 0 < 2 ^ k := Nat.two_pow_pos k
  have e1 : 2 ^ k * (2 * m + 1) = 2 ^ k * (2 * m + 1) + 0 := rfl
  rw [e1, Nat.testBit_two_pow_mul_add _ hpos]
  simp

theorem hasSingleBit_iff' {w : Nat} (n : BitVec w) :
    hasSingleBit n = true ↔ ∃ k, k < w ∧ n.toNat = 2 ^ k := by
  unfold hasSingleBit
  constructor
  · intro h
    simp only [Bool.and_eq_true, bne_iff_ne, beq_iff_eq] at h
    obtain ⟨h0, h1⟩ := h
    obtain ⟨k, m, hk⟩ := exists_two_pow_mul_odd n.toNat (toNat_ne_zero h0)
    have h2 : n.toNat &&& (n.toNat - 1) = 0 := by
      have := congrArg BitVec.toNat h1
      rw [BitVec.toNat_and, toNat_sub_one h0] at this
      simpa using this
    have hm : m = 0 := by
      rcases Nat.eq_zero_or_pos m with hm | hm
      · exact hm
      · exfalso
        obtain ⟨b, hb⟩ := Nat.exists_testBit_of_ne_zero (x := m) (by omega)
        have h3 := testBit_and_sub_one k m (k + (b + 1))
        rw [← hk, h2] at h3
        have e1 : 2 ^ k * (2 * m + 1) = 2 ^ k * (2 * m + 1) + 0 := rfl
        rw [hk, e1, Nat.testBit_two_pow_mul_add _ (Nat.two_pow_pos k)] at h3
        have : (2 * m + 1) / 2 = m := by omega
        have hnk : ¬ (k + (b + 1) < k) := by omega
        have hd : k + (b + 1) - k = b + 1 := by omega
        rw [if_neg hnk, hd, Nat.testBit_succ, this, hb] at h3
        simp at h3
    subst hm
    have hk' : n.toNat = 2 ^ k := by simpa using hk
    refine ⟨k, ?_, hk'⟩
    have := n.isLt
    rw [hk'] at this
    exact (Nat.pow_lt_pow_iff_right (by omega)).1 this
  · rintro ⟨k, hkw, hk⟩
    have h0 : n ≠ 0 := by
      intro e
      have := Nat.two_pow_pos k
      rw [e] at hk
      simp at hk
      omega
    simp only [Bool.and_eq_true, bne_iff_ne, beq_iff_eq]
    refine ⟨h0, ?_⟩
    apply BitVec.eq_of_toNat_eq
    rw [BitVec.toNat_and, toNat_sub_one h0]
    apply Nat.eq_of_testBit_eq
    intro j
    have h3 := testBit_and_sub_one k 0 j
    simp only [Nat.mul_zero, Nat.zero_add, Nat.mul_one] at h3
    rw [hk, h3, Nat.testBit_two_pow]
    by_cases hj : j = k
    · subst hj; simp
    · have : ¬ (k = j) := fun e => hj e.symm
      simp [this]

/-- Reach of the smearing loop after `m` iterations. -/
theorem smear_getLsbD {w : Nat} (x : BitVec w) (m j : Nat) :
    (smear x m).getLsbD j = true ↔ ∃ d, d ≤ m * (m - 1) / 2 ∧ x.getLsbD (j + d) = true := by
  induction m generalizing j with
  | zero => simp [smear]
  | succ m ih =>
    simp only [smear, BitVec.getLsbD_or, BitVec.getLsbD_ushiftRight, Bool.or_eq_true]
    rw [ih, ih]
    have key : (m + 1) * (m + 1 - 1) / 2 = m * (m - 1) / 2 + m := by
      have e : (m + 1) * (m + 1 - 1) = m * (m - 1) + m * 2 := by
        cases m with
        | zero => rfl
        | succ q => simp only [Nat.add_sub_cancel]; ring
      rw [e, Nat.add_mul_div_right _ _ (by omega)]
    have hcov : m ≤ m * (m - 1) / 2 + 1 := by
      rcases m with _ | _ | q
      · omega
      · omega
      · have : (q + 2) * (q + 1) ≥ (q + 1) * 2 := by
          rw [Nat.mul_comm]; exact Nat.mul_le_mul_left _ (by omega)
        show q + 1 + 1 ≤ (q + 2) * (q + 1) / 2 + 1
        omega
    rw [key]
    generalize m * (m - 1) / 2 = S at *
    constructor
    · rintro (⟨d, hd, h⟩ | ⟨d, hd, h⟩)
      · exact ⟨d, by omega, h⟩
      · exact ⟨m + d, by omega, by rw [← h]; congr 1; omega⟩
    · rintro ⟨d, hd, h⟩
      by_cases hS : d ≤ S
      · exact Or.inl ⟨d, hS, h⟩
      · refine Or.inr ⟨d - m, by omega, ?_⟩
        rw [← h]; congr 1; omega

theorem smear_full_getLsbD {w : Nat} (x : BitVec w) (j : Nat) :
    (smear x w).getLsbD j = true ↔ ∃ i, j ≤ i ∧ x.getLsbD i = true := by
  rw [smear_getLsbD]
  constructor
  · rintro ⟨d, _, h⟩; exact ⟨j + d, by omega, h⟩
  · rintro ⟨i, hi, h⟩
    have hiw : i < w := BitVec.lt_of_getLsbD h
    refine ⟨i - j, ?_, by rw [← h]; congr 1; omega⟩
    have : w - 1 ≤ w * (w - 1) / 2 := by
      rcases w with _ | _ | q
      · omega
      · omega
      · have : (q + 2) * (q + 1) ≥ (q + 1) * 2 := by
          rw [Nat.mul_comm]; exact Nat.mul_le_mul_left _ (by omega)
        show q + 1 ≤ (q + 2) * (q + 1) / 2
        omega
    omega

theorem smear_zero {w : Nat} : (smear (0 : BitVec w) w) = 0 := by
  apply BitVec.eq_of_getLsbD_eq
  intro i _
  have : ¬ (smear (0 : BitVec w) w).getLsbD i = true := by
    rw [smear_full_getLsbD]; rintro ⟨i, _, h⟩; simp at h
  simpa using this

/-- Smearing yields `2^(log2 x + 1) - 1`. -/
theorem smear_toNat {w : Nat} (x : BitVec w) (h : x ≠ 0) :
    (smear x w).toNat = 2 ^ (x.toNat.log2 + 1) - 1 := by
  apply Nat.eq_of_testBit_eq
  intro j
  have hx := toNat_ne_zero h
  rw [Nat.testBit_two_pow_sub_one]
  apply Bool.eq_iff_iff.2
  rw [decide_eq_true_iff]
  rw [BitVec.testBit_toNat, smear_full_getLsbD]
  constructor
  · rintro ⟨i, hi, hb⟩
    rw [← BitVec.testBit_toNat] at hb
    have h1 := Nat.ge_two_pow_of_testBit hb
    have h2 : x.toNat < 2 ^ (x.toNat.log2 + 1) := Nat.lt_log2_self
    have h3 : i < x.toNat.log2 + 1 := by
      by_contra hc
      have : 2 ^ (x.toNat.log2 + 1) ≤ 2 ^ i := Nat.pow_le_pow_right (by omega) (by omega)
      omega
    omega
  · intro hj
    refine ⟨x.toNat.log2, by omega, ?_⟩
    rw [← BitVec.testBit_toNat]
    exact Nat.testBit_log2 hx

theorem log2_lt_width {w : Nat} (x : BitVec w) (h : x ≠ 0) : x.toNat.log2 < w :=
  (Nat.log2_lt (toNat_ne_zero h)).2 x.isLt

theorem bitFloor_toNat {w : Nat} (n : BitVec w) (h : n ≠ 0) :
    (bitFloor n).toNat = 2 ^ n.toNat.log2 := by
  unfold bitFloor
  simp only [h, if_false]
  apply Nat.eq_of_testBit_eq
  intro j
  rw [BitVec.testBit_toNat, BitVec.getLsbD_and, BitVec.getLsbD_not, BitVec.getLsbD_ushiftRight]
  rw [← BitVec.testBit_toNat, ← BitVec.testBit_toNat, smear_toNat n h]
  rw [Nat.testBit_two_pow_sub_one, Nat.testBit_two_pow_sub_one, Nat.testBit_two_pow]
  have := log2_lt_width n h
  by_cases h1 : n.toNat.log2 = j
  · subst h1; simp; omega
  · by_cases h2 : j < n.toNat.log2
    · simp [h1]; omega
    · simp [h1]; omega

theorem bitCeil_toNat {w : Nat} (n : BitVec w) (hn : 2 ≤ n.toNat) :
    (bitCeil n).toNat = 2 ^ ((n.toNat - 1).log2 + 1) % 2 ^ w := by
  have h0 : n ≠ 0 := by intro e; subst e; simp at hn
  unfold bitCeil
  simp only [h0, if_false]
  have hw := width_pos h0
  have e0 : n + 0 = n := by simp
  rw [e0]
  have hs := toNat_sub_one h0
  have h1 : n - 1 ≠ 0 := by
    intro e
    have := congrArg BitVec.toNat e
    rw [hs] at this; simp at this; omega
  rw [BitVec.toNat_add, smear_toNat _ h1, toNat_one hw, hs]
  congr 1
  have := Nat.two_pow_pos ((n.toNat - 1).log2 + 1)
  omega

theorem bitCeil_small {w : Nat} (hw : 0 < w) (n : BitVec w) (hn : n.toNat < 2) :
    (bitCeil n).toNat = 1 := by
  unfold bitCeil
  have h1 : n = 0 ∨ n = 1 := by
    have : n.toNat = 0 ∨ n.toNat = 1 := by omega
    rcases this with h | h
    · left; exact BitVec.eq_of_toNat_eq (by simpa using h)
    · right; exact BitVec.eq_of_toNat_eq (by rw [toNat_one hw, h])
  have h10 : (1 : BitVec w) ≠ 0 := by
    intro e; have := congrArg BitVec.toNat e; rw [toNat_one hw] at this; simp at this
  rcases h1 with h | h
  · subst h
    simp only [if_true]
    have : (0 : BitVec w) + 1 - 1 = 0 := by simp
    rw [this, smear_zero]
    have : (0 : BitVec w) + 1 = 1 := by simp
    rw [this, toNat_one hw]
  · subst h
    simp only [h10, if_false]
    have : (1 : BitVec w) + 0 - 1 = 0 := by simp
    rw [this, smear_zero]
    have : (0 : BitVec w) + 1 = 1 := by simp
    rw [this, toNat_one hw]

theorem bitWidthLoop_toNat {w : Nat} (s r : BitVec w) (h : s ≠ 0)
    (hr : r.toNat + s.toNat.log2 < 2 ^ w) : (bitWidthLoop s r).toNat = r.toNat + s.toNat.log2 := by
  induction s, r using bitWidthLoop.induct with
  | case1 s r hs =>
    rw [bitWidthLoop]; simp only [hs, if_true]
    have h1 : (s >>> 1).toNat = s.toNat / 2 := by simp [Nat.shiftRight_eq_div_pow]
    have h2 : s.toNat / 2 = 0 := by rw [← h1, hs]; simp
    have h3 : s.toNat = 1 := by have := toNat_ne_zero h; omega
    rw [h3]; rfl
  | case2 s r hs ih =>
    rw [bitWidthLoop]; simp only [hs, if_false]
    have h1 : (s >>> 1).toNat = s.toNat / 2 := by simp [Nat.shiftRight_eq_div_pow]
    have h2 : s.toNat / 2 ≠ 0 := by rw [← h1]; exact toNat_ne_zero hs
    have h3 : s.toNat.log2 = (s.toNat / 2).log2 + 1 := by
      rw [Nat.log2_def]; simp [show 2 ≤ s.toNat by omega]
    have hw := width_pos h
    have h4 : (r + 1).toNat = r.toNat + 1 := by
      rw [BitVec.toNat_add, toNat_one hw]; exact Nat.mod_eq_of_lt (by omega)
    rw [ih hs (by rw [h4, h1]; omega), h4, h1, h3]; omega

theorem bitWidth_toNat {w : Nat} (n : BitVec w) (h : n ≠ 0) :
    (bitWidth n).toNat = n.toNat.log2 + 1 := by
  unfold bitWidth
  simp only [h, if_false]
  have hw := width_pos h
  have h1 := log2_lt_width n h
  have h2 : w < 2 ^ w := Nat.lt_two_pow_self
  rw [bitWidthLoop_toNat n 1 h (by rw [toNat_one hw]; omega), toNat_one hw]; omega

/-- Number of set bits, the specification of popcount. -/
theorem countP_range_erase (w k : Nat) (f g : Nat → Bool) (hk : k < w) (hf : f k = true)
    (hg : ∀ i, g i = (f i && decide (i ≠ k))) :
    (List.range w).countP f = (List.range w).countP g + 1 := by
  induction w with
  | zero => omega
  | succ w ih =>
    rw [List.range_succ, List.countP_append, List.countP_append]
    by_cases hw : k = w
    · subst hw
      have hsame : (List.range k).countP f = (List.range k).countP g := by
        apply List.countP_congr
        intro x hx
        rw [List.mem_range] at hx
        rw [hg]; simp; omega
      rw [hsame]
      simp [hf, hg k]
    · rw [ih (by omega)]
      have : [w].countP f = [w].countP g := by
        apply List.countP_congr
        intro x hx
        rw [hg]
        simp at hx; subst hx; simp; omega
      omega

theorem popcountLoop_eq {w : Nat} (c : BitVec w) (r : Nat) :
    popcountLoop c r = r + (List.range w).countP (fun i => c.getLsbD i) := by
  induction c, r using popcountLoop.induct with
  | case1 r => rw [popcountLoop]; simp
  | case2 c r h ih =>
    rw [popcountLoop]; simp only [h, dite_false]
    rw [ih]
    obtain ⟨k, m, hk⟩ := exists_two_pow_mul_odd c.toNat (toNat_ne_zero h)
    have hb : c.getLsbD k = true := by
      rw [← BitVec.testBit_toNat, hk]; exact testBit_lowest k m
    rw [countP_range_erase w k (fun i => c.getLsbD i) (fun i => (c &&& (c - 1)).getLsbD i)
      (BitVec.lt_of_getLsbD hb) hb]
    · omega
    · intro i
      rw [← BitVec.testBit_toNat, BitVec.toNat_and, toNat_sub_one h, hk, testBit_and_sub_one,
        ← hk, BitVec.testBit_toNat]

end Stdgpu.Bit
