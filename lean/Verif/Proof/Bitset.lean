import Verif.Spec.Bools
import Verif.Proof.Bit
import Mathlib.Algebra.BigOperators.Group.List.Basic
import Mathlib.Algebra.Order.Group.Nat
/-! Refinement of bitsets to lists of booleans. -/
namespace Stdgpu.Bitset
open Stdgpu.Bit

variable {w : Nat}

theorem getLsbD_one_shl (n m : Nat) :
    ((1 : BitVec w) <<< n).getLsbD m = (decide (n < w) && decide (n = m)) := by
  have : (1 : BitVec w) <<< n = BitVec.twoPow w n := rfl
  rw [this, BitVec.getLsbD_twoPow]

theorem bitOf_eq (blk : BitVec w) (n : Nat) : bitOf blk n = blk.getLsbD n := by
  unfold bitOf
  apply Bool.eq_iff_iff.2
  rw [bne_iff_ne]
  constructor
  · intro h
    by_contra hn
    apply h
    apply BitVec.eq_of_getLsbD_eq
    intro i _
    rw [BitVec.getLsbD_and, getLsbD_one_shl]
    by_cases hi : n = i
    · subst hi; simp at hn; simp [hn]
    · simp [hi]
  · intro h e
    have := congrArg (fun v : BitVec w => v.getLsbD n) e
    simp only [BitVec.getLsbD_and, getLsbD_one_shl] at this
    have hw : n < w := BitVec.lt_of_getLsbD h
    rw [h] at this
    simp [hw] at this

theorem refAssign_fst (blk : BitVec w) (n : Nat) (x : Bool) : (refAssign blk n x).1 = blk.getLsbD n := by
  cases x <;> simp [refAssign, bitOf_eq]

theorem refAssign_snd (blk : BitVec w) (n : Nat) (x : Bool) (m : Nat) (hn : n < w) :
    (refAssign blk n x).2.getLsbD m = if m = n then x else blk.getLsbD m := by
  cases x
  · simp only [refAssign]
    simp only [Bool.false_eq_true, if_false, BitVec.getLsbD_and, BitVec.getLsbD_not, getLsbD_one_shl]
    by_cases hm : m = n
    · subst hm; simp
    · have : ¬ n = m := fun e => hm e.symm
      by_cases hmw : m < w
      · simp [hm, this, hmw]
      · rw [BitVec.getLsbD_of_ge _ _ (by omega)]; simp [hm]
  · simp only [refAssign, if_true, BitVec.getLsbD_or, getLsbD_one_shl]
    by_cases hm : m = n
    · subst hm; simp [hn]
    · have : ¬ n = m := fun e => hm e.symm
      simp [hm, this]

theorem refFlip_fst (blk : BitVec w) (n : Nat) : (refFlip blk n).1 = blk.getLsbD n := by
  simp [refFlip, bitOf_eq]

theorem refFlip_snd (blk : BitVec w) (n m : Nat) (hn : n < w) :
    (refFlip blk n).2.getLsbD m = if m = n then !blk.getLsbD n else blk.getLsbD m := by
  simp only [refFlip, BitVec.getLsbD_xor, getLsbD_one_shl]
  by_cases hm : m = n
  · subst hm; simp [hn]
  · have : ¬ n = m := fun e => hm e.symm
    simp [hm, this]

/-- Block width supported by the code (a power of two below 2^64) and index range of `index_t`. -/
structure WF (b : Bitset w) : Prop where
  width : ∃ k, k < 64 ∧ w = 2 ^ k
  len : b.blocks.length = numberBitBlocks w b.size
  size : b.size < 2 ^ 64

theorem WF.wpos {b : Bitset w} (h : WF b) : 0 < w := by
  obtain ⟨k, _, rfl⟩ := h.width; exact Nat.two_pow_pos k

theorem divUp_spec (a w : Nat) (hw : 0 < w) (n : Nat) (hn : n < a) : n / w < divUp a w := by
  unfold divUp
  have h1 := Nat.div_add_mod a w
  have h2 := Nat.mod_lt a hw
  split
  · rename_i h
    rw [Nat.div_lt_iff_lt_mul hw]
    have : (a / w + 1) * w = w * (a / w) + w := by ring
    omega
  · rename_i h
    rw [Nat.div_lt_iff_lt_mul hw]
    have : (a / w) * w = w * (a / w) := by ring
    omega

theorem divUp_le (a w : Nat) (hw : 0 < w) : a ≤ divUp a w * w := by
  unfold divUp
  have h1 := Nat.div_add_mod a w
  have h2 := Nat.mod_lt a hw
  split
  · have : (a / w + 1) * w = w * (a / w) + w := by ring
    omega
  · have : (a / w) * w = w * (a / w) := by ring
    omega

theorem bitN_eq (k : Nat) (hk : k < 64) (n : Nat) (hn : n < 2 ^ 64) : bitN (2 ^ k) n = n % 2 ^ k := by
  unfold bitN
  have h2 : 2 ^ k < 2 ^ 64 := Nat.pow_lt_pow_right (by omega) hk
  have h3 : (BitVec.ofNat 64 (2 ^ k)).toNat = 2 ^ k := by
    rw [BitVec.toNat_ofNat]; exact Nat.mod_eq_of_lt h2
  have hd0 : BitVec.ofNat 64 (2 ^ k) ≠ 0 := by
    intro e
    have := congrArg BitVec.toNat e
    rw [h3] at this
    have hp := Nat.two_pow_pos k
    simp at this
  unfold bitMod
  rw [BitVec.toNat_and, toNat_sub_one hd0, h3, Nat.and_two_pow_sub_one_eq_mod, BitVec.toNat_ofNat,
    Nat.mod_eq_of_lt hn]

theorem WF.bitN {b : Bitset w} (h : WF b) (n : Nat) (hn : n < b.size) : bitN w n = n % w := by
  obtain ⟨k, hk, rfl⟩ := h.width
  exact bitN_eq k hk n (by have := h.size; omega)

/-- The bit stored for index `n`. -/
def bitAt (b : Bitset w) (n : Nat) : Bool := ((b.blocks[n / w]?).getD 0).getLsbD (n % w)

/-- Abstraction. -/
def abs (b : Bitset w) : List Bool := (List.range b.size).map (bitAt b)

theorem abs_getElem? (b : Bitset w) (n : Nat) :
    (abs b)[n]? = if n < b.size then some (bitAt b n) else none := by
  unfold abs
  rw [List.getElem?_map]
  by_cases h : n < b.size
  · simp [h]
  · simp [h]

theorem abs_length (b : Bitset w) : (abs b).length = b.size := by simp [abs]

theorem WF.block {b : Bitset w} (h : WF b) (n : Nat) (hn : n < b.size) :
    ∃ blk, b.blocks[blockN w n]? = some blk ∧ blk.getLsbD (n % w) = bitAt b n := by
  have hl : blockN w n < b.blocks.length := by
    rw [h.len]; exact divUp_spec _ _ h.wpos _ hn
  refine ⟨b.blocks[blockN w n], List.getElem?_eq_getElem hl, ?_⟩
  unfold bitAt
  have : n / w = blockN w n := rfl
  rw [this, List.getElem?_eq_getElem hl]; rfl

/-- Replacing one block so that exactly one bit changes. -/
theorem bitAt_set_block {b : Bitset w} (h : WF b) (n : Nat) (hn : n < b.size) (blk : BitVec w) (x : Bool)
    (hblk : ∀ old, b.blocks[blockN w n]? = some old →
      ∀ m, blk.getLsbD m = if m = n % w then x else old.getLsbD m) (m : Nat) :
    bitAt { b with blocks := b.blocks.set (blockN w n) blk } m = if m = n then x else bitAt b m := by
  have hw := h.wpos
  obtain ⟨old, ho, -⟩ := h.block n hn
  have hl : blockN w n < b.blocks.length := (List.getElem?_eq_some_iff.1 ho).1
  unfold bitAt
  simp only
  by_cases hm : m / w = n / w
  · have e : b.blocks.set (blockN w n) blk = b.blocks.set (m / w) blk := by rw [hm]; rfl
    have hl' : m / w < b.blocks.length := by rw [hm]; exact hl
    rw [e, List.getElem?_set_self hl']
    simp only [Option.getD_some]
    rw [hblk old ho]
    have hmn : m % w = n % w ↔ m = n := by
      constructor
      · intro h1
        rw [← Nat.div_add_mod m w, ← Nat.div_add_mod n w, hm, h1]
      · intro h1; rw [h1]
    have ho' : b.blocks[m / w]? = some old := by rw [hm]; exact ho
    rw [ho']
    by_cases hc : m = n
    · simp [hc]
    · have hc' : ¬ (m % w = n % w) := fun e => hc (hmn.1 e)
      simp [hc, hc']
  · have hne : blockN w n ≠ m / w := fun e => hm e.symm
    rw [List.getElem?_set_ne hne]
    have : ¬ m = n := fun e => hm (by rw [e])
    simp [this]

theorem abs_ext (b : Bitset w) (l : List Bool) (hlen : l.length = b.size)
    (h : ∀ m, m < b.size → l[m]? = some (bitAt b m)) : abs b = l := by
  apply List.ext_getElem?
  intro i
  rw [abs_getElem?]
  split
  · rename_i hi; rw [h i hi]
  · rename_i hi; rw [List.getElem?_eq_none (by omega)]

theorem set_refines {b : Bitset w} (h : WF b) (n : Nat) (hn : n < b.size) (x : Bool) :
    ∃ b', set b n x = some (bitAt b n, b') ∧ b'.size = b.size ∧ WF b' ∧ abs b' = (abs b).set n x := by
  obtain ⟨blk, hb1, hb2⟩ := h.block n hn
  refine ⟨{ b with blocks := b.blocks.set (blockN w n) (refAssign blk (bitN w n) x).2 }, ?_, rfl, ?_, ?_⟩
  · simp only [set, hb1, refAssign_fst, h.bitN n hn, hb2]
  · exact ⟨h.width, by simpa using h.len, h.size⟩
  · apply abs_ext
    · simp [abs_length]
    · intro m hm
      rw [h.bitN n hn, bitAt_set_block h n hn _ x]
      · rw [List.getElem?_set, abs_length]
        by_cases hmn : n = m
        · subst hmn; simp [hn]
        · have : ¬ m = n := fun e => hmn e.symm
          have hm' : m < b.size := hm
          simp [hmn, this, abs_getElem?, hm']
      · intro old ho m'
        rw [hb1] at ho; cases ho
        exact refAssign_snd blk (n % w) x m' (Nat.mod_lt _ h.wpos)

theorem flip_refines {b : Bitset w} (h : WF b) (n : Nat) (hn : n < b.size) :
    ∃ b', flip b n = some (bitAt b n, b') ∧ b'.size = b.size ∧ WF b' ∧
      abs b' = (abs b).set n (!bitAt b n) := by
  obtain ⟨blk, hb1, hb2⟩ := h.block n hn
  refine ⟨{ b with blocks := b.blocks.set (blockN w n) (refFlip blk (bitN w n)).2 }, ?_, rfl, ?_, ?_⟩
  · simp only [flip, hb1, refFlip_fst, h.bitN n hn, hb2]
  · exact ⟨h.width, by simpa using h.len, h.size⟩
  · apply abs_ext
    · simp [abs_length]
    · intro m hm
      rw [h.bitN n hn, bitAt_set_block h n hn _ (!bitAt b n)]
      · rw [List.getElem?_set, abs_length]
        by_cases hmn : n = m
        · subst hmn; simp [hn]
        · have : ¬ m = n := fun e => hmn e.symm
          have hm' : m < b.size := hm
          simp [hmn, this, abs_getElem?, hm']
      · intro old ho m'
        rw [hb1] at ho; cases ho
        rw [refFlip_snd blk (n % w) m' (Nat.mod_lt _ h.wpos), hb2]

theorem test_refines {b : Bitset w} (h : WF b) (n : Nat) (hn : n < b.size) :
    test b n = some (bitAt b n) := by
  obtain ⟨blk, hb1, hb2⟩ := h.block n hn
  simp only [test, hb1, Option.map_some, bitOf_eq, h.bitN n hn, hb2]

theorem map_blocks_wf {b : Bitset w} (h : WF b) (f : BitVec w → BitVec w) :
    WF { b with blocks := b.blocks.map f } :=
  ⟨h.width, by simpa using h.len, h.size⟩

theorem bitAt_map {b : Bitset w} (h : WF b) (f : BitVec w → BitVec w) (n : Nat) (hn : n < b.size)
    (g : Bool → Bool) (hf : ∀ blk m, m < w → (f blk).getLsbD m = g (blk.getLsbD m)) :
    bitAt { b with blocks := b.blocks.map f } n = g (bitAt b n) := by
  obtain ⟨blk, hb1, hb2⟩ := h.block n hn
  have hb1' : b.blocks[n / w]? = some blk := hb1
  unfold bitAt
  simp only [List.getElem?_map, hb1', Option.map_some, Option.getD_some]
  exact hf blk _ (Nat.mod_lt _ h.wpos)

/-! ### count -/

theorem countP_range_mul (f : Nat → Bool) (a w : Nat) :
    (List.range (a * w)).countP f
      = ((List.range a).map (fun i => (List.range w).countP (fun j => f (i * w + j)))).sum := by
  induction a with
  | zero => simp
  | succ a ih =>
    rw [Nat.succ_mul, List.range_add, List.countP_append, ih, List.range_succ, List.map_append,
      List.sum_append]
    simp [List.countP_map, Function.comp_def]

theorem countP_range_le (f : Nat → Bool) (a b : Nat) (hab : a ≤ b) :
    (List.range b).countP (fun n => decide (n < a) && f n) = (List.range a).countP f := by
  obtain ⟨d, rfl⟩ := Nat.exists_eq_add_of_le hab
  rw [List.range_add, List.countP_append]
  have h1 : (List.range a).countP (fun n => decide (n < a) && f n) = (List.range a).countP f := by
    apply List.countP_congr
    intro x hx
    rw [List.mem_range] at hx
    simp [hx]
  have h2 : ((List.range d).map (a + ·)).countP (fun n => decide (n < a) && f n) = 0 := by
    rw [List.countP_eq_zero]
    intro x hx
    simp only [List.mem_map] at hx
    obtain ⟨y, _, rfl⟩ := hx
    simp
  rw [h1, h2]; rfl

theorem blockMask_getLsbD (hw : 0 < w) (size i j : Nat) (hj : j < w) :
    (blockMask w size i).getLsbD j = decide (i * w + j < size) := by
  unfold blockMask
  simp only
  split
  · rename_i h
    simp only [BitVec.getLsbD_not, BitVec.getLsbD_zero, hj]
    simp; omega
  · rename_i h
    have h1 : ((1 : BitVec w) <<< (size - i * w)) = BitVec.twoPow w (size - i * w) := rfl
    have hlt : size - i * w < w := by omega
    have hne : BitVec.twoPow w (size - i * w) ≠ 0 := by
      intro e
      have := congrArg (fun v : BitVec w => v.getLsbD (size - i * w)) e
      simp [hlt] at this
    rw [h1, ← BitVec.testBit_toNat, toNat_sub_one hne, BitVec.toNat_twoPow,
      Nat.mod_eq_of_lt (Nat.pow_lt_pow_right (by omega) hlt), Nat.testBit_two_pow_sub_one]
    apply Bool.eq_iff_iff.2
    simp; omega

theorem popcount_countP (n : BitVec w) : popcount n = (List.range w).countP (fun i => n.getLsbD i) := by
  unfold popcount; rw [popcountLoop_eq]; omega

theorem count_eq {b : Bitset w} (h : WF b) : count b = (abs b).count true := by
  have hw := h.wpos
  unfold count
  split
  · rename_i h0
    simp [abs, h0]
  · have h1 : (abs b).count true = (List.range b.size).countP (bitAt b) := by
      unfold abs List.count
      rw [List.countP_map]
      apply List.countP_congr
      intro x _
      simp
    rw [h1]
    have h2 := divUp_le b.size w hw
    rw [← countP_range_le (bitAt b) b.size (divUp b.size w * w) h2, countP_range_mul]
    congr 1
    apply List.map_congr_left
    intro i hi
    unfold countBlockBits
    rw [popcount_countP]
    apply List.countP_congr
    intro j hj
    rw [List.mem_range] at hj
    have e1 : (i * w + j) / w = i := by
      rw [Nat.mul_comm, Nat.mul_add_div hw, Nat.div_eq_of_lt hj]; rfl
    have e2 : (i * w + j) % w = j := by
      rw [Nat.mul_comm, Nat.mul_add_mod, Nat.mod_eq_of_lt hj]
    rw [BitVec.getLsbD_and, blockMask_getLsbD hw _ _ _ hj]
    unfold bitAt
    rw [e1, e2]

theorem create_wf (k size : Nat) (hk : k < 64) (hs : size < 2 ^ 64) : WF (create (2 ^ k) size) :=
  ⟨⟨k, hk, rfl⟩, by simp [create], hs⟩

theorem create_abs (w size : Nat) : abs (create w size) = List.replicate size false := by
  apply abs_ext
  · simp [create]
  · intro m hm
    have hm' : m < size := hm
    rw [List.getElem?_replicate]
    simp only [hm', if_true]
    unfold bitAt create
    simp only [List.getElem?_replicate]
    split <;> simp

/-- One operation refines its specification. -/
theorem exec_refines {b : Bitset w} (h : WF b) (op : Op) :
    match Spec.boolsExec (abs b) op with
    | some (o, l') => ∃ b', exec b op = some (o, b') ∧ WF b' ∧ b'.size = b.size ∧ abs b' = l'
    | none => True := by
  cases op with
  | set n x =>
    simp only [Spec.boolsExec, abs_getElem?]
    by_cases hn : n < b.size
    · obtain ⟨b', h1, h2, h3, h4⟩ := set_refines h n hn x
      simp only [hn, if_true, Option.map_some]
      exact ⟨b', by simp [exec, h1], h3, h2, h4⟩
    · simp [hn]
  | reset n =>
    simp only [Spec.boolsExec, abs_getElem?]
    by_cases hn : n < b.size
    · obtain ⟨b', h1, h2, h3, h4⟩ := set_refines h n hn false
      simp only [hn, if_true, Option.map_some]
      exact ⟨b', by simp [exec, reset, h1], h3, h2, h4⟩
    · simp [hn]
  | flip n =>
    simp only [Spec.boolsExec, abs_getElem?]
    by_cases hn : n < b.size
    · obtain ⟨b', h1, h2, h3, h4⟩ := flip_refines h n hn
      simp only [hn, if_true, Option.map_some]
      exact ⟨b', by simp [exec, h1], h3, h2, h4⟩
    · simp [hn]
  | test n =>
    simp only [Spec.boolsExec, abs_getElem?]
    by_cases hn : n < b.size
    · simp only [hn, if_true, Option.map_some]
      exact ⟨b, by simp [exec, test_refines h n hn], h, rfl, rfl⟩
    · simp [hn]
  | setAll =>
    refine ⟨setAll b, rfl, map_blocks_wf h _, rfl, ?_⟩
    apply abs_ext
    · simp [setAll, abs_length]
    · intro m hm
      have hm' : m < b.size := hm
      unfold setAll
      rw [bitAt_map h _ m hm' (fun _ => true) (by intro blk m hm; simp [hm])]
      simp [abs_length, hm']
  | resetAll =>
    refine ⟨resetAll b, rfl, map_blocks_wf h _, rfl, ?_⟩
    apply abs_ext
    · simp [resetAll, abs_length]
    · intro m hm
      have hm' : m < b.size := hm
      unfold resetAll
      rw [bitAt_map h _ m hm' (fun _ => false) (by intro blk m hm; simp)]
      simp [abs_length, hm']
  | flipAll =>
    refine ⟨flipAll b, rfl, map_blocks_wf h _, rfl, ?_⟩
    apply abs_ext
    · simp [flipAll, abs_length]
    · intro m hm
      have hm' : m < b.size := hm
      unfold flipAll
      rw [bitAt_map h _ m hm' (fun x => !x) (by intro blk m hm; simp [hm])]
      simp [abs_getElem?, hm']
  | count =>
    exact ⟨b, by simp [exec, count_eq h], h, rfl, rfl⟩

end Stdgpu.Bitset
