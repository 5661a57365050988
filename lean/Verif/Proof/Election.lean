import Verif.Model.Execution
/-! The bit operations of the election. -/
namespace Stdgpu.Execution

theorem activemask_bit (p : Nat → Bool) (n i : Nat) (hi : i < 64) : (activemask p n).getLsbD i = (decide (i < n) && p i) := by
  induction n with
  | zero => simp [activemask]
  | succ n ih =>
    simp only [activemask, BitVec.getLsbD_or, ih]
    by_cases h : i = n
    · subst h
      cases hp : p i <;> simp [hi]
    · have h1 : (if p n = true then (1#64) <<< n else 0#64).getLsbD i = false := by
        split
        · simp; omega
        · simp
      rw [h1, Bool.or_false]
      congr 1
      apply decide_eq_decide.2
      omega

theorem ffsll_eq_zero {x : BitVec 64} : ffsll x = 0 ↔ x = 0#64 := by
  unfold ffsll
  split
  · rename_i i h
    have h1 : x.getLsbD i = true := by simpa using List.find?_some h
    constructor
    · intro h; omega
    · rintro rfl; simp at h1
  · rename_i h
    simp only [true_iff]
    apply BitVec.eq_of_getLsbD_eq
    intro i hi
    rw [List.find?_eq_none] at h
    simpa using h i (List.mem_range.2 hi)

/-- The elected lane: the lowest bit of the mask. -/
theorem elected_spec {x : BitVec 64} (hx : x ≠ 0#64) :
    elected x < 64 ∧ x.getLsbD (elected x) = true ∧ ∀ i, i < elected x → x.getLsbD i = false := by
  unfold elected ffsll
  split
  · rename_i i h
    have h1 : x.getLsbD i = true := by simpa using List.find?_some h
    rw [Nat.add_sub_cancel]
    refine ⟨List.mem_range.1 (List.mem_of_find?_eq_some h), h1, ?_⟩
    intro j hj
    have := List.find?_range_eq_some.1 h
    have h3 := this.2.2 j hj
    simpa using h3
  · rename_i h
    refine absurd (ffsll_eq_zero.1 ?_) hx
    unfold ffsll
    rw [h]

theorem clear_bit (x : BitVec 64) (i : Nat) (he : elected x < 64) :
    (clearElected x).getLsbD i = (x.getLsbD i && !decide (i = elected x)) := by
  unfold clearElected
  simp only [BitVec.getLsbD_and, BitVec.getLsbD_not]
  by_cases hi : i < 64
  · by_cases h : i = elected x
    · subst h; simp [hi]
    · have : ((1#64) <<< elected x).getLsbD i = false := by simp; omega
      rw [this]; simp [h, hi]
  · simp [BitVec.getLsbD_of_ge x i (by omega)]

/-- The set bits, in increasing order. -/
def bits (x : BitVec 64) : List Nat := (List.range 64).filter (fun i => x.getLsbD i)

theorem mem_bits {x : BitVec 64} {i : Nat} : i ∈ bits x ↔ x.getLsbD i = true := by
  unfold bits
  rw [List.mem_filter, List.mem_range]
  constructor
  · exact fun h => h.2
  · intro h
    refine ⟨?_, h⟩
    by_cases hi : i < 64
    · exact hi
    · rw [BitVec.getLsbD_of_ge x i (by omega)] at h; cases h

theorem filter_lowest (n e : Nat) (p : Nat → Bool) (he : e < n) (hp : p e = true) (hlow : ∀ i, i < e → p i = false) :
    (List.range n).filter p = e :: (List.range n).filter (fun i => p i && !decide (i = e)) := by
  have h1 : List.range n = List.range e ++ e :: List.range' (e + 1) (n - e - 1) := by
    rw [List.range_eq_range', List.range_eq_range']
    have h : List.range' 0 e ++ List.range' (0 + e) ((n - e - 1) + 1) = List.range' 0 (e + ((n - e - 1) + 1)) :=
      List.range'_append_1
    rw [show e + ((n - e - 1) + 1) = n by omega, Nat.zero_add, List.range'_succ] at h
    exact h.symm
  have h2 : (List.range e).filter p = [] := by
    rw [List.filter_eq_nil_iff]; intro i hi; rw [hlow i (List.mem_range.1 hi)]; simp
  have h3 : (List.range e).filter (fun i => p i && !decide (i = e)) = [] := by
    rw [List.filter_eq_nil_iff]; intro i hi; rw [hlow i (List.mem_range.1 hi)]; simp
  rw [h1, List.filter_append, List.filter_append, h2, h3, List.filter_cons_of_pos hp, List.filter_cons_of_neg (by simp)]
  simp only [List.nil_append]
  congr 1
  apply List.filter_congr
  intro i hi
  have := (List.mem_range'_1.1 hi).1
  have : i ≠ e := by omega
  simp [this]

theorem bits_cons {x : BitVec 64} (hx : x ≠ 0#64) : bits x = elected x :: bits (clearElected x) := by
  obtain ⟨h1, h2, h3⟩ := elected_spec hx
  unfold bits
  rw [filter_lowest 64 (elected x) (fun i => x.getLsbD i) h1 h2 h3]
  congr 1
  apply List.filter_congr
  intro i _
  exact (clear_bit x i h1).symm

/-- hip/execution.h:44-52: the lanes elected by the loop, in this order. -/
def electionOrder (active : BitVec 64) : List Nat :=
  if _h : active = 0#64 then [] else elected active :: electionOrder (clearElected active)
termination_by (bits active).length
decreasing_by rw [bits_cons _h]; simp

theorem electionOrder_eq (x : BitVec 64) : electionOrder x = bits x := by
  induction x using electionOrder.induct with
  | case1 => rw [electionOrder]; simp [bits]
  | case2 x h ih => rw [electionOrder, dif_neg h, ih, bits_cons h]

end Stdgpu.Execution
