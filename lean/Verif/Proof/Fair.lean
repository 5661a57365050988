import Verif.Spec.Fair
import Verif.Spec.SlotConc
import Verif.Proof.SlotQuiet
/-! Lemmas about fair infinite schedules. -/
namespace Stdgpu.Spec
open Stdgpu.Conc

theorem upTo_zero (σ : Nat → Nat) : upTo σ 0 = [] := rfl

theorem upTo_succ (σ : Nat → Nat) (n : Nat) : upTo σ (n + 1) = upTo σ n ++ [σ n] := by
  simp [upTo, List.range_succ]

theorem upTo_add (σ : Nat → Nat) (n k : Nat) : upTo σ (n + k) = upTo σ n ++ upTo (fun j => σ (n + j)) k := by
  induction k with
  | zero => simp [upTo]
  | succ k ih => rw [← Nat.add_assoc, upTo_succ, ih, upTo_succ, List.append_assoc]

theorem count_mono (σ : Nat → Nat) (i : Nat) {n m : Nat} (h : n ≤ m) : (upTo σ n).count i ≤ (upTo σ m).count i := by
  obtain ⟨k, rfl⟩ := Nat.exists_eq_add_of_le h
  rw [upTo_add, List.count_append]; omega

theorem Fair.count {k : Nat} {σ : Nat → Nat} (h : Fair k σ) {i : Nat} (hi : i < k) (c : Nat) :
    ∃ n, c ≤ (upTo σ n).count i := by
  induction c with
  | zero => exact ⟨0, by omega⟩
  | succ c ih =>
    obtain ⟨n, hn⟩ := ih
    obtain ⟨m, hm, e⟩ := h i hi n
    refine ⟨m + 1, ?_⟩
    have := count_mono σ i hm
    rw [upTo_succ, List.count_append, e]
    simp; omega

/-- A moment after which every thread has been given `c` steps. -/
theorem Fair.all {k : Nat} {σ : Nat → Nat} (h : Fair k σ) (c : Nat) : ∃ n, ∀ i, i < k → c ≤ (upTo σ n).count i := by
  induction k with
  | zero => exact ⟨0, fun i hi => by omega⟩
  | succ k ih =>
    obtain ⟨n, hn⟩ := ih (fun i hi => h i (by omega))
    obtain ⟨m, hm⟩ := h.count (Nat.lt_succ_self k) c
    refine ⟨max n m, fun i hi => ?_⟩
    rcases Nat.lt_succ_iff_lt_or_eq.1 hi with h1 | rfl
    · exact (hn i h1).trans (count_mono σ i (Nat.le_max_left _ _))
    · exact hm.trans (count_mono σ i (Nat.le_max_right _ _))

theorem Fair.shift {k : Nat} {σ : Nat → Nat} (h : Fair k σ) (n : Nat) : Fair k (fun j => σ (n + j)) := by
  intro i hi m
  obtain ⟨j, hj, e⟩ := h i hi (n + m)
  exact ⟨j - n, by omega, by show σ (n + (j - n)) = i; rw [← e]; congr 1; omega⟩

theorem finished_of_counts {C K F α : Type} {programs : List (List (SlotConc.Op K α))} {c : Nat} (hc : 0 < c)
    {ex : List Nat → Sys (SlotConc.Mem C α) (SlotConc.Thread K F α)} {σ : Nat → Nat}
    (hprog : ∀ (sched : List Nat) (i : Nat) (t : SlotConc.Thread K F α), (ex sched).threads[i]? = some t → programs[i]? = some (t.done.map (·.1) ++ t.todo))
    (hw : ∀ (sched : List Nat) (i : Nat) (p : List (SlotConc.Op K α)), programs[i]? = some p →
      ∃ t, (ex sched).threads[i]? = some t ∧ min p.length (sched.count i / c) ≤ t.done.length)
    (hf : Fair programs.length σ) : ∃ n, Finished (ex (upTo σ n)) := by
  obtain ⟨n, hn⟩ := hf.all (c * (programs.map List.length).sum)
  refine ⟨n, fun t ht => ?_⟩
  obtain ⟨i, hi⟩ := List.mem_iff_getElem?.1 ht
  have hp := hprog _ i t hi
  obtain ⟨t', ht', h2⟩ := hw (upTo σ n) i _ hp
  rw [hi] at ht'; cases ht'
  have hlt := (List.getElem?_eq_some_iff.1 hp).1
  have h3 := hn i hlt
  have h4 := le_sum_map List.length programs _ (List.mem_of_getElem? hp)
  have h5 : (programs.map List.length).sum ≤ (upTo σ n).count i / c := by
    rw [Nat.le_div_iff_mul_le hc, Nat.mul_comm]; exact h3
  have h6 : (t.done.map (·.1) ++ t.todo).length ≤ t.done.length := by
    have : (t.done.map (·.1) ++ t.todo).length ≤ (upTo σ n).count i / c := h4.trans h5
    rw [Nat.min_eq_left this] at h2
    exact h2
  simpa using h6

end Stdgpu.Spec
