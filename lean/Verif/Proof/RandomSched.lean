import Verif.Spec.RandomSched
import Verif.Proof.Conc
import Mathlib.Algebra.BigOperators.Fin
import Mathlib.Algebra.Order.BigOperators.Group.Finset
import Mathlib.Algebra.Order.Archimedean.Basic
import Mathlib.Tactic.Ring
/-
If an execution can be finished from every reachable state within `B` steps, a random schedule finishes it almost surely.
-/
namespace Stdgpu.Conc
open Stdgpu.Spec

variable {σ τ : Type}

section
variable (f : σ → τ → σ × τ) (F : Sys σ τ → Prop)

open Classical in
/-- The number of schedules of length `L` that do not lead from `s` to a state in `F`. -/
noncomputable def bad (n : Nat) : Nat → Sys σ τ → Nat
  | 0, s => if F s then 0 else 1
  | L + 1, s => ∑ i : Fin n, bad n L (stepAt f s i.val)

variable {f F}

theorem bad_zero {n : Nat} (hF : ∀ s i, F s → F (stepAt f s i)) (L : Nat) : ∀ s, F s → bad f F n L s = 0 := by
  induction L with
  | zero => intro s h; simp [bad, h]
  | succ L ih => intro s h; simp only [bad]; exact Finset.sum_eq_zero (fun i _ => ih _ (hF s i h))

theorem bad_le (n L : Nat) : ∀ s, bad f F n L s ≤ n ^ L := by
  induction L with
  | zero => intro s; simp only [bad]; split <;> simp
  | succ L ih =>
    intro s
    simp only [bad]
    refine (Finset.sum_le_sum (fun i _ => ih _)).trans ?_
    simp [Nat.pow_succ, Nat.mul_comm]

/-- A schedule that finishes is not counted. -/
theorem bad_lt {n : Nat} (hn : 0 < n) (hF : ∀ s i, F s → F (stepAt f s i)) : ∀ (L : Nat) (sched : List Nat) (s : Sys σ τ),
    (∀ i ∈ sched, i < n) → sched.length ≤ L → F (run f s sched) → bad f F n L s + 1 ≤ n ^ L := by
  intro L
  induction L with
  | zero =>
    intro sched s _ hl h
    obtain rfl : sched = [] := List.length_eq_zero_iff.1 (by omega)
    have h : F s := h
    simp [bad, h]
  | succ L ih =>
    intro sched s hi hl h
    cases sched with
    | nil =>
      rw [bad_zero hF _ _ (show F s from h)]
      have := Nat.pow_pos (n := L + 1) hn
      omega
    | cons i rest =>
      have hin : i < n := hi i (by simp)
      rw [run_cons] at h
      have h1 := ih rest (stepAt f s i) (fun j hj => hi j (by simp [hj])) (by simp at hl; omega) h
      simp only [bad]
      rw [← Finset.add_sum_erase _ _ (Finset.mem_univ (⟨i, hin⟩ : Fin n))]
      have h2 : ∑ x ∈ Finset.univ.erase (⟨i, hin⟩ : Fin n), bad f F n L (stepAt f s x.val) ≤ (n - 1) * n ^ L := by
        refine (Finset.sum_le_sum (fun x _ => bad_le n L _)).trans ?_
        simp [Finset.card_erase_of_mem]
      have h3 : n ^ (L + 1) = n ^ L + (n - 1) * n ^ L := by
        obtain ⟨k, rfl⟩ : ∃ k, n = k + 1 := ⟨n - 1, by omega⟩
        simp [Nat.pow_succ]
        ring
      dsimp only at h2 ⊢
      omega

/-- Schedules in two parts. -/
theorem bad_add {n : Nat} (hF : ∀ s i, F s → F (stepAt f s i)) (J : Sys σ τ → Prop) (hJ : ∀ s i, J s → J (stepAt f s i))
    {L M : Nat} (hM : ∀ s, J s → bad f F n L s ≤ M) (A : Nat) : ∀ s, J s → bad f F n (A + L) s ≤ bad f F n A s * M := by
  induction A with
  | zero =>
    intro s hs
    simp only [bad, Nat.zero_add]
    split
    · rename_i h; simp [bad_zero hF L s h]
    · simpa using hM s hs
  | succ A ih =>
    intro s hs
    rw [show A + 1 + L = A + L + 1 by omega]
    simp only [bad]
    rw [Finset.sum_mul]
    exact Finset.sum_le_sum (fun i _ => ih _ (hJ s i hs))

theorem bad_succ {n : Nat} (hF : ∀ s i, F s → F (stepAt f s i)) (r L : Nat) (s : Sys σ τ) :
    bad f F n (L + r) s ≤ bad f F n L s * n ^ r :=
  bad_add hF (fun _ => True) (fun _ _ _ => trivial) (fun s _ => bad_le n r s) L s trivial

theorem bad_blocks {n B : Nat} (hF : ∀ s i, F s → F (stepAt f s i)) (J : Sys σ τ → Prop) (hJ : ∀ s i, J s → J (stepAt f s i))
    (hB : ∀ s, J s → bad f F n B s ≤ n ^ B - 1) (k : Nat) : ∀ s, J s → bad f F n (B * k) s ≤ (n ^ B - 1) ^ k := by
  induction k with
  | zero => intro s _; simpa using bad_le (f := f) (F := F) n 0 s
  | succ k ih =>
    intro s hs
    rw [show B * (k + 1) = B + B * k by ring]
    refine (bad_add hF J hJ ih B s hs).trans ?_
    rw [Nat.pow_succ, Nat.mul_comm]
    exact Nat.mul_le_mul_left _ (hB s hs)

theorem unfinished_eq (n L : Nat) : ∀ s, unfinishedCount (fun sched => F (run f s sched)) n L = bad f F n L s := by
  classical
  induction L with
  | zero =>
    intro s
    unfold unfinishedCount
    simp only [bad]
    split
    · rename_i h
      rw [Fintype.card_eq_zero_iff]
      exact ⟨fun c => c.2 (by simpa [choices, run_nil] using h)⟩
    · rename_i h
      rw [Fintype.card_eq_one_iff]
      refine ⟨⟨Fin.elim0, by simpa [choices, run_nil] using h⟩, fun c => Subtype.ext (funext (fun i => i.elim0))⟩
  | succ L ih =>
    intro s
    simp only [bad, ← ih]
    unfold unfinishedCount
    rw [← Fintype.card_sigma]
    refine Fintype.card_congr ⟨fun c => ⟨c.1 0, ⟨fun i => c.1 i.succ, ?_⟩⟩, fun c => ⟨Fin.cons c.1 c.2.1, ?_⟩, ?_, ?_⟩
    · have := c.2
      simpa [choices, List.ofFn_succ, run_cons] using this
    · have := c.2.2
      simpa [choices, List.ofFn_succ, run_cons] using this
    · intro c
      apply Subtype.ext
      funext i
      refine Fin.cases ?_ (fun i => ?_) i <;> simp
    · rintro ⟨i, c⟩
      rfl

/-- Choices of threads that do not exist have no effect. -/
theorem run_filter (n : Nat) (sched : List Nat) : ∀ s : Sys σ τ, s.threads.length = n →
    run f s (sched.filter (· < n)) = run f s sched := by
  induction sched with
  | nil => intro s _; rfl
  | cons i rest ih =>
    intro s hs
    have hl : (stepAt f s i).threads.length = n := by
      have := length_run f s [i]
      rw [run_cons, run_nil] at this
      omega
    by_cases hi : i < n
    · rw [List.filter_cons_of_pos (by simpa using hi), run_cons, run_cons, ih _ hl]
    · rw [List.filter_cons_of_neg (by simpa using hi), run_cons]
      have : stepAt f s i = s := by simp [stepAt, List.getElem?_eq_none (show s.threads.length ≤ i by omega)]
      rw [this, ih _ hs]

/-- If every reachable state can be finished within `B` steps: the number of unfinished schedules. -/
theorem unfinished_le {n B : Nat} (hn : 0 < n) (hF : ∀ s i, F s → F (stepAt f s i)) (J : Sys σ τ → Prop)
    (hJ : ∀ s i, J s → J (stepAt f s i)) (hlen : ∀ s, J s → s.threads.length = n)
    (hB : ∀ s, J s → ∃ sched : List Nat, sched.length ≤ B ∧ F (run f s sched)) (s : Sys σ τ) (hs : J s) (k : Nat) :
    unfinishedCount (fun sched => F (run f s sched)) n (B * k) ≤ (n ^ B - 1) ^ k := by
  rw [unfinished_eq]
  refine bad_blocks hF J hJ (fun s hs => ?_) k s hs
  obtain ⟨sched, h1, h2⟩ := hB s hs
  have := bad_lt hn hF B (sched.filter (· < n)) s (fun i hi => by simpa using (List.mem_filter.1 hi).2)
    ((List.length_filter_le _ _).trans h1) (by rw [run_filter n sched s (hlen s hs)]; exact h2)
  omega

theorem unfinished_tendsto {n B : Nat} (hn : 0 < n) (hF : ∀ s i, F s → F (stepAt f s i)) (J : Sys σ τ → Prop)
    (hJ : ∀ s i, J s → J (stepAt f s i)) (hlen : ∀ s, J s → s.threads.length = n)
    (hB : ∀ s, J s → ∃ sched : List Nat, sched.length ≤ B ∧ F (run f s sched)) (s : Sys σ τ) (hs : J s) (ε : Rat) (hε : 0 < ε) :
    ∃ L₀, ∀ L, L₀ ≤ L → unfinishedProbability (fun sched => F (run f s sched)) n L < ε := by
  have hp : ∀ m, (0 : ℚ) < (n : ℚ) ^ m := fun m => pow_pos (by exact_mod_cast hn) m
  have hq : ((n ^ B - 1 : ℕ) : ℚ) / (n : ℚ) ^ B < 1 := by
    rw [div_lt_one (hp B)]
    have := Nat.pow_pos (n := B) hn
    have h1 : n ^ B - 1 < n ^ B := by omega
    exact_mod_cast h1
  have hq0 : 0 ≤ ((n ^ B - 1 : ℕ) : ℚ) / (n : ℚ) ^ B := div_nonneg (Nat.cast_nonneg _) (hp B).le
  obtain ⟨k, hk⟩ := exists_pow_lt_of_lt_one hε hq
  refine ⟨B * k, fun L hL => lt_of_le_of_lt ?_ hk⟩
  obtain ⟨r, rfl⟩ : ∃ r, L = B * k + r := ⟨L - B * k, by omega⟩
  have h1 := unfinished_le hn hF J hJ hlen hB s hs k
  rw [unfinished_eq] at h1
  have h2 := (bad_succ (n := n) hF r (B * k) s).trans (Nat.mul_le_mul_right _ h1)
  unfold unfinishedProbability
  rw [unfinished_eq, div_pow, ← pow_mul, div_le_div_iff₀ (by exact_mod_cast Nat.pow_pos hn) (hp _)]
  have h3 : bad f F n (B * k + r) s * n ^ (B * k) ≤ (n ^ B - 1) ^ k * n ^ (B * k + r) := by
    calc _ ≤ (n ^ B - 1) ^ k * n ^ r * n ^ (B * k) := Nat.mul_le_mul_right _ h2
      _ = _ := by rw [pow_add]; ring
  exact_mod_cast h3

end
end Stdgpu.Conc
