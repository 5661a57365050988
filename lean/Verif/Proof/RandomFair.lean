import Verif.Proof.RandomSched
import Verif.Spec.Fair
import Mathlib.Tactic.Linarith
import Mathlib.Tactic.ByContra
import Mathlib.Tactic.FieldSimp
/-
What happens under every fair schedule happens almost surely under a random one. If the fraction of the sequences of choices
after which the execution is not finished does not tend to 0, a fair schedule can be built that never finishes: as long as the
fraction among the continuations stays away from 0, each thread can be given a step after which it still does.
-/
namespace Stdgpu.Conc
open Stdgpu.Spec

variable {σ τ : Type} {f : σ → τ → σ × τ} {F : Sys σ τ → Prop} {n : Nat}

/-- The fraction of the unfinished continuations of `s` stays away from 0. -/
def Positive (f : σ → τ → σ × τ) (F : Sys σ τ → Prop) (n : Nat) (s : Sys σ τ) : Prop :=
  ∃ ε : ℚ, 0 < ε ∧ ∀ L, ε * (n : ℚ) ^ L ≤ bad f F n L s

theorem not_positive (hF : ∀ s i, F s → F (stepAt f s i)) {s : Sys σ τ} (h : ¬ Positive f F n s) {δ : ℚ}
    (hδ : 0 < δ) : ∃ L₀, ∀ L, L₀ ≤ L → (bad f F n L s : ℚ) ≤ δ * (n : ℚ) ^ L := by
  unfold Positive at h
  push Not at h
  obtain ⟨L₀, hL⟩ := h δ hδ
  refine ⟨L₀, fun L hle => ?_⟩
  obtain ⟨r, rfl⟩ : ∃ r, L = L₀ + r := ⟨L - L₀, by omega⟩
  have h1 : (bad f F n (L₀ + r) s : ℚ) ≤ bad f F n L₀ s * (n : ℚ) ^ r := by exact_mod_cast bad_succ (n := n) hF r L₀ s
  have h2 : (0 : ℚ) ≤ (n : ℚ) ^ r := by positivity
  rw [pow_add, ← mul_assoc]
  exact h1.trans (mul_le_mul_of_nonneg_right hL.le h2)

/-- If no continuation that gives a step to thread `i` stays away from 0, the fraction tends to 0. -/
theorem avoid (hF : ∀ s i, F s → F (stepAt f s i)) (i : Fin n) (m : Nat) : ∀ (s : Sys σ τ) (δ : ℚ), 0 < δ →
    (∀ u : List Nat, ¬ Positive f F n (run f s (u ++ [i.val]))) →
    ∃ L₀, ∀ L, L₀ ≤ L → (bad f F n L s : ℚ) ≤ ((((n : ℚ) - 1) / n) ^ m + δ) * (n : ℚ) ^ L := by
  have hn : (0 : ℚ) < n := by have := i.pos; exact_mod_cast this
  induction m with
  | zero =>
    intro s δ hδ _
    refine ⟨0, fun L _ => ?_⟩
    have h1 : (bad f F n L s : ℚ) ≤ (n : ℚ) ^ L := by exact_mod_cast bad_le (f := f) (F := F) n L s
    have h2 : (0 : ℚ) ≤ (n : ℚ) ^ L := by positivity
    rw [pow_zero, add_mul, one_mul]
    have := mul_nonneg hδ.le h2
    linarith
  | succ m ih =>
    intro s δ hδ h
    have hj : ∀ j : Fin n, ∃ L₀, ∀ L, L₀ ≤ L → (bad f F n L (stepAt f s j.val) : ℚ) ≤
        ((if j = i then 0 else (((n : ℚ) - 1) / n) ^ m) + δ) * (n : ℚ) ^ L := by
      intro j
      by_cases hji : j = i
      · subst hji
        have := h []
        obtain ⟨L₀, hL⟩ := not_positive hF this hδ
        exact ⟨L₀, fun L hle => by simpa [run_cons, run_nil] using hL L hle⟩
      · obtain ⟨L₀, hL⟩ := ih (stepAt f s j.val) δ hδ (fun u => by
          have := h (j.val :: u)
          rwa [List.cons_append, run_cons] at this)
        exact ⟨L₀, fun L hle => by simpa [hji] using hL L hle⟩
    choose g hg using hj
    refine ⟨(Finset.univ.sup g) + 1, fun L hle => ?_⟩
    obtain ⟨L, rfl⟩ : ∃ l, L = l + 1 := ⟨L - 1, by omega⟩
    have hs : (bad f F n (L + 1) s : ℚ) = ∑ j : Fin n, (bad f F n L (stepAt f s j.val) : ℚ) := by
      simp only [bad]; push_cast; rfl
    rw [hs]
    refine (Finset.sum_le_sum (fun j _ => hg j L ?_)).trans ?_
    · have := Finset.le_sup (f := g) (Finset.mem_univ j); omega
    · rw [← Finset.sum_mul, Finset.sum_add_distrib]
      have h1 : (∑ j : Fin n, (if j = i then (0 : ℚ) else (((n : ℚ) - 1) / n) ^ m)) = ((n : ℚ) - 1) * (((n : ℚ) - 1) / n) ^ m := by
        have : ∀ j : Fin n, (if j = i then (0 : ℚ) else (((n : ℚ) - 1) / n) ^ m) =
            (((n : ℚ) - 1) / n) ^ m - (if j = i then (((n : ℚ) - 1) / n) ^ m else 0) := by
          intro j; split <;> ring
        rw [Finset.sum_congr rfl (fun j _ => this j), Finset.sum_sub_distrib]
        simp
        ring
      rw [h1]
      simp only [Finset.sum_const, Finset.card_univ, Fintype.card_fin, nsmul_eq_mul]
      have h2 : ((((n : ℚ) - 1) / n) ^ (m + 1) + δ) * (n : ℚ) ^ (L + 1) =
          (((n : ℚ) - 1) * (((n : ℚ) - 1) / n) ^ m + (n : ℚ) * δ) * (n : ℚ) ^ L := by
        rw [pow_succ, pow_succ]; field_simp
      rw [h2]

/-- Every thread can be given a step. -/
theorem Positive.extend (hF : ∀ s i, F s → F (stepAt f s i)) {s : Sys σ τ} (h : Positive f F n s) (i : Fin n) :
    ∃ u : List Nat, Positive f F n (run f s (u ++ [i.val])) := by
  by_contra hc
  push Not at hc
  obtain ⟨ε, hε, hL⟩ := h
  have hn : (0 : ℚ) < n := by have := i.pos; exact_mod_cast this
  have hn1 : (1 : ℚ) ≤ n := by have := i.pos; exact_mod_cast this
  have hq : ((n : ℚ) - 1) / n < 1 := by rw [div_lt_one hn]; linarith
  obtain ⟨m, hm⟩ := exists_pow_lt_of_lt_one (show (0 : ℚ) < ε / 2 by linarith) hq
  obtain ⟨L₀, hA⟩ := avoid hF i m s (ε / 4) (by linarith) hc
  have h1 := (hL L₀).trans (hA L₀ le_rfl)
  have h2 : (0 : ℚ) < (n : ℚ) ^ L₀ := by positivity
  have h3 := le_of_mul_le_mul_right h1 h2
  linarith

/-- The schedule built step by step. -/
noncomputable def path (hn : 0 < n) (hF : ∀ s i, F s → F (stepAt f s i)) (s : Sys σ τ) (h : Positive f F n s) :
    Nat → {p : List Nat // Positive f F n (run f s p)}
  | 0 => ⟨[], h⟩
  | k + 1 =>
    let p := path hn hF s h k
    let e := p.2.extend hF ⟨k % n, Nat.mod_lt k hn⟩
    ⟨p.1 ++ (e.choose ++ [k % n]), by rw [run_append]; exact e.choose_spec⟩

section
variable (hn : 0 < n) (hF : ∀ s i, F s → F (stepAt f s i)) (s : Sys σ τ) (h : Positive f F n s)

theorem path_succ (k : Nat) : ∃ u, (path hn hF s h (k + 1)).1 = (path hn hF s h k).1 ++ (u ++ [k % n]) := ⟨_, rfl⟩

theorem path_len (k : Nat) : k ≤ (path hn hF s h k).1.length := by
  induction k with
  | zero => omega
  | succ k ih => obtain ⟨u, e⟩ := path_succ hn hF s h k; rw [e]; simp; omega

theorem path_prefix {k l : Nat} (hkl : k ≤ l) : (path hn hF s h k).1 <+: (path hn hF s h l).1 := by
  induction l with
  | zero => obtain rfl : k = 0 := by omega
            exact List.prefix_refl _
  | succ l ih =>
    rcases Nat.lt_or_ge k (l + 1) with hlt | hge
    · obtain ⟨u, e⟩ := path_succ hn hF s h l
      exact (ih (by omega)).trans (by rw [e]; exact List.prefix_append _ _)
    · obtain rfl : k = l + 1 := by omega
      exact List.prefix_refl _

/-- The limit of the prefixes. -/
noncomputable def pathσ (m : Nat) : Nat := ((path hn hF s h (m + 1)).1[m]?).getD 0

theorem pathσ_eq {k m : Nat} (hm : m < (path hn hF s h k).1.length) : (path hn hF s h k).1[m]? = some (pathσ hn hF s h m) := by
  have hl := path_len hn hF s h (m + 1)
  have e1 : (path hn hF s h (m + 1)).1[m]? = some (pathσ hn hF s h m) := by
    unfold pathσ; rw [List.getElem?_eq_getElem (by omega)]; rfl
  rcases Nat.le_total k (m + 1) with hk | hk
  · obtain ⟨rest, hr⟩ := path_prefix hn hF s h hk
    rw [← e1, ← hr, List.getElem?_append_left hm]
  · obtain ⟨rest, hr⟩ := path_prefix hn hF s h hk
    rw [← hr, List.getElem?_append_left (by omega), e1]

theorem upTo_path (k : Nat) : upTo (pathσ hn hF s h) (path hn hF s h k).1.length = (path hn hF s h k).1 := by
  apply List.ext_getElem?
  intro m
  by_cases hm : m < (path hn hF s h k).1.length
  · rw [pathσ_eq hn hF s h hm]; simp [upTo, hm]
  · rw [List.getElem?_eq_none (by simp [upTo]; omega), List.getElem?_eq_none (by omega)]

theorem pathσ_fair : Fair n (pathσ hn hF s h) := by
  intro i hi N
  let k := N * n + i
  have hk : k % n = i := by show (N * n + i) % n = i; rw [Nat.add_comm, Nat.add_mul_mod_self_right, Nat.mod_eq_of_lt hi]
  have hNk : N ≤ k := by show N ≤ N * n + i; have := Nat.le_mul_of_pos_right N hn; omega
  obtain ⟨u, e⟩ := path_succ hn hF s h k
  have hl := path_len hn hF s h k
  refine ⟨(path hn hF s h k).1.length + u.length, by omega, ?_⟩
  have h1 := pathσ_eq hn hF s h (k := k + 1) (m := (path hn hF s h k).1.length + u.length) (by rw [e]; simp)
  rw [e, List.getElem?_append_right (by omega), Nat.add_sub_cancel_left, List.getElem?_append_right (by omega)] at h1
  simpa [hk] using h1.symm

end

theorem upTo_split (σ : Nat → Nat) {N M : Nat} (h : N ≤ M) : ∃ rest, upTo σ M = upTo σ N ++ rest := by
  refine ⟨(upTo σ M).drop N, ?_⟩
  conv_lhs => rw [← List.take_append_drop N (upTo σ M)]
  congr 1
  unfold upTo
  rw [← List.map_take, List.take_range, Nat.min_eq_left h]

theorem run_final (hF : ∀ s i, F s → F (stepAt f s i)) (sched : List Nat) : ∀ s : Sys σ τ, F s → F (run f s sched) := by
  induction sched with
  | nil => intro s h; exact h
  | cons i rest ih => intro s h; rw [run_cons]; exact ih _ (hF s i h)

/-- What is reached under every fair schedule (and not left) is reached with probability 1 under a random one. -/
theorem fair_tendsto (hn : 0 < n) (hF : ∀ s i, F s → F (stepAt f s i)) (s : Sys σ τ)
    (hf : ∀ σ, Fair n σ → ∃ N, F (run f s (upTo σ N))) (ε : Rat) (hε : 0 < ε) :
    ∃ L₀, ∀ L, L₀ ≤ L → unfinishedProbability (fun sched => F (run f s sched)) n L < ε := by
  have hnq : (0 : ℚ) < n := by exact_mod_cast hn
  by_cases h : Positive f F n s
  · exfalso
    obtain ⟨N, hN⟩ := hf _ (pathσ_fair hn hF s h)
    have hp := (path hn hF s h N).2
    obtain ⟨rest, hr⟩ := upTo_split (pathσ hn hF s h) (path_len hn hF s h N)
    rw [upTo_path] at hr
    have hfin : F (run f s (path hn hF s h N).1) := by rw [hr, run_append]; exact run_final hF _ _ hN
    obtain ⟨δ, hδ, hL⟩ := hp
    have := hL 0
    rw [bad_zero hF 0 _ hfin] at this
    simp at this
    linarith
  · obtain ⟨L₀, hL⟩ := not_positive hF h (show (0 : ℚ) < ε / 2 by linarith)
    refine ⟨L₀, fun L hle => ?_⟩
    unfold unfinishedProbability
    rw [unfinished_eq]
    have h2 : (0 : ℚ) < (n : ℚ) ^ L := by positivity
    push_cast
    rw [div_lt_iff₀ h2]
    have := hL L hle
    have h3 := mul_pos hε h2
    linarith

end Stdgpu.Conc
