import Verif.Model.Conc
import Mathlib.Algebra.BigOperators.Group.List.Basic
import Mathlib.Algebra.Order.Group.Nat
import Mathlib.Algebra.Order.BigOperators.Group.List
/-! Generic lemmas about interleavings and sums over the thread list. -/
namespace Stdgpu.Conc

theorem run_nil {σ τ : Type} (f : σ → τ → σ × τ) (s : Sys σ τ) : run f s [] = s := rfl

theorem run_cons {σ τ : Type} (f : σ → τ → σ × τ) (s : Sys σ τ) (i : Nat) (l : List Nat) :
    run f s (i :: l) = run f (stepAt f s i) l := rfl

theorem run_append {σ τ : Type} (f : σ → τ → σ × τ) (s : Sys σ τ) (l m : List Nat) :
    run f s (l ++ m) = run f (run f s l) m := by
  simp [run, List.foldl_append]

/-- Induction over schedules: an invariant of the steps holds after every schedule. -/
theorem run_inv {σ τ : Type} {f : σ → τ → σ × τ} (I : Sys σ τ → Prop)
    (hstep : ∀ s i t, I s → s.threads[i]? = some t →
      I ⟨(f s.shared t).1, s.threads.set i (f s.shared t).2⟩)
    (s : Sys σ τ) (h : I s) (sched : List Nat) : I (run f s sched) := by
  induction sched generalizing s with
  | nil => exact h
  | cons i l ih =>
    rw [run_cons]
    apply ih
    unfold stepAt
    split
    · exact h
    · rename_i t ht; exact hstep s i t h ht

theorem length_run {σ τ : Type} (f : σ → τ → σ × τ) (s : Sys σ τ) (sched : List Nat) :
    (run f s sched).threads.length = s.threads.length := by
  refine run_inv (f := f) (fun s' => s'.threads.length = s.threads.length) ?_ s rfl sched
  intro s' i t h _
  simpa using h

section Sum
variable {τ : Type} {M : Type}

theorem sum_map_set [AddCommMonoid M] (g : τ → M) (l : List τ) (i : Nat) (t t' : τ)
    (h : l[i]? = some t) :
    ((l.set i t').map g).sum + g t = (l.map g).sum + g t' := by
  induction l generalizing i with
  | nil => simp at h
  | cons a l ih =>
    cases i with
    | zero =>
      simp at h; subst h
      simp only [List.set_cons_zero, List.map_cons, List.sum_cons]
      rw [add_comm (g t') _, add_comm (g a) ((l.map g).sum), add_assoc, add_assoc,
        add_comm (g t') (g a)]
    | succ i =>
      simp at h
      simp only [List.set_cons_succ, List.map_cons, List.sum_cons]
      rw [add_assoc, ih i h, add_assoc]

theorem le_sum_map (g : τ → Nat) (l : List τ) (t : τ) (h : t ∈ l) : g t ≤ (l.map g).sum :=
  List.single_le_sum (by simp) _ (List.mem_map_of_mem h)

theorem sum_map_eq_zero (g : τ → Nat) (l : List τ) : (l.map g).sum = 0 ↔ ∀ t ∈ l, g t = 0 := by
  induction l with
  | nil => simp
  | cons a l ih => simp [ih]

theorem add_le_sum_map (g : τ → Nat) (l : List τ) (i j : Nat) (a b : τ) (hij : i ≠ j)
    (hi : l[i]? = some a) (hj : l[j]? = some b) : g a + g b ≤ (l.map g).sum := by
  induction l generalizing i j with
  | nil => simp at hi
  | cons x l ih =>
    simp only [List.map_cons, List.sum_cons]
    cases i with
    | zero =>
      cases j with
      | zero => omega
      | succ j =>
        simp at hi hj; subst hi
        have := le_sum_map g l b (List.mem_of_getElem? hj)
        omega
    | succ i =>
      cases j with
      | zero =>
        simp at hi hj; subst hj
        have := le_sum_map g l a (List.mem_of_getElem? hi)
        omega
      | succ j =>
        simp at hi hj
        have := ih i j (by omega) hi hj
        omega

theorem set_self (l : List τ) (i : Nat) (t : τ) (h : l[i]? = some t) : l.set i t = l := by
  obtain ⟨hi, rfl⟩ := List.getElem?_eq_some_iff.1 h
  exact List.set_getElem_self hi

theorem mem_set_cases (l : List τ) (i : Nat) (t' x : τ) (h : x ∈ l.set i t') :
    x = t' ∨ ∃ j, j ≠ i ∧ l[j]? = some x := by
  rw [List.mem_iff_getElem?] at h
  obtain ⟨j, hj⟩ := h
  by_cases hji : j = i
  · subst hji
    rw [List.getElem?_set] at hj
    simp at hj
    left; exact hj.2.symm
  · right
    refine ⟨j, hji, ?_⟩
    rw [List.getElem?_set_ne (fun e => hji e.symm)] at hj
    exact hj

theorem getElem?_set_cases (l : List τ) (i j : Nat) (t' x : τ) (h : (l.set i t')[j]? = some x) :
    (j = i ∧ x = t') ∨ (j ≠ i ∧ l[j]? = some x) := by
  by_cases hji : j = i
  · subst hji
    rw [List.getElem?_set] at h
    simp at h
    left; exact ⟨rfl, h.2.symm⟩
  · right
    refine ⟨hji, ?_⟩
    rw [List.getElem?_set_ne (fun e => hji e.symm)] at h
    exact h

theorem exists_of_sum_pos (g : τ → Nat) (l : List τ) (h : 0 < (l.map g).sum) :
    ∃ (i : Nat) (t : τ), l[i]? = some t ∧ 0 < g t := by
  by_contra hc
  have : (l.map g).sum = 0 := by
    rw [sum_map_eq_zero]
    intro t ht
    rw [List.mem_iff_getElem?] at ht
    obtain ⟨i, hi⟩ := ht
    by_contra h0
    exact hc ⟨i, t, hi, by omega⟩
  omega

end Sum
end Stdgpu.Conc

namespace Stdgpu.Conc

/-- If every own step of a thread decreases `μ` until `D` holds, then `D` is reached by thread `i` within `μ t` of its
own steps, whatever the other threads do. -/
theorem own_steps_bound' {σ τ : Type} (f : σ → τ → σ × τ) (μ : τ → Nat) (P D : τ → Prop)
    (hdec : ∀ m t, P t → ¬ D t → μ (f m t).2 < μ t ∧ (P (f m t).2 ∨ D (f m t).2))
    (i : Nat) (sched : List Nat) :
    ∀ (s : Sys σ τ) (t : τ), s.threads[i]? = some t → (P t ∨ D t) → μ t ≤ sched.count i →
    ∃ k t', (run f s (sched.take k)).threads[i]? = some t' ∧ D t' := by
  induction sched with
  | nil =>
    intro s t ht hP hc
    by_cases hD : D t
    · exact ⟨0, t, ht, hD⟩
    · have := (hdec s.shared t (hP.resolve_right hD) hD).1
      simp at hc; omega
  | cons j l ih =>
    intro s t ht hP hc
    by_cases hD : D t
    · exact ⟨0, t, ht, hD⟩
    · by_cases hji : j = i
      · subst hji
        obtain ⟨hd, hP'⟩ := hdec s.shared t (hP.resolve_right hD) hD
        rw [List.count_cons_self] at hc
        have hlt := (List.getElem?_eq_some_iff.1 ht).1
        obtain ⟨k, t', h1, h2⟩ := ih (stepAt f s j) (f s.shared t).2
          (by unfold stepAt; rw [ht]; simp [hlt]) hP' (by omega)
        exact ⟨k + 1, t', by simpa [run_cons] using h1, h2⟩
      · rw [List.count_cons_of_ne hji] at hc
        have hs : (stepAt f s j).threads[i]? = some t := by
          unfold stepAt
          split
          · exact ht
          · simp [List.getElem?_set_ne hji, ht]
        obtain ⟨k, t', h1, h2⟩ := ih (stepAt f s j) t hs hP hc
        exact ⟨k + 1, t', by simpa [run_cons] using h1, h2⟩

/-- Variant with termination: once `D` holds it stays. -/
theorem own_steps_stable {σ τ : Type} (f : σ → τ → σ × τ) (D : τ → Prop)
    (hst : ∀ m t, D t → D (f m t).2) (i : Nat) (s : Sys σ τ) (t : τ) (ht : s.threads[i]? = some t)
    (hD : D t) (sched : List Nat) : ∃ t', (run f s sched).threads[i]? = some t' ∧ D t' := by
  refine run_inv (f := f) (fun s => ∃ t', s.threads[i]? = some t' ∧ D t') ?_ s ⟨t, ht, hD⟩ sched
  rintro s j x ⟨t', h1, h2⟩ hx
  have hlt := (List.getElem?_eq_some_iff.1 h1).1
  by_cases hji : j = i
  · subst hji
    rw [h1] at hx; cases hx
    exact ⟨(f s.shared x).2, by simp [hlt], hst _ _ h2⟩
  · exact ⟨t', by simp [List.getElem?_set_ne hji, h1], h2⟩

theorem own_steps_bound {σ τ : Type} (f : σ → τ → σ × τ) (μ : τ → Nat) (D : τ → Prop)
    (hdec : ∀ m t, ¬ D t → μ (f m t).2 < μ t) (i : Nat) (sched : List Nat)
    (s : Sys σ τ) (t : τ) (ht : s.threads[i]? = some t) (hc : μ t ≤ sched.count i) :
    ∃ k t', (run f s (sched.take k)).threads[i]? = some t' ∧ D t' :=
  own_steps_bound' f μ (fun _ => True) D (fun m t _ h => ⟨hdec m t h, Or.inl trivial⟩) i sched s t ht
    (Or.inl trivial) hc

/-- Reached and stable. -/
theorem own_steps_finish {σ τ : Type} (f : σ → τ → σ × τ) (μ : τ → Nat) (D : τ → Prop)
    (hdec : ∀ m t, ¬ D t → μ (f m t).2 < μ t) (hst : ∀ m t, D t → D (f m t).2) (i : Nat) (sched : List Nat)
    (s : Sys σ τ) (t : τ) (ht : s.threads[i]? = some t) (hc : μ t ≤ sched.count i) :
    ∃ t', (run f s sched).threads[i]? = some t' ∧ D t' := by
  obtain ⟨k, t', h1, h2⟩ := own_steps_bound f μ D hdec i sched s t ht hc
  have := own_steps_stable f D hst i _ t' h1 h2 (sched.drop k)
  rwa [← run_append, List.take_append_drop] at this

end Stdgpu.Conc
