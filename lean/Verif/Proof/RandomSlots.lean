import Verif.Proof.RandomSched
import Verif.Props.Vector
import Verif.Props.Deque
/-
The operations of vector and deque can be finished within a number of steps that depends only on the programs.
-/
namespace Stdgpu.SlotConc
open Stdgpu.Conc Stdgpu.Spec

variable {C K F α : Type}

theorem work_le (φ : F → Nat) (start : F) (hφ : ∀ f, φ f ≤ φ start) (t : Thread K F α) :
    work φ start t ≤ t.todo.length * (φ start + 3) := by
  obtain ⟨todo, pc, done⟩ := t
  cases todo with
  | nil => simp [work]
  | cons op rest =>
    have : pcWork φ pc ≤ φ start + 3 := by
      cases pc with
      | front f => have := hφ f; simp [pcWork]; omega
      | slot p s => cases s <;> simp [pcWork] <;> omega
    simp only [work, List.length_cons, Nat.add_mul, Nat.one_mul]
    omega

theorem totalWork_le (φ : F → Nat) (start : F) (hφ : ∀ f, φ f ≤ φ start) :
    ∀ (ts : List (Thread K F α)) (programs : List (List (Op K α))),
      (∀ (i : Nat) (t : Thread K F α), ts[i]? = some t → programs[i]? = some (t.done.map (·.1) ++ t.todo)) →
      (ts.map (work φ start)).sum ≤ programs.flatten.length * (φ start + 3) := by
  intro ts
  induction ts with
  | nil => intro _ _; simp
  | cons t ts ih =>
    intro programs h
    cases programs with
    | nil => have := h 0 t rfl; simp at this
    | cons p ps =>
      have h0 := h 0 t rfl
      simp only [List.getElem?_cons_zero, Option.some.injEq] at h0
      have h1 := ih ps (fun i t ht => by simpa using h (i + 1) t (by simpa using ht))
      have h2 := work_le φ start hφ t
      have h3 : t.todo.length ≤ p.length := by rw [h0]; simp
      have h4 := Nat.mul_le_mul_right (φ start + 3) h3
      simp only [List.map_cons, List.sum_cons, List.flatten_cons, List.length_append, Nat.add_mul] at *
      omega

theorem finished_stepAt (fr : Front C K F) (s : Sys (Mem C α) (Thread K F α)) (i : Nat) (h : Finished s) :
    Finished (stepAt (step fr) s i) := by
  cases ht : s.threads[i]? with
  | none => simp only [stepAt, ht]; exact h
  | some t =>
    rw [stepAt_eq _ _ _ _ ht]
    have h0 : t.todo = [] := h t (List.mem_of_getElem? ht)
    have e : step fr s.shared t = (s.shared, t) := by
      obtain ⟨todo, pc, done⟩ := t
      simp only at h0
      subst h0
      rfl
    intro u hu
    rw [e] at hu
    rcases List.mem_or_eq_of_mem_set hu with hu | rfl
    · exact h u hu
    · exact h0

/-- The bound on the number of steps. -/
def finishBound (c n T : Nat) : Nat := 2 * (T * c * (6 * n + 1) + 6 * n)

theorem can_finish_within (fr : Front C K F) (φ : F → Nat) (hmax : ∀ f, φ f ≤ φ fr.start)
    (hφ : ∀ c b k f c' f', fr.step c b k f = (c', .cont f') → φ f' < φ f)
    {cap : Nat} {c₀ : Multiset α} {programs : List (List (Op K α))}
    (J : Sys (Mem C α) (Thread K F α) → Prop)
    (hJstep : ∀ s i t, J s → s.threads[i]? = some t →
      J ⟨(step fr s.shared t).1, s.threads.set i (step fr s.shared t).2⟩)
    (hJ : ∀ s, J s → ∃ tick, SInv fr cap c₀ programs tick s ∧ ∀ p, p < cap → 0 ≤ tick p ∧ tick p ≤ 1)
    (s : Sys (Mem C α) (Thread K F α)) (hs : J s) :
    ∃ sched : List Nat, sched.length ≤ finishBound (φ fr.start + 3) s.threads.length programs.flatten.length ∧
      Finished (run (step fr) s sched) := by
  obtain ⟨sched, h1, h2⟩ := can_finish_bounded fr φ hφ J hJstep hJ s hs
  refine ⟨sched, h1.trans ?_, h2⟩
  obtain ⟨tick, hi, -⟩ := hJ s hs
  have h3 := totalWork_le φ fr.start hmax s.threads programs hi.prog
  have h4 := totalCS_le s
  have h5 := Nat.mul_le_mul_right (6 * s.threads.length + 1) h3
  unfold finishBound
  unfold totalWork
  omega

end Stdgpu.SlotConc
