import Verif.Proof.Atomic
import Mathlib.Data.List.Perm.Basic
/-! Consequences of linearizability: permutation of the programs, order independence, progress. -/
namespace Stdgpu.Atomic
open Stdgpu.Conc Stdgpu.Spec

set_option linter.unusedSectionVars false

variable {V : Type}

theorem perm_filter_range {α : Type} (g : α → Nat) (n : Nat) (L : List α) (h : ∀ e ∈ L, g e < n) :
    L.Perm ((List.range n).flatMap (fun i => L.filter (fun e => g e == i))) := by
  induction n generalizing L with
  | zero =>
    cases L with
    | nil => simp
    | cons e L => exact absurd (h e (by simp)) (by omega)
  | succ n ih =>
    rw [List.range_succ, List.flatMap_append]
    have h1 : L.Perm (L.filter (fun e => decide (g e < n)) ++ L.filter (fun e => !decide (g e < n))) :=
      (List.filter_append_perm _ L).symm
    have h2 := ih (L.filter (fun e => decide (g e < n))) (by simp)
    have h3 : ((List.range n).flatMap fun i => (L.filter (fun e => decide (g e < n))).filter (fun e => g e == i))
        = (List.range n).flatMap fun i => L.filter (fun e => g e == i) := by
      apply List.flatMap_congr
      intro i hi
      rw [List.mem_range] at hi
      rw [List.filter_filter]
      apply List.filter_congr
      intro e _
      by_cases he : g e = i <;> simp [he]; omega
    have h4 : L.filter (fun e => !decide (g e < n)) = L.filter (fun e => g e == n) := by
      apply List.filter_congr
      intro e he
      have := h e he
      by_cases hc : g e = n
      · simp [hc]
      · have : g e < n := by omega
        simp [hc, this]
    rw [h3] at h2
    rw [h4] at h1
    refine h1.trans ?_
    simpa using h2.append_right _

theorem flatten_eq_flatMap_range {β : Type} (P : List (List β)) :
    P.flatten = (List.range P.length).flatMap (fun i => (P[i]?).getD []) := by
  induction P with
  | nil => rfl
  | cons p P ih =>
    rw [List.length_cons, List.range_succ_eq_map, List.flatMap_cons, List.flatMap_map, List.flatten_cons, ih]
    simp

theorem perm_map_exists {α β : Type} (f : α → β) (m : List β) (l : List α) (h : m.Perm (l.map f)) :
    ∃ l' : List α, m = l'.map f ∧ l'.Perm l := by
  have h2 : List.Forall₂ (fun b a => b = f a) (l.map f) l := by
    rw [List.forall₂_map_left_iff]; exact List.forall₂_same.2 (fun _ _ => rfl)
  obtain ⟨l', h3, h4⟩ := List.perm_comp_forall₂ h h2
  refine ⟨l', ?_, h4⟩
  clear h2 h4 h
  induction h3 with
  | nil => rfl
  | cons h _ ih => simp [h, ih]

variable [DecidableEq V]

/-- In a finished state the sequential history performs exactly the operations of all programs. -/
theorem ops_perm {v₀ : V} {programs : List (List (Op V))} {c : Bool} {s : Sys (Mem V) (Thread V)}
    {L : List (Entry V)} (h : Inv v₀ programs c s) (hL : Linearizes v₀ s L) (hf : Finished s) :
    (L.map (fun e => e.2.1)).Perm programs.flatten := by
  have h1 := (perm_filter_range (fun e : Entry V => e.1) s.threads.length L hL.known).map (fun e => e.2.1)
  refine h1.trans (List.Perm.of_eq ?_)
  rw [flatten_eq_flatMap_range, List.map_flatMap, h.len]
  apply List.flatMap_congr
  intro i hi
  rw [List.mem_range, ← h.len] at hi
  have ht : s.threads[i]? = some s.threads[i] := List.getElem?_eq_getElem hi
  have h2 := hL.threads i _ ht
  have h3 := h.prog i _ ht
  have h4 := hf _ (List.getElem_mem hi)
  rw [h3, h4, ← h2, perThread]
  simp

theorem rets_perm {v₀ : V} {s : Sys (Mem V) (Thread V)}
    {L : List (Entry V)} (hL : Linearizes v₀ s L) :
    (L.map (fun e => e.2.2)).Perm (s.threads.flatMap (fun t => t.done.map (·.2))) := by
  have h1 := (perm_filter_range (fun e : Entry V => e.1) s.threads.length L hL.known).map (fun e => e.2.2)
  refine h1.trans (List.Perm.of_eq ?_)
  have h2 : s.threads.flatMap (fun t => t.done.map (·.2)) =
      (s.threads.map (fun t => t.done.map (·.2))).flatten := by rw [List.flatMap_def]
  rw [h2, flatten_eq_flatMap_range, List.map_flatMap, List.length_map]
  apply List.flatMap_congr
  intro i hi
  rw [List.mem_range] at hi
  have ht : s.threads[i]? = some s.threads[i] := List.getElem?_eq_getElem hi
  have h2 := hL.threads i _ ht
  simp [← h2, perThread, hi]

theorem replay_foldl (v : V) (L : List (Entry V)) (v' : V) (h : Replay v L v') :
    v' = (L.map (fun e => e.2.1)).foldl (fun v op => op.f v) v := by
  induction L generalizing v with
  | nil => simpa [Replay] using h
  | cons e L ih =>
    obtain ⟨i, o, r⟩ := e
    simp only [Replay] at h
    simpa using ih _ h.2

/-- Folding pairwise commuting updates does not depend on the order. -/
theorem foldl_perm_comm (l m : List (Op V)) (h : l.Perm m)
    (hc : ∀ a ∈ l, ∀ b ∈ l, ∀ v, a.f (b.f v) = b.f (a.f v)) (v : V) :
    l.foldl (fun v op => op.f v) v = m.foldl (fun v op => op.f v) v := by
  induction h generalizing v with
  | nil => rfl
  | cons x _ ih => exact ih (fun a ha b hb => hc a (by simp [ha]) b (by simp [hb])) _
  | swap x y l => simp only [List.foldl_cons]; rw [hc x (by simp) y (by simp)]
  | trans h1 _ ih1 ih2 =>
    rw [ih1 hc]
    exact ih2 (fun a ha b hb => hc a (h1.mem_iff.2 ha) b (h1.mem_iff.2 hb)) v

/-- A step that performs no operation leaves the value unchanged. -/
theorem step_value (m : Mem V) (t : Thread V) (h : (step m t).2.done.length = t.done.length) :
    (step m t).1.value = m.value := by
  obtain ⟨todo, pc, done⟩ := t
  cases todo with
  | nil => cases pc <;> simp [step]
  | cons op rest =>
    cases pc with
    | idle =>
      cases hk : op.kind <;> simp only [step, hk] at h ⊢
      · simp at h
      · split <;> rfl
    | entered => rfl
    | hasRead v => simp [step] at h
    | leaving => rfl
    | loaded v =>
      simp only [step, backendCompareExchange] at h ⊢
      by_cases hv : v = m.value
      · simp [hv] at h
      · have hv' : ¬ m.value = v := fun e => hv e.symm
        simp [hv, hv']

theorem step_done_le (m : Mem V) (t : Thread V) : t.done.length ≤ (step m t).2.done.length := by
  obtain ⟨todo, pc, done⟩ := t
  cases todo with
  | nil => cases pc <;> simp [step]
  | cons op rest =>
    cases pc with
    | idle =>
      cases hk : op.kind <;> simp only [step, hk]
      · simp
      · split <;> simp
      · simp
    | entered => simp [step]
    | hasRead v => simp [step]
    | leaving => simp [step]
    | loaded v =>
      simp only [step]
      split <;> simp

/-- Number of performed operations. -/
def performed (s : Sys (Mem V) (Thread V)) : Nat := (s.threads.map (fun t => t.done.length)).sum

theorem performed_stepAt (s : Sys (Mem V) (Thread V)) (i : Nat) :
    performed s ≤ performed (stepAt step s i) ∧
    (performed (stepAt step s i) = performed s → (stepAt step s i).shared.value = s.shared.value) := by
  unfold stepAt
  split
  · simp
  · rename_i t ht
    have h1 := sum_map_set (fun t : Thread V => t.done.length) s.threads i t (step s.shared t).2 ht
    have h2 := step_done_le s.shared t
    simp only [performed] at *
    refine ⟨by omega, fun h => step_value _ _ (by omega)⟩

theorem performed_run (s : Sys (Mem V) (Thread V)) (sched : List Nat) :
    performed s ≤ performed (run step s sched) ∧
    (performed (run step s sched) = performed s → (run step s sched).shared.value = s.shared.value) := by
  induction sched generalizing s with
  | nil => simp [run]
  | cons i l ih =>
    rw [run_cons]
    obtain ⟨h1, h2⟩ := ih (stepAt step s i)
    obtain ⟨h3, h4⟩ := performed_stepAt s i
    refine ⟨by omega, fun h => ?_⟩
    rw [h2 (by omega), h4 (by omega)]

end Stdgpu.Atomic
