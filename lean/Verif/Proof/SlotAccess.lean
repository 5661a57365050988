import Verif.Model.SlotAccess
import Verif.Spec.Race
import Verif.Proof.SlotConc
import Mathlib.Data.List.Induction
/-! Accesses to the element storage. -/
namespace Stdgpu.SlotConc
open Stdgpu.Conc Stdgpu.Spec
variable {C K F α : Type}

def proj (s : Sys (IMem C α) (IThread K F α)) : Sys (Mem C α) (Thread K F α) := ⟨s.shared.base, s.threads.map (·.base)⟩

theorem proj_initI (fr : Front C K F) (m : Mem C α) (programs : List (List (Op K α))) :
    proj (initI fr m programs) = init fr m programs := by
  simp [proj, initI, init, Function.comp_def]

theorem proj_step (fr : Front C K F) (s : Sys (IMem C α) (IThread K F α)) (i : Nat) :
    proj (stepAt (stepI fr) s i) = proj s ∨ proj (stepAt (stepI fr) s i) = stepAt (step fr) (proj s) i := by
  unfold stepAt
  cases h : s.threads[i]? with
  | none => left; rfl
  | some t =>
    have h' : (proj s).threads[i]? = some t.base := by simp [proj, h]
    rw [h']
    simp only
    by_cases hc : needsCopy t
    · left
      simp only [stepI, hc, if_true, proj, List.map_set]
      congr 1
      rw [set_self]
      simp [h]
    · right
      simp only [stepI, hc, proj, List.map_set]
      rfl

/-- Without the initial copies an execution is one of the machine of `SlotConc`. -/
theorem proj_run (fr : Front C K F) (m : Mem C α) (programs : List (List (Op K α))) (sched : List Nat) :
    ∃ sched', proj (run (stepI fr) (initI fr m programs) sched) = run (step fr) (init fr m programs) sched' := by
  induction sched using List.reverseRecOn with
  | nil => exact ⟨[], proj_initI fr m programs⟩
  | append_singleton l i ih =>
    obtain ⟨l', hl⟩ := ih
    rw [run_append]
    rcases proj_step fr (run (stepI fr) (initI fr m programs) l) i with h | h
    · exact ⟨l', by rw [← hl]; exact h⟩
    · refine ⟨l' ++ [i], ?_⟩
      rw [run_append, ← hl]
      exact h

theorem holds_of_access {t : Thread K F α} {p : Nat} {w : Bool} (h : slotAccess t = some (p, w)) : holdsN p t = 1 := by
  unfold slotAccess at h
  unfold holdsN
  split at h <;> first
    | (rename_i hpc; simp only [Option.some.injEq, Prod.mk.injEq] at h; obtain ⟨rfl, -⟩ := h; simp [hpc, SPC.inCS])
    | simp at h

theorem pos_of_access {fr : Front C K F} {cap : Nat} {c₀ : Multiset α} {programs : List (List (Op K α))} {tick : Nat → Int}
    {s : Sys (Mem C α) (Thread K F α)} (h : SInv fr cap c₀ programs tick s) {t : Thread K F α} (ht : t ∈ s.threads)
    {p : Nat} {w : Bool} (ha : slotAccess t = some (p, w)) : p < cap := by
  unfold slotAccess at ha
  split at ha <;> first
    | (rename_i hpc; simp only [Option.some.injEq, Prod.mk.injEq] at ha; obtain ⟨rfl, -⟩ := ha
       exact ((h.shape t ht).1 _ _ hpc).1)
    | simp at ha

/-- Two threads in the loop never access the same slot, not even to read. -/
theorem no_common_access {fr : Front C K F} {cap : Nat} {c₀ : Multiset α} {programs : List (List (Op K α))} {tick : Nat → Int}
    {s : Sys (Mem C α) (Thread K F α)} (h : SInv fr cap c₀ programs tick s) {i j : Nat} {ti tj : Thread K F α}
    (hij : i ≠ j) (hi : s.threads[i]? = some ti) (hj : s.threads[j]? = some tj) {p : Nat} {w w' : Bool}
    (h1 : slotAccess ti = some (p, w)) (h2 : slotAccess tj = some (p, w')) : False := by
  have hp := pos_of_access h (List.mem_of_getElem? hi) h1
  have := add_le_sum_map (holdsN p) s.threads i j ti tj hij hi hj
  rw [holds_of_access h1, holds_of_access h2, h.locks p hp] at this
  have : (s.shared.slots.locks p).toNat ≤ 1 := Bool.toNat_le _
  omega

theorem no_race {fr : Front C K F} {cap : Nat} {c₀ : Multiset α} {programs : List (List (Op K α))} {tick : Nat → Int}
    {s : Sys (Mem C α) (Thread K F α)} (h : SInv fr cap c₀ programs tick s) : ¬ Race slotAccess s := by
  rintro ⟨i, j, ti, tj, p, w, w', hij, hi, hj, h1, h2, -⟩
  exact no_common_access h hij hi hj h1 h2

theorem race_initial {fr : Front C K F} {cap : Nat} {c₀ : Multiset α} {programs : List (List (Op K α))} {tick : Nat → Int}
    {s : Sys (IMem C α) (IThread K F α)} (h : SInv fr cap c₀ programs tick (proj s)) {i j : Nat} {ti tj : IThread K F α}
    (hij : i ≠ j) (hi : s.threads[i]? = some ti) (hj : s.threads[j]? = some tj) {p : Nat} {w w' : Bool}
    (h1 : access ti = some (p, w)) (h2 : access tj = some (p, w')) :
    p = 0 ∧ (needsCopy ti = true ∨ needsCopy tj = true) := by
  unfold access at h1 h2
  split at h1
  · next hc => simp only [Option.some.injEq, Prod.mk.injEq] at h1; exact ⟨h1.1.symm, .inl hc⟩
  · split at h2
    · next hc => simp only [Option.some.injEq, Prod.mk.injEq] at h2; exact ⟨h2.1.symm, .inr hc⟩
    · exact (no_common_access h hij (by simp [proj, hi]) (by simp [proj, hj]) h1 h2).elim

end Stdgpu.SlotConc
