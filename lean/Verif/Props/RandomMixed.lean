import Verif.Proof.UBndMix2
import Verif.Props.RandomSched
import Verif.Props.Index32
import Verif.Props.UMixProgress
/-
C90: insertions, erasures and lookups of unordered containers at the same time, under a random scheduler.
-/
namespace Stdgpu.Props
open Stdgpu.Spec Stdgpu.Conc Stdgpu.Unordered Stdgpu.UnorderedConc

section
variable {K V : Type} {P : Params K V} {bc ec : Nat} {t : Tab V} {progs : List (List (UnorderedConc.Op K V))}

theorem opsS_init : opsS (UnorderedConc.init t progs) = progs.flatten.length := by
  unfold opsS UnorderedConc.init
  simp only [List.map_map]
  induction progs with
  | nil => rfl
  | cons p l ih => simp only [List.map_cons, List.sum_cons, List.flatten_cons, List.length_append, ih]; simp [opsT]

/-- From every state of the execution everything can be finished within this number of steps. -/
theorem mixed_finish (hl : KeyLaws P) (h0 : 0 < bc) (h1 : bc < 2 ^ 63) (hr : PReachable P bc ec t) (hs : Separated P t progs)
    (hn : progs ≠ []) (past : List Nat) :
    ∃ σ : List Nat, σ.length ≤ progs.flatten.length * ((progs.length + (t.total + progs.length) + 4) * (Bd.dB progs.length + 60)) ∧
      UFinished (run (UnorderedConc.step P) (uexec P t progs past) σ) := by
  obtain ⟨⟨chain, free, h⟩, -, -⟩ := preachable_rep hl h0 h1 hr
  obtain ⟨xp, hI⟩ := Mx.inv_run (Mx.mkStart h progs hs) hl past
  have hlen : (uexec P t progs past).threads.length = progs.length := by
    unfold uexec; rw [length_run]; simp [UnorderedConc.init]
  have := Bd.can_finish (E := Mx.mkStart h progs hs) (C := t.total + progs.length) (D := Bd.dB progs.length) hl progs.flatten.length
    (s := uexec P t progs past) hI (by
      intro σ
      have h2 := (C74_mixed_bounds hl h0 h1 hr hs (List.length_pos_iff.2 hn) (Nat.le_refl _) (past ++ σ) _ rfl).2.2.2
      rw [uexec, run_append] at h2
      change (run (UnorderedConc.step P) (uexec P t progs past) σ).shared.tab.excess.ctr ≤ _ at h2
      omega) (by rw [hlen]) (by
      rw [← opsS_init (t := t)]
      exact Bd.opsS_step _ _)
  rwa [hlen] at this

theorem ufinished_step (s : Sys (Shared V) (Thread K V)) (i : Nat) (hs : UFinished s) : UFinished (stepAt (UnorderedConc.step P) s i) := by
  have e : run (UnorderedConc.step P) s [i] = s := finished_stays hs [i]
  rw [run_cons] at e
  change stepAt _ s i = s at e
  rw [e]; exact hs

/-- **C90**, unordered containers: insertions, erasures and lookups at the same time, when different keys have different buckets,
whatever has happened before. Fair schedules need not end them (C78). -/
theorem C90_mixed_random (hl : KeyLaws P) (h0 : 0 < bc) (h1 : bc < 2 ^ 63) (hr : PReachable P bc ec t) (hs : Separated P t progs)
    (hn : progs ≠ []) (past : List Nat) (ε : Rat) (hε : 0 < ε) :
    ∃ L₀, ∀ L, L₀ ≤ L →
      unfinishedProbability (fun sched => UFinished (uexec P t progs (past ++ sched))) progs.length L < ε := by
  have := unfinished_tendsto (f := UnorderedConc.step P) (F := UFinished) (List.length_pos_iff.2 hn) ufinished_step
    (fun s => ∃ past, s = uexec P t progs past)
    (fun s i ⟨past, e⟩ => ⟨past ++ [i], by rw [e, uexec, uexec, run_append]; rfl⟩)
    (fun s ⟨past, e⟩ => by rw [e]; unfold uexec; rw [length_run]; simp [UnorderedConc.init])
    (fun s ⟨past, e⟩ => by rw [e]; exact mixed_finish hl h0 h1 hr hs hn past) _ ⟨past, rfl⟩ ε hε
  simpa only [uexec, run_append] using this

/-- **C90**, unordered containers: how fast. Of the sequences of `B * k` choices of a thread at most `(n ^ B - 1) ^ k` do not finish
all operations, for a number `B` that depends on the number of threads, the number of operations and the number of buckets only. -/
theorem C90_mixed_rate (hl : KeyLaws P) (h0 : 0 < bc) (h1 : bc < 2 ^ 63) (hr : PReachable P bc ec t) (hs : Separated P t progs)
    (hn : progs ≠ []) (past : List Nat) (k : Nat) :
    let n := progs.length
    let T := progs.flatten.length
    let B := T * ((n + (t.total + n) + 4) * (2 * (4 * n * (6 * n + 1) + 6 * n) + 60))
    unfinishedCount (fun sched => UFinished (uexec P t progs (past ++ sched))) n (B * k) ≤ (n ^ B - 1) ^ k := by
  have := unfinished_le (f := UnorderedConc.step P) (F := UFinished) (List.length_pos_iff.2 hn) ufinished_step
    (fun s => ∃ past, s = uexec P t progs past)
    (fun s i ⟨past, e⟩ => ⟨past ++ [i], by rw [e, uexec, uexec, run_append]; rfl⟩)
    (fun s ⟨past, e⟩ => by rw [e]; unfold uexec; rw [length_run]; simp [UnorderedConc.init])
    (fun s ⟨past, e⟩ => by rw [e]; exact mixed_finish hl h0 h1 hr hs hn past) _ ⟨past, rfl⟩ k
  simpa only [uexec, run_append, Bd.dB] using this

end

/-- The insertion and the erasure that can keep each other from returning for ever under a fair schedule (C78): a random scheduler
ends this with probability 1, also after they have hindered each other for some rounds. -/
example (ε : Rat) (hε : 0 < ε) : ∃ L₀, ∀ L, L₀ ≤ L →
    unfinishedProbability (fun sched => UFinished (uexec exP llTab llProgs ((llPre ++ [1, 0, 1, 1, 2, 1, 0, 1, 1, 2]) ++ sched)))
      3 L < ε :=
  C90_mixed_random exP_laws (by decide) (by decide) (exTab_reachable _ _ _ _) ll_separated (by simp [llProgs]) _ ε hε

/-- They have not returned after these steps. -/
example : ((uexec exP llTab llProgs (llPre ++ [1, 0, 1, 1, 2, 1, 0, 1, 1, 2])).threads.map (·.done.length)).take 2 = [0, 0] := by
  decide +kernel

/-- Insertions, erasures and lookups of C75. -/
example (k : Nat) :
    let n := mixProgs.length
    let T := mixProgs.flatten.length
    let B := T * ((n + (mixTab.total + n) + 4) * (2 * (4 * n * (6 * n + 1) + 6 * n) + 60))
    unfinishedCount (fun sched => UFinished (uexec exP mixTab mixProgs (mixSched.take 100 ++ sched))) n (B * k) ≤
      (n ^ B - 1) ^ k :=
  C90_mixed_rate (t := mixTab) (progs := mixProgs) exP_laws (by decide) (by decide) (exTab_reachable _ _ _ _) mix_separated
    (by simp [mixProgs]) (mixSched.take 100) k

end Stdgpu.Props
