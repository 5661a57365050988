import Verif.Proof.RandomSlots
import Verif.Proof.RandomFair
import Verif.Props.UFairness
/-
C90: mixed operations under a random scheduler.
-/
namespace Stdgpu.Props
open Stdgpu.Spec Stdgpu.Conc Stdgpu.SlotConc

variable {α : Type}

theorem vfront_phi (cap : Nat) : ∀ c b k f c' f', (Vector.vfront cap).step c b k f = (c', .cont f') →
    (match f' with | Vector.FPC.check => 1 | .rmw => 0) < (match f with | Vector.FPC.check => 1 | .rmw => 0) := by
  intro c b k f c' f' e
  rcases Vector.vfront_cases cap c b k f with ⟨h1, e', -⟩ | ⟨h1, e', -⟩ | ⟨h1, -, -, -, e'⟩ | ⟨h1, -, -, e'⟩ |
    ⟨h1, -, -, -, e'⟩ | ⟨h1, -, -, e'⟩ <;> rw [e] at e' <;> simp at e'
  rw [h1, e'.2]; simp

theorem dfront_phi (cap : Nat) : ∀ c b k f c' f', (Deque.dfront cap).step c b k f = (c', .cont f') →
    (match f' with | Deque.FPC.check => 2 | .size => 1 | .pos => 0) <
      (match f with | Deque.FPC.check => 2 | .size => 1 | .pos => 0) := by
  intro c b k f c' f' e
  rcases Deque.dfront_cases cap c b k f with ⟨h1, e'⟩ | ⟨h1, e', -⟩ | ⟨h1, -, -, e'⟩ | ⟨h1, -, -, e'⟩ |
    ⟨h1, -, -, e'⟩ | ⟨h1, -, -, e'⟩ | ⟨h1, e'⟩ <;> rw [e] at e' <;> simp at e' <;> rw [h1, e'.2] <;> simp

/-- The states of an execution on a vector. -/
def VJ (v : Vector.Vec α) (l : List α) (programs : List (List (Op Unit α))) (s : Vector.VSys α) : Prop :=
  Vector.VInv (Vector.cap v) (l : Multiset α) programs s ∧ s.threads.length = programs.length

theorem VJ.step {v : Vector.Vec α} {l : List α} {programs : List (List (Op Unit α))} {s : Vector.VSys α}
    (h : VJ v l programs s) (i : Nat) : VJ v l programs (stepAt (SlotConc.step (Vector.vfront (Vector.cap v))) s i) := by
  cases ht : s.threads[i]? with
  | none => simp only [stepAt, ht]; exact h
  | some t =>
    rw [stepAt_eq _ _ _ _ ht]
    exact ⟨Vector.vinv_step s i t h.1 ht, by simpa using h.2⟩

theorem VJ.finish {v : Vector.Vec α} {l : List α} {programs : List (List (Op Unit α))} {s : Vector.VSys α}
    (h : VJ v l programs s) : ∃ sched : List Nat, sched.length ≤ finishBound 4 programs.length programs.flatten.length ∧
      Finished (run (SlotConc.step (Vector.vfront (Vector.cap v))) s sched) := by
  have := can_finish_within (Vector.vfront (Vector.cap v)) (fun f => match f with | .check => 1 | .rmw => 0)
    (fun f => by cases f <;> simp [Vector.vfront]) (vfront_phi _)
    (Vector.VInv (Vector.cap v) (l : Multiset α) programs) (fun s i t hs ht => Vector.vinv_step s i t hs ht)
    (fun s hs => ⟨_, hs, fun p _ => by unfold Vector.vtick; split <;> simp⟩) s h.1
  rw [h.2] at this
  exact this

theorem VJ.run {v : Vector.Vec α} {l : List α} (h : Vector.Holds v l) (programs : List (List (Op Unit α))) (sched : List Nat) :
    VJ v l programs (vrun v programs sched) :=
  ⟨Vector.vinv_run h programs sched, by unfold vrun; rw [length_run]; simp [init]⟩

/-- **C90**, vector. Whatever has happened before (`past`), the probability that some push or pop has not returned after `L`
further steps of randomly chosen threads tends to 0. -/
theorem C90_vector_random {v : Vector.Vec α} {l : List α} (h : Vector.Holds v l) (programs : List (List (Op Unit α)))
    (hn : programs ≠ []) (past : List Nat) (ε : Rat) (hε : 0 < ε) :
    ∃ L₀, ∀ L, L₀ ≤ L →
      unfinishedProbability (fun sched => Finished (vrun v programs (past ++ sched))) programs.length L < ε := by
  have := unfinished_tendsto (List.length_pos_iff.2 hn) (finished_stepAt (Vector.vfront (Vector.cap v))) (VJ v l programs)
    (fun _ i hs => hs.step i) (fun _ hs => hs.2) (fun _ hs => hs.finish) _ (VJ.run h programs past) ε hε
  simpa only [vrun, run_append] using this

/-- **C90**, vector: how fast. Of the sequences of `B * k` choices of a thread at most `(n ^ B - 1) ^ k` do not finish all
operations, for a number `B` that depends on the number `n` of threads and the number `T` of operations only; there are
`(n ^ B) ^ k` sequences. -/
theorem C90_vector_rate {v : Vector.Vec α} {l : List α} (h : Vector.Holds v l) (programs : List (List (Op Unit α)))
    (hn : programs ≠ []) (past : List Nat) (k : Nat) :
    let n := programs.length
    let T := programs.flatten.length
    let B := 2 * (T * 4 * (6 * n + 1) + 6 * n)
    unfinishedCount (fun sched => Finished (vrun v programs (past ++ sched))) n (B * k) ≤ (n ^ B - 1) ^ k := by
  have := unfinished_le (List.length_pos_iff.2 hn) (finished_stepAt (Vector.vfront (Vector.cap v))) (VJ v l programs)
    (fun _ i hs => hs.step i) (fun _ hs => hs.2) (fun _ hs => hs.finish) _ (VJ.run h programs past) k
  simpa only [vrun, run_append, finishBound] using this

/-- The states of an execution on a deque with room for all pushes and elements for all pops. -/
def DJ (d : Deque.Deq α) (l : List α) (programs : List (List (Op Deque.Side α))) (s : Deque.DSys α) : Prop :=
  (∃ n, Deque.RoomInv (Deque.cap d) (l : Multiset α) programs n s) ∧ s.threads.length = programs.length

theorem DJ.step {d : Deque.Deq α} {l : List α} {programs : List (List (Op Deque.Side α))} {s : Deque.DSys α}
    (h : DJ d l programs s) (i : Nat) : DJ d l programs (stepAt (SlotConc.step (Deque.dfront (Deque.cap d))) s i) := by
  cases ht : s.threads[i]? with
  | none => simp only [stepAt, ht]; exact h
  | some t =>
    rw [stepAt_eq _ _ _ _ ht]
    obtain ⟨⟨n, hs⟩, hl⟩ := h
    exact ⟨Deque.roomInv_step n s i t hs ht, by simpa using hl⟩

theorem DJ.finish {d : Deque.Deq α} {l : List α} {programs : List (List (Op Deque.Side α))} {s : Deque.DSys α}
    (h : DJ d l programs s) : ∃ sched : List Nat, sched.length ≤ finishBound 5 programs.length programs.flatten.length ∧
      Finished (run (SlotConc.step (Deque.dfront (Deque.cap d))) s sched) := by
  have := can_finish_within (Deque.dfront (Deque.cap d)) (fun f => match f with | .check => 2 | .size => 1 | .pos => 0)
    (fun f => by cases f <;> simp [Deque.dfront]) (dfront_phi _)
    (fun s => ∃ n, Deque.RoomInv (Deque.cap d) (l : Multiset α) programs n s)
    (fun s i t ⟨n, hs⟩ ht => Deque.roomInv_step n s i t hs ht)
    (fun s ⟨n, hs⟩ => ⟨_, hs.r.v, fun p _ => by unfold Deque.rtick; split <;> simp⟩) s h.1
  rw [h.2] at this
  exact this

theorem DJ.run {d : Deque.Deq α} {l : List α} (h : Deque.Holds d l) (programs : List (List (Op Deque.Side α)))
    (hpush : l.length + programs.flatten.countP (fun op => op.isPush) ≤ Deque.cap d)
    (hpop : programs.flatten.countP (fun op => !op.isPush) ≤ l.length) (sched : List Nat) :
    DJ d l programs (drun d programs sched) :=
  ⟨room_run h programs hpush hpop sched, by unfold drun; rw [length_run]; simp [init]⟩

/-- **C90**, deque, while there is room for all pushes and there are elements for all pops (else a pop may wait for ever,
C26). -/
theorem C90_deque_random {d : Deque.Deq α} {l : List α} (h : Deque.Holds d l) (programs : List (List (Op Deque.Side α)))
    (hpush : l.length + programs.flatten.countP (fun op => op.isPush) ≤ Deque.cap d)
    (hpop : programs.flatten.countP (fun op => !op.isPush) ≤ l.length) (hn : programs ≠ []) (past : List Nat) (ε : Rat)
    (hε : 0 < ε) :
    ∃ L₀, ∀ L, L₀ ≤ L →
      unfinishedProbability (fun sched => Finished (drun d programs (past ++ sched))) programs.length L < ε := by
  have := unfinished_tendsto (List.length_pos_iff.2 hn) (finished_stepAt (Deque.dfront (Deque.cap d))) (DJ d l programs)
    (fun _ i hs => hs.step i) (fun _ hs => hs.2) (fun _ hs => hs.finish) _ (DJ.run h programs hpush hpop past) ε hε
  simpa only [drun, run_append] using this

/-- **C90**, deque: how fast. -/
theorem C90_deque_rate {d : Deque.Deq α} {l : List α} (h : Deque.Holds d l) (programs : List (List (Op Deque.Side α)))
    (hpush : l.length + programs.flatten.countP (fun op => op.isPush) ≤ Deque.cap d)
    (hpop : programs.flatten.countP (fun op => !op.isPush) ≤ l.length) (hn : programs ≠ []) (past : List Nat) (k : Nat) :
    let n := programs.length
    let T := programs.flatten.length
    let B := 2 * (T * 5 * (6 * n + 1) + 6 * n)
    unfinishedCount (fun sched => Finished (drun d programs (past ++ sched))) n (B * k) ≤ (n ^ B - 1) ^ k := by
  have := unfinished_le (List.length_pos_iff.2 hn) (finished_stepAt (Deque.dfront (Deque.cap d))) (DJ d l programs)
    (fun _ i hs => hs.step i) (fun _ hs => hs.2) (fun _ hs => hs.finish) _ (DJ.run h programs hpush hpop past) k
  simpa only [drun, run_append, finishBound] using this

/-- A full vector of one element. -/
def oneVec : Vector.Vec Nat := ⟨⟨1, fun _ => false, fun p => p == 0, fun p => if p = 0 then some 7 else none, false⟩, 1⟩

/-- A deque of capacity 4 with the elements 1 and 2, which start in the last slot. -/
def twoDeq : Deque.Deq Nat := ⟨⟨4, fun _ => false, fun p => p == 3 || p == 0,
  fun p => if p = 3 then some 1 else if p = 0 then some 2 else none, false⟩, ⟨2, 3, 1⟩⟩

/-- The pop and the push that can keep each other from returning for ever under a fair schedule (C68): a random scheduler ends
this with probability 1, also after they have hindered each other for a while. -/
example (ε : Rat) (hε : 0 < ε) : ∃ L₀, ∀ L, L₀ ≤ L →
    unfinishedProbability (fun sched => Finished (vrun oneVec [[.pop ()], [.push () 8]]
      ([0, 0, 1, 1, 1, 0, 1, 1, 1, 0, 1, 1] ++ sched))) 2 L < ε :=
  C90_vector_random (l := [7]) ⟨by decide, rfl, by decide, by decide, rfl, by decide⟩ _ (by simp) _ ε hε

/-- They have not returned after these steps. -/
example : (vrun oneVec [[.pop ()], [.push () 8]] [0, 0, 1, 1, 1, 0, 1, 1, 1, 0, 1, 1]).threads.map (·.done.length) = [0, 0] := by
  decide

/-- Two pushes and two pops on a deque. -/
example (ε : Rat) (hε : 0 < ε) : ∃ L₀, ∀ L, L₀ ≤ L →
    unfinishedProbability (fun sched => Finished (drun twoDeq [[.push .back 3, .pop .front], [.push .front 4], [.pop .back]]
      ([0, 0, 1, 2, 2] ++ sched))) 3 L < ε :=
  C90_deque_random (l := [1, 2]) ⟨by decide, by decide, rfl, by decide, by decide, by decide, by decide, rfl, by decide⟩ _
    (by decide) (by decide) (by simp) _ ε hε

/-! ### Unordered containers -/

/-- A finite schedule followed by an infinite one. -/
def after (past : List Nat) (σ : Nat → Nat) (m : Nat) : Nat :=
  if h : m < past.length then past[m] else σ (m - past.length)

theorem upTo_after (past : List Nat) (σ : Nat → Nat) (N : Nat) :
    upTo (after past σ) (past.length + N) = past ++ upTo σ N := by
  apply List.ext_getElem
  · simp [upTo]
  · intro i h1 h2
    simp only [upTo, List.length_map, List.length_range] at h1
    rw [List.getElem_append]
    split
    · simp [upTo, after, *]
    · simp [upTo, after, *]

theorem fair_after {k : Nat} {σ : Nat → Nat} (past : List Nat) (h : Fair k σ) : Fair k (after past σ) := by
  intro i hi n
  obtain ⟨m, hm, e⟩ := h i hi n
  exact ⟨past.length + m, by omega, by simp [after, e]⟩

section Unordered
open Stdgpu.Unordered Stdgpu.UnorderedConc
variable {K V : Type} {P : Params K V} {bc ec : Nat} {t : Tab V} {progs : List (List (UnorderedConc.Op K V))}

/-- What finishes under every fair schedule finishes with probability 1 under a random scheduler. -/
theorem urandom_of_fair (hn : progs ≠ []) (past : List Nat)
    (hf : ∀ σ, Fair progs.length σ → ∃ N, ∀ n, N ≤ n → UFinished (uexec P t progs (upTo σ n))) (ε : Rat) (hε : 0 < ε) :
    ∃ L₀, ∀ L, L₀ ≤ L →
      unfinishedProbability (fun sched => UFinished (uexec P t progs (past ++ sched))) progs.length L < ε := by
  have := Conc.fair_tendsto (f := UnorderedConc.step P) (F := UFinished) (List.length_pos_iff.2 hn)
    (fun s i hs => by
      have e : run (UnorderedConc.step P) s [i] = s := finished_stays hs [i]
      rw [run_cons] at e
      change stepAt _ s i = s at e
      rw [e]; exact hs)
    (uexec P t progs past)
    (fun σ hσ => by
      obtain ⟨N, hN⟩ := hf _ (fair_after past hσ)
      refine ⟨N, ?_⟩
      have := hN (past.length + N) (by omega)
      rwa [upTo_after, uexec, run_append] at this)
    ε hε
  simpa only [uexec, run_append] using this

/-- **C90**, unordered containers: threads that insert and look up, whatever has happened before. -/
theorem C90_inserts_random (hl : KeyLaws P) (h0 : 0 < bc) (h1 : bc < 2 ^ 63) (hr : PReachable P bc ec t) (hp : NoErase progs)
    (hn : progs ≠ []) (past : List Nat) (ε : Rat) (hε : 0 < ε) :
    ∃ L₀, ∀ L, L₀ ≤ L →
      unfinishedProbability (fun sched => UFinished (uexec P t progs (past ++ sched))) progs.length L < ε :=
  urandom_of_fair hn past (fun σ hσ => C69_inserts_fair hl h0 h1 hr hp σ hσ) ε hε

/-- **C90**, unordered containers: threads that erase and look up, whatever has happened before. -/
theorem C90_erases_random (hl : KeyLaws P) (h0 : 0 < bc) (h1 : bc < 2 ^ 63) (hr : PReachable P bc ec t) (hp : NoInsert progs)
    (hn : progs ≠ []) (past : List Nat) (ε : Rat) (hε : 0 < ε) :
    ∃ L₀, ∀ L, L₀ ≤ L →
      unfinishedProbability (fun sched => UFinished (uexec P t progs (past ++ sched))) progs.length L < ε :=
  urandom_of_fair hn past (fun σ hσ => C69_erases_fair hl h0 h1 hr hp σ hσ) ε hε

/-- Three threads insert (two of them the same key) into a container whose entries are all in one bucket, after some steps. -/
example (ε : Rat) (hε : 0 < ε) : ∃ L₀, ∀ L, L₀ ≤ L →
    unfinishedProbability (fun sched => UFinished (uexec exC (exTab exC 1 3 [.insert (1, 10), .insert (2, 20)])
      [[.insert (3, 30)], [.insert (3, 31)], [.find 3, .find 3]] ([0, 1, 1, 2, 0, 0, 1] ++ sched))) 3 L < ε :=
  C90_inserts_random exC_laws (by decide) (by decide) (exTab_reachable _ _ _ _) (by simp [NoErase]) (by simp) _ ε hε

end Unordered

end Stdgpu.Props
