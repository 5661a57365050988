import Verif.Proof.WaitFree
import Verif.Proof.VectorConc
import Verif.Proof.DequeConc2
import Verif.Proof.Fair
import Verif.Props.Vector
import Verif.Props.Deque
/-!
C68: progress of concurrent `push_*` and `pop_*`.

A thread executes its program of operations; `sched.count i` is the number of steps (accesses to shared memory) the
schedule gives to thread `i`, `done` are the operations that have returned.
-/
namespace Stdgpu.Props
open Stdgpu.SlotConc Stdgpu.Conc Stdgpu.Spec

variable {α : Type}

/-- C68. vector: if all threads push, or all threads pop, no operation ever waits for another thread: a thread completes
an operation with every 8 of its own steps, however the other threads are scheduled (also if they never run again). -/
theorem C68_vector_wait_free {v : Vector.Vec α} {l : List α} (h : Vector.Holds v l)
    (programs : List (List (Op Unit α))) (b : Bool) (hk : ∀ p ∈ programs, ∀ op ∈ p, op.isPush = b) (sched : List Nat)
    (i : Nat) (p : List (Op Unit α)) (hp : programs[i]? = some p) :
    ∃ t, (vrun v programs sched).threads[i]? = some t ∧ min p.length (sched.count i / 8) ≤ t.done.length :=
  wait_free (fr := Vector.vfront (Vector.cap v)) (fun f => match f with | .check => 2 | .rmw => 1) (by
      intro c b k f c' f' e
      rcases Vector.vfront_cases (Vector.cap v) c b k f with ⟨h1, e', -⟩ | ⟨h1, e', -⟩ | ⟨h1, -, -, -, e'⟩ | ⟨h1, -, -, e'⟩ |
        ⟨h1, -, -, -, e'⟩ | ⟨h1, -, -, e'⟩ <;> rw [e] at e' <;> simp at e'
      rw [h1, e'.2]; simp)
    (fun f => by cases f <;> simp)
    (Vector.VInv (Vector.cap v) (l : Multiset α) programs)
    (fun s hs => ⟨_, hs, fun p _ => by unfold Vector.vtick; split <;> simp⟩)
    (fun s i t hs ht => Vector.vinv_step s i t hs ht) hk v (Vector.vinv_init h programs) sched i p hp

/-- C68. deque: the same with 9 steps for an operation, at both ends. -/
theorem C68_deque_wait_free {d : Deque.Deq α} {l : List α} (h : Deque.Holds d l)
    (programs : List (List (Op Deque.Side α))) (b : Bool) (hk : ∀ p ∈ programs, ∀ op ∈ p, op.isPush = b) (sched : List Nat)
    (i : Nat) (p : List (Op Deque.Side α)) (hp : programs[i]? = some p) :
    ∃ t, (drun d programs sched).threads[i]? = some t ∧ min p.length (sched.count i / 9) ≤ t.done.length := by
  have hφ : ∀ c b k f c' f', (Deque.dfront (Deque.cap d)).step c b k f = (c', .cont f') →
      (match f' with | Deque.FPC.check => 3 | .size => 2 | .pos => 1) <
        (match f with | Deque.FPC.check => 3 | .size => 2 | .pos => 1) := by
    intro c b k f c' f' e
    rcases Deque.dfront_cases (Deque.cap d) c b k f with ⟨h1, e'⟩ | ⟨h1, e', -⟩ | ⟨h1, -, -, e'⟩ | ⟨h1, -, -, e'⟩ |
      ⟨h1, -, -, e'⟩ | ⟨h1, -, -, e'⟩ | ⟨h1, e'⟩ <;> rw [e] at e' <;> simp at e' <;> rw [h1, e'.2] <;> simp
  cases b with
  | true =>
    refine wait_free (fr := Deque.dfront (Deque.cap d)) (fun f => match f with | .check => 3 | .size => 2 | .pos => 1) hφ
      (fun f => by cases f <;> simp)
      (fun s => ∃ n f, Deque.PushInv (Deque.cap d) d.ctr.begin l programs n f s)
      (fun s ⟨n, f, hs⟩ => ⟨_, hs.r.v, fun p _ => by unfold Deque.rtick; split <;> simp⟩)
      (fun s i t ⟨n, f, hs⟩ ht => Deque.pushInv_step h.begin hk s i t n f hs ht) hk d ?_ sched i p hp
    exact ⟨_, 0, pushInv_start h programs⟩
  | false =>
    refine wait_free (fr := Deque.dfront (Deque.cap d)) (fun f => match f with | .check => 3 | .size => 2 | .pos => 1) hφ
      (fun f => by cases f <;> simp)
      (fun s => ∃ n f, Deque.PopInv (Deque.cap d) d.ctr.begin l programs n f s)
      (fun s ⟨n, f, hs⟩ => ⟨_, hs.r.v, fun p _ => by unfold Deque.rtick; split <;> simp⟩)
      (fun s i t ⟨n, f, hs⟩ ht => Deque.popInv_step h.begin h.len hk s i t n f hs ht) hk d ?_ sched i p hp
    exact ⟨_, 0, popInv_start h programs⟩

/-- Consequence: under every fair schedule all operations return. -/
theorem C68_vector_fair {v : Vector.Vec α} {l : List α} (h : Vector.Holds v l)
    (programs : List (List (Op Unit α))) (b : Bool) (hk : ∀ p ∈ programs, ∀ op ∈ p, op.isPush = b)
    (σ : Nat → Nat) (hf : Fair programs.length σ) : ∃ n, Finished (vrun v programs (upTo σ n)) :=
  finished_of_counts (ex := vrun v programs) (c := 8) (by omega)
    (fun sched i t ht => (Vector.vinv_run h programs sched).prog i t ht)
    (fun sched i p hp => C68_vector_wait_free h programs b hk sched i p hp) hf

/-- The same for the deque. -/
theorem C68_deque_fair {d : Deque.Deq α} {l : List α} (h : Deque.Holds d l)
    (programs : List (List (Op Deque.Side α))) (b : Bool) (hk : ∀ p ∈ programs, ∀ op ∈ p, op.isPush = b)
    (σ : Nat → Nat) (hf : Fair programs.length σ) : ∃ n, Finished (drun d programs (upTo σ n)) :=
  finished_of_counts (ex := drun d programs) (c := 9) (by omega)
    (fun sched i t ht => by
      obtain ⟨tick, hv⟩ := (dinv_run h programs sched).inv
      exact hv.prog i t ht)
    (fun sched i p hp => C68_deque_wait_free h programs b hk sched i p hp) hf

/-- Three threads push into a vector of capacity 3 (hypotheses of C68 and its conclusion for thread 1, which is given 16
steps; one of its pushes fails). -/
example : (vrun (Vector.create 3 : Vector.Vec Nat) [[.push () 1], [.push () 2, .push () 3], [.push () 4]]
    ([0, 0, 0, 1, 2, 2, 2, 2] ++ List.replicate 15 1)).threads.map (fun t => t.done) =
    [[], [(.push () 2, .pushed), (.push () 3, .pushFailed)], []] := by decide

/-! ### Pushes and pops at the same time -/

/-- The state of the counterexample at the beginning of every round: both threads are about to lock the only slot. -/
def Round (s : Vector.VSys Nat) : Prop :=
  (s.shared.slots.cap = 1 ∧ s.shared.slots.locks 0 = false ∧ s.shared.slots.occ 0 = true) ∧
  s.threads = [⟨[.pop ()], .slot 0 .tryLock, []⟩, ⟨[.push () 8], .slot 0 .tryLock, []⟩]

theorem round_next {s : Vector.VSys Nat} (h : Round s) {k : Nat} (hk : k ≤ 4) :
    results (run (step (Vector.vfront 1)) s ([1, 0, 1, 1].take k)) = [] ∧
    (k = 4 → Round (run (step (Vector.vfront 1)) s ([1, 0, 1, 1].take k))) := by
  obtain ⟨⟨⟨cap, locks, occ, data, err⟩, ctr⟩, ths⟩ := s
  obtain ⟨⟨h1, h2, h3⟩, h4⟩ := h
  dsimp only at h1 h2 h3 h4
  subst h1 h4
  have hk : k = 0 ∨ k = 1 ∨ k = 2 ∨ k = 3 ∨ k = 4 := by omega
  rcases hk with rfl | rfl | rfl | rfl | rfl <;>
    simp [run, stepAt, step, slotStep, h2, h3, upd, results, Round]

/-- C68: with pushes and pops at the same time an operation may never return although every thread is given infinitely
many steps. The vector has one slot, which holds an element; thread 0 pops, thread 1 pushes and gets the same slot. Thread 1
locks the slot again and again to see whether it has become free, and whenever thread 0 tries to lock it, thread 1 has the
lock. (C21: other continuations of the schedule finish.) -/
theorem C68_counterexample_mixed_livelock :
    ∃ (v : Vector.Vec Nat) (σ : Nat → Nat), Vector.Holds v [7] ∧ Fair 2 σ ∧
      ∀ n, results (vrun v [[.pop ()], [.push () 8]] (upTo σ n)) = [] := by
  let σ : Nat → Nat := fun n => if n < 4 then [0, 0, 1, 1].getD n 0 else [1, 0, 1, 1].getD ((n - 4) % 4) 0
  let v : Vector.Vec Nat := ⟨⟨1, fun _ => false, fun p => p == 0, fun p => if p = 0 then some 7 else none, false⟩, 1⟩
  have hσ : ∀ r k, k < 4 → σ (4 + 4 * r + k) = [1, 0, 1, 1].getD k 0 := by
    intro r k hk
    show (if _ then _ else _) = _
    rw [if_neg (by omega)]
    congr 1
    omega
  have hup : ∀ r k, k ≤ 4 → upTo σ (4 + 4 * r + k) = upTo σ (4 + 4 * r) ++ [1, 0, 1, 1].take k := by
    intro r k hk
    rw [upTo_add]
    congr 1
    have hk : k = 0 ∨ k = 1 ∨ k = 2 ∨ k = 3 ∨ k = 4 := by omega
    have e0 := hσ r 0 (by omega)
    have e1 := hσ r 1 (by omega)
    have e2 := hσ r 2 (by omega)
    have e3 := hσ r 3 (by omega)
    rcases hk with rfl | rfl | rfl | rfl | rfl <;> simp [upTo, List.range_succ] at * <;> simp [e0, e1, e2, e3]
  have start : Round (vrun v [[.pop ()], [.push () 8]] (upTo σ 4)) := by
    refine ⟨⟨by decide, by decide, by decide⟩, rfl⟩
  have rounds : ∀ r, Round (vrun v [[.pop ()], [.push () 8]] (upTo σ (4 + 4 * r))) := by
    intro r
    induction r with
    | zero => exact start
    | succ r ih =>
      have := (round_next ih (k := 4) (by omega)).2 rfl
      rw [show 4 + 4 * (r + 1) = 4 + 4 * r + 4 by omega, hup r 4 (by omega)]
      unfold vrun at this ⊢
      rw [run_append]
      exact this
  refine ⟨v, σ, ⟨by decide, rfl, ?_, ?_, rfl, ?_⟩, ?_, ?_⟩
  · intro p _; rfl
  · intro p hp
    have : p = 0 := by have : p < 1 := hp; omega
    subst this; rfl
  · intro p hp
    have : p = 0 := by have : p < 1 := hp; omega
    subst this; rfl
  · intro i hi n
    have : i = 0 ∨ i = 1 := by omega
    rcases this with rfl | rfl
    · exact ⟨4 + 4 * n + 1, by omega, hσ n 1 (by omega)⟩
    · exact ⟨4 + 4 * n + 2, by omega, hσ n 2 (by omega)⟩
  · intro n
    by_cases hn : n < 4
    · have : n = 0 ∨ n = 1 ∨ n = 2 ∨ n = 3 := by omega
      rcases this with rfl | rfl | rfl | rfl <;> decide
    · obtain ⟨r, k, hk, rfl⟩ : ∃ r k, k < 4 ∧ n = 4 + 4 * r + k := ⟨(n - 4) / 4, (n - 4) % 4, by omega, by omega⟩
      have := (round_next (rounds r) (k := k) (by omega)).1
      rw [hup r k (by omega)]
      unfold vrun at this ⊢
      rw [run_append]
      exact this

end Stdgpu.Props
