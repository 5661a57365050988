import Verif.Proof.Mutex
/-!
Property theorems C14, C15 (mutex_array, try_lock).
-/
namespace Stdgpu.Props
open Stdgpu.Bitset Stdgpu.Spec Stdgpu.Mutex Stdgpu.Conc

variable {w : Nat}

/-- C14 (mutual exclusion). For every schedule of every set of threads that follow the protocol (critical section
only after a successful `try_lock`, unlock afterwards): two different threads never hold the same mutex, where a
thread holds `n` when in the sequence of its accesses the successful acquisitions of `n` outnumber the releases; and
a thread in its critical section holds each of its mutexes exactly once. -/
theorem C14_mutual_exclusion (b₀ : Bitset w) (hwf : WF b₀) (programs : List (List Req))
    (hv : ValidPrograms b₀.size programs) (sched : List Nat) :
    let s := run step (init b₀ programs) sched
    s.shared.ub = false ∧
    (∀ (i j : Nat) (ti tj : Thread), i ≠ j → s.threads[i]? = some ti → s.threads[j]? = some tj →
      ∀ n, n < b₀.size → ¬ (0 < balance ti.acts n ∧ 0 < balance tj.acts n)) ∧
    (∀ t ∈ s.threads, ∀ r, t.pc = .inside r → ∀ n ∈ r.locks, balance t.acts n = 1) := by
  intro s
  have h := inv_run b₀ hwf programs hv sched
  have hle : ∀ n, n < b₀.size → (s.threads.map (heldN n)).sum ≤ 1 := by
    intro n hn
    have := h.lock n hn
    have h1 : (bitAt s.shared.bits n).toNat ≤ 1 := Bool.toNat_le _
    show (s.threads.map (heldN n)).sum ≤ 1
    simp only [s] at *
    omega
  refine ⟨h.ub, ?_, ?_⟩
  · rintro i j ti tj hij hi hj n hn ⟨h1, h2⟩
    rw [h.bal ti (List.mem_of_getElem? hi)] at h1
    rw [h.bal tj (List.mem_of_getElem? hj)] at h2
    have := add_le_sum_map (heldN n) s.threads i j ti tj hij hi hj
    have := hle n hn
    omega
  · intro t ht r hr n hn
    have hs := h.shape t ht
    simp only [Shape, hr] at hs
    have hns := hs.1.1 n hn
    rw [h.bal t ht]
    have h1 := le_sum_map (heldN n) s.threads t ht
    have h2 := hle n hns
    have h3 : 0 < heldN n t := by simp only [heldN, heldList, hr]; exact List.count_pos_iff.2 hn
    omega

/-- C14 (mutual exclusion of critical sections): two threads are never simultaneously in critical sections that
share a mutex. -/
theorem C14_critical_sections_disjoint (b₀ : Bitset w) (hwf : WF b₀) (programs : List (List Req))
    (hv : ValidPrograms b₀.size programs) (sched : List Nat) (i j : Nat) (ti tj : Thread) (ri rj : Req)
    (hij : i ≠ j)
    (hi : (run step (init b₀ programs) sched).threads[i]? = some ti)
    (hj : (run step (init b₀ programs) sched).threads[j]? = some tj)
    (hri : ti.pc = .inside ri) (hrj : tj.pc = .inside rj) : ∀ n ∈ ri.locks, n ∉ rj.locks := by
  intro n h1 h2
  obtain ⟨-, hx, hin⟩ := C14_mutual_exclusion b₀ hwf programs hv sched
  have h := inv_run b₀ hwf programs hv sched
  have hs := h.shape ti (List.mem_of_getElem? hi)
  simp only [Shape, hri] at hs
  have a := hin ti (List.mem_of_getElem? hi) ri hri n h1
  have b := hin tj (List.mem_of_getElem? hj) rj hrj n h2
  exact hx i j ti tj hij hi hj n (hs.1.1 n h1) ⟨by omega, by omega⟩

/-- C14 (free mutexes). `try_lock` succeeds exactly on a free mutex, locks it, and touches no other mutex. -/
theorem C14_try_lock_iff_free (b : Bitset w) (h : WF b) (n : Nat) (hn : n < b.size) :
    ∃ ok b', tryLock1 b n = some (ok, b') ∧ (ok = true ↔ locked b n = some false) ∧
      locked b' n = some true ∧ ∀ m, m < b.size → m ≠ n → locked b' m = locked b m := by
  obtain ⟨b', e1, e2, e3, e4⟩ := set_bitAt h n hn true
  refine ⟨!bitAt b n, b', by simp only [tryLock1, e1, Option.map_some], ?_, ?_, ?_⟩
  · rw [locked, test_refines h n hn]; simp
  · rw [locked, test_refines e3 n (by omega), e4 n hn]; simp
  · intro m hm hmn
    rw [locked, locked, test_refines e3 m (by omega), test_refines h m hm, e4 m hm]
    simp [hmn]

/-- C14 (quiescence). When all threads are finished every mutex has the state it had initially; in particular
`valid()` is true if it was at the start. -/
theorem C14_valid_after_release (b₀ : Bitset w) (hwf : WF b₀) (programs : List (List Req))
    (hv : ValidPrograms b₀.size programs) (sched : List Nat) :
    let s := run step (init b₀ programs) sched
    (∀ t ∈ s.threads, t.pc = .idle) →
    (∀ n, n < b₀.size → locked s.shared.bits n = locked b₀ n) ∧
    (Mutex.valid b₀ = true → Mutex.valid s.shared.bits = true) := by
  intro s hidle
  have h := inv_run b₀ hwf programs hv sched
  have hbits : ∀ n, n < b₀.size → bitAt s.shared.bits n = bitAt b₀ n := by
    intro n hn
    have hl := h.lock n hn
    have hz : (s.threads.map (heldN n)).sum = 0 := by
      rw [sum_map_eq_zero]
      intro t ht
      simp [heldN, heldList, hidle t ht]
    have : (bitAt b₀ n).toNat = (bitAt s.shared.bits n).toNat := by
      simp only [s] at *; omega
    revert this
    cases bitAt b₀ n <;> cases bitAt s.shared.bits n <;> simp
  have hsz : s.shared.bits.size = b₀.size := h.size
  refine ⟨?_, ?_⟩
  · intro n hn
    rw [locked, locked, test_refines h.wf n (by rw [h.size]; exact hn), test_refines hwf n hn]
    exact congrArg some (hbits n hn)
  · intro hval
    have habs : Bitset.abs s.shared.bits = Bitset.abs b₀ := by
      unfold Bitset.abs
      rw [hsz]
      apply List.map_congr_left
      intro n hn
      exact hbits n (List.mem_range.1 hn)
    simp only [Mutex.valid, beq_iff_eq] at *
    rw [count_eq hwf] at hval
    have : count s.shared.bits = (Bitset.abs s.shared.bits).count true := count_eq h.wf
    rw [this, habs, hval]

/-- Number of own steps after which a thread with this program has certainly finished. -/
def programSteps (p : List Req) : Nat := (p.map (fun r => 2 * r.locks.length + r.unlockOrder.length + 5)).sum

def remaining (t : Thread) : Nat := programSteps t.todo + match t.pc with
  | .idle => 0
  | .acquire r held rest => 2 * rest.length + held.length + r.unlockOrder.length + 4
  | .rollback _ held _ => held.length + 1
  | .inside r => r.unlockOrder.length + 2
  | .leave _ held => held.length + 1

theorem mutex_dec (m : Mem w) (t : Thread) (hD : ¬ (t.todo = [] ∧ t.pc = .idle)) :
    remaining (step m t).2 < remaining t := by
  obtain ⟨todo, pc, done, acts⟩ := t
  cases pc with
  | idle =>
    cases todo with
    | nil => simp at hD
    | cons r todo => simp [step, remaining, programSteps]; omega
  | acquire r held rest =>
    cases rest with
    | nil => simp [step, remaining]; omega
    | cons n rest =>
      simp only [step]
      split
      · simp [remaining]
      · split <;> simp [remaining] <;> omega
  | rollback r held res =>
    cases held with
    | nil => simp [step, remaining]
    | cons n held => simp only [step]; split <;> simp [remaining]
  | inside r => simp [step, remaining]
  | leave r held =>
    cases held with
    | nil => simp [step, remaining]
    | cons n held => simp only [step]; split <;> simp [remaining]

/-- C14/C15 (never waits). Every thread finishes its whole program within a number of own steps that depends only on
the program: no call waits for another thread, in no schedule. -/
theorem C14_always_finishes (b₀ : Bitset w) (programs : List (List Req)) (sched : List Nat) (i : Nat)
    (p : List Req) (hp : programs[i]? = some p) (hc : programSteps p ≤ sched.count i) :
    ∃ t, (run step (init b₀ programs) sched).threads[i]? = some t ∧ t.todo = [] ∧ t.pc = .idle := by
  refine own_steps_finish step remaining _ mutex_dec ?_ i sched (init b₀ programs)
    ⟨p, .idle, [], []⟩ (by simp [init, hp]) (by simpa [remaining] using hc)
  rintro m ⟨todo, pc, done, acts⟩ ⟨h1, h2⟩
  simp only at h1 h2
  subst h1; subst h2
  simp [step]

/-- C15 (all-or-nothing, without interference). `try_lock(l1,…,ln)` (also for aliasing arguments): either it returns
-1, all mutexes were free and exactly they are locked now; or it returns the index of the first one it could not
take — the ones before were free, it was locked (or is a repetition of an earlier one) — and no mutex changed. -/
theorem C15_try_lock_sequential (b : Bitset w) (h : WF b) (n1 n2 : Nat) (ns : List Nat)
    (hv : ∀ m ∈ n1 :: n2 :: ns, m < b.size) :
    ∃ res b', tryLockAll b n1 n2 ns = some (res, b') ∧
      ((res = -1 ∧ (n1 :: n2 :: ns).Nodup ∧ (∀ m ∈ n1 :: n2 :: ns, locked b m = some false) ∧
          ∀ m, m < b.size → locked b' m = some (decide (m ∈ n1 :: n2 :: ns) || (locked b m == some true))) ∨
       (∃ k : Nat, ∃ x, res = k ∧ (n1 :: n2 :: ns)[k]? = some x ∧
          (∀ m ∈ (n1 :: n2 :: ns).take k, locked b m = some false) ∧ ((n1 :: n2 :: ns).take k).Nodup ∧
          (locked b x = some true ∨ x ∈ (n1 :: n2 :: ns).take k) ∧
          ∀ m, m < b.size → locked b' m = locked b m)) := by
  obtain ⟨res, b', e1, e2, e3, e4⟩ := tryLockAux_spec h 0 (le_refl _) n1 (n2 :: ns) hv
  refine ⟨res, b', e1, ?_⟩
  have hl : ∀ m, m < b.size → locked b m = some (bitAt b m) := fun m hm => test_refines h m hm
  have hl' : ∀ m, m < b.size → locked b' m = some (bitAt b' m) :=
    fun m hm => test_refines e3 m (by omega)
  rcases e4 with ⟨a, a2, a3, a4⟩ | ⟨k, x, a, a2, a3, a4, a5, a6⟩
  · left
    refine ⟨a, a2, ?_, ?_⟩
    · intro m hm; rw [hl m (hv m hm), a3 m hm]
    · intro m hm
      rw [hl' m hm, hl m hm, a4 m hm]
      cases bitAt b m <;> simp
  · right
    refine ⟨k, x, by simpa using a, a2, ?_, a3, ?_, ?_⟩
    · intro m hm; rw [hl m (hv m (List.mem_of_mem_take hm)), a4 m hm]
    · rcases a5 with a5 | a5
      · left; rw [hl x (hv x (List.mem_of_getElem? a2)), a5]
      · exact Or.inr a5
    · intro m hm; rw [hl' m hm, hl m hm, a6 m hm]

/-- C15 (all-or-nothing under interference). In every schedule, the accesses of a thread that is not inside a request
are exactly the accesses of its finished requests, each of the form prescribed by its result (`Spec.segment`): result
-1 means all were acquired; result i means the first i were acquired, number i was refused and all acquired ones
were released again. Hence the thread holds nothing. -/
theorem C15_try_lock_all_or_nothing (b₀ : Bitset w) (hwf : WF b₀) (programs : List (List Req))
    (hv : ValidPrograms b₀.size programs) (sched : List Nat) :
    let s := run step (init b₀ programs) sched
    ∀ t ∈ s.threads,
      (t.pc = .idle → t.acts = t.done.flatMap segment ∧ ∀ n, balance t.acts n = 0) ∧
      (∀ r, t.pc = .inside r → ∃ D, t.done = D ++ [(r, -1)] ∧
        t.acts = D.flatMap segment ++ r.locks.map acquired) := by
  intro s t ht
  have h := inv_run b₀ hwf programs hv sched
  have hs := h.shape t ht
  refine ⟨?_, ?_⟩
  · intro hi
    simp only [Shape, hi] at hs
    refine ⟨hs, fun n => ?_⟩
    rw [h.bal t ht]; simp [heldN, heldList, hi]
  · intro r hr
    simp only [Shape, hr] at hs
    exact hs.2

example : ∃ s : Sys (Mem (2 ^ 5)) Thread,
    s = run step (init (create (2 ^ 5) 40) [[⟨[3, 35], [3, 35]⟩], [⟨[7, 35], [35, 7]⟩]]) [0, 1, 0, 1, 0, 1, 1, 1, 0] ∧
    s.threads.map (·.done) = [[(⟨[3, 35], [3, 35]⟩, -1)], [(⟨[7, 35], [35, 7]⟩, 1)]] ∧
    s.threads.map (·.pc) = [.inside ⟨[3, 35], [3, 35]⟩, .idle] := ⟨_, rfl, by decide, by decide⟩

example : ValidPrograms 40 [[⟨[3, 35], [3, 35]⟩], [⟨[7, 35], [35, 7]⟩]] := by
  unfold ValidPrograms; decide

end Stdgpu.Props
