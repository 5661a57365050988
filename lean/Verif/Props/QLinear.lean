import Verif.Proof.QueueRun
import Verif.Props.SLinear
/-!
C71: a deque used as a queue, `push_back` and `pop_front` at the same time, as `stdgpu::queue` does
(`src/stdgpu/impl/queue_detail.cuh`).
-/
namespace Stdgpu.Props
open Stdgpu.SlotConc Stdgpu.Conc Stdgpu.Spec Stdgpu.Deque
open Stdgpu.SLin (QLinearization Linearization QRun QStep SeqRun SeqStep isQueueOp OpId)

variable {α : Type}

/-- C71. Threads push to the back and pop from the front of a deque at the same time, and the initial elements and all
pushed ones together do not exceed the capacity. Then, at every state of every execution, the operations are linearizable
as those of a queue whose pops may fail spuriously; from every state all operations can finish; and when all have finished,
the deque stores the elements of the queue, in order. -/
theorem C71_queue_linearizable {d : Deq α} {l : List α} (h : Holds d l) (programs : List (List (Op Side α)))
    (hp : ∀ p ∈ programs, ∀ op ∈ p, isQueueOp op = true)
    (hroom : l.length + programs.flatten.countP (fun op => op.isPush) ≤ cap d) (sched : List Nat) :
    (∃ L l', QLinearization (dfront (cap d)) (cap d) d l programs sched L l' ∧
      (Finished (drun d programs sched) →
        (∀ q, q < cap d → (drun d programs sched).shared.slots.data q =
          l'[ringIdx (cap d) (drun d programs sched).shared.ctr.begin q]?) ∧
        ((∀ e ∈ results (drun d programs sched), e.2 ≠ .popFailed) → Holds (drun d programs sched).shared l'))) ∧
    ∃ sched', Finished (drun d programs (sched ++ sched')) := by
  obtain ⟨L, Q, P, hi⟩ := qinv_run h programs hp hroom sched
  refine ⟨⟨L, Q.drop P.length, SLin.to_qlin hi.lin hi.c.v.prog hi.run, fun hf => ⟨q_final hi hf, fun hno => ?_⟩⟩, ?_⟩
  · have hr := qring_final hi hf
    have hle := finished_le hi hf
    have hz : ∀ b, ((drun d programs sched).threads.map (midN b)).sum = 0 := by
      intro b; rw [sum_map_eq_zero]; intro t ht; simp [midN, hf t ht]
    have hzf : ((drun d programs sched).threads.map failN).sum = 0 := by
      rw [sum_map_eq_zero]
      intro t ht
      unfold failN
      rw [List.countP_eq_zero]
      intro e he
      have := hno e (mem_results.2 ⟨t, ht, he⟩)
      obtain ⟨op, r⟩ := e
      cases r <;> simp at this ⊢
    have h1 := hi.c.sz1
    have h2 := hi.c.sz2
    have hex : SLin.exec (dfront (cap d)) d programs sched = drun d programs sched := rfl
    rw [hex] at h1 h2
    rw [hz, hz] at h1
    rw [hz, hz, hzf] at h2
    obtain ⟨l', h3, -⟩ := holds_final hr (quiet_of_finished hr.v hf) (by
      show (drun d programs sched).shared.ctr.size = _
      omega)
    have hsz := h3.size
    have hcap : cap (drun d programs sched).shared = cap d := hi.c.v.hcap
    have hdat := q_final hi hf
    have hll : l'.length = (Q.drop P.length).length := by
      have : (l'.length : Int) = (drun d programs sched).shared.ctr.size := hsz.symm
      rw [List.length_drop]; omega
    have hlc := h3.len
    have : l' = Q.drop P.length := by
      refine List.ext_getElem hll ?_
      intro k hk1 hk2
      have hb := h3.begin
      change cap (drun d programs sched).shared ≥ _ at hlc
      change (drun d programs sched).shared.ctr.begin < cap (drun d programs sched).shared at hb
      rw [hcap] at hb hlc
      have hq : ((drun d programs sched).shared.ctr.begin + k) % cap d < cap d := Nat.mod_lt _ (by omega)
      have e1 := h3.data _ (by change _ < cap (drun d programs sched).shared; rw [hcap]; exact hq)
      have e2 := hdat _ hq
      change _ = l'[ringIdx (cap (drun d programs sched).shared) (drun d programs sched).shared.ctr.begin _]? at e1
      change _ = (Q.drop P.length)[ringIdx (cap d) (drun d programs sched).shared.ctr.begin _]? at e2
      rw [hcap] at e1
      rw [e1] at e2
      rw [ring_self hb (by omega), List.getElem?_eq_getElem hk1, List.getElem?_eq_getElem hk2] at e2
      exact Option.some.inj e2
    rw [← this]
    exact h3
  · obtain ⟨sched', hs⟩ := q_can_finish hp hi
    refine ⟨sched', ?_⟩
    unfold drun
    rw [run_append]
    exact hs

theorem qstep_res {cap : Nat} {m m' : List α} {op : Op Side α} {r : Res α} (h : QStep cap m (op, r) m') :
    r ≠ .pushFailed := by
  rintro rfl
  cases op <;> exact h

theorem qrun_res {cap : Nat} {m m' : List α} {E : List (Op Side α × Res α)} (h : QRun cap m E m') :
    ∀ e ∈ E, e.2 ≠ .pushFailed := by
  induction E generalizing m with
  | nil => simp
  | cons a E ih =>
    obtain ⟨m1, h1, h2⟩ := h
    intro e he
    rcases List.mem_cons.1 he with rfl | he
    · exact qstep_res h1
    · exact ih h2 e he

theorem qrun_seq {cap : Nat} {m m' : List α} {E : List (Op Side α × Res α)} (h : QRun cap m E m')
    (hop : ∀ e ∈ E, isQueueOp e.1 = true) (hno : ∀ e ∈ E, e.2 ≠ .popFailed) :
    SeqRun (fun k => decide (k = Side.back)) cap m E m' := by
  induction E generalizing m with
  | nil => exact h
  | cons a E ih =>
    obtain ⟨m1, h1, h2⟩ := h
    refine ⟨m1, ?_, ih h2 (fun e he => hop e (List.mem_cons_of_mem _ he)) (fun e he => hno e (List.mem_cons_of_mem _ he))⟩
    have ho := hop a List.mem_cons_self
    have hn := hno a List.mem_cons_self
    obtain ⟨op, r⟩ := a
    rcases op with ⟨k, x⟩ | k <;> cases k <;> cases r <;> first | exact absurd rfl hn | (simp [isQueueOp] at ho; done) | exact False.elim h1 |
      exact h1

/-- C71. In these executions no push ever fails. -/
theorem C71_push_never_fails {d : Deq α} {l : List α} (h : Holds d l) (programs : List (List (Op Side α)))
    (hp : ∀ p ∈ programs, ∀ op ∈ p, isQueueOp op = true)
    (hroom : l.length + programs.flatten.countP (fun op => op.isPush) ≤ cap d) (sched : List Nat) :
    ∀ e ∈ results (drun d programs sched), e.2 ≠ .pushFailed := by
  obtain ⟨⟨L, l', hL, -⟩, -⟩ := C71_queue_linearizable h programs hp hroom sched
  intro e he
  obtain ⟨t, ht, he⟩ := mem_results.1 he
  obtain ⟨i, hi⟩ := List.mem_iff_getElem?.1 ht
  obtain ⟨j, hj⟩ := List.mem_iff_getElem?.1 he
  have : SLin.resAt (SLin.exec (dfront (cap d)) d programs sched) (i, j) = some e := by
    unfold SLin.resAt
    change (drun d programs sched).threads[i]?.bind _ = _
    rw [hi]; exact hj
  have h1 := hL.returned _ _ this
  exact qrun_res hL.legal e (List.mem_map.2 ⟨_, h1, rfl⟩)

/-- C71. As long as no pop has failed, these executions are linearizable in the strict sense: the deque behaves as a FIFO
queue. -/
theorem C71_queue_strict {d : Deq α} {l : List α} (h : Holds d l) (programs : List (List (Op Side α)))
    (hp : ∀ p ∈ programs, ∀ op ∈ p, isQueueOp op = true)
    (hroom : l.length + programs.flatten.countP (fun op => op.isPush) ≤ cap d) (sched : List Nat)
    (hno : ∀ e ∈ results (drun d programs sched), e.2 ≠ .popFailed) :
    ∃ L l', Linearization (dfront (cap d)) (fun k => decide (k = .back)) (cap d) d l programs sched L l' ∧
      (Finished (drun d programs sched) → Holds (drun d programs sched).shared l') := by
  obtain ⟨⟨L, l', hL, hfin⟩, -⟩ := C71_queue_linearizable h programs hp hroom sched
  refine ⟨L, l', ⟨hL.nodup, hL.returned, hL.called, hL.order, qrun_seq hL.legal ?_ ?_⟩, fun hf => (hfin hf).2 hno⟩
  · intro e he
    obtain ⟨⟨x, e'⟩, hx, rfl⟩ := List.mem_map.1 he
    have h1 := (hL.called x e' hx).2
    unfold SLin.opAt at h1
    cases h2 : programs[x.1]? with
    | none => simp [h2] at h1
    | some pr =>
      simp only [h2, Option.bind_some] at h1
      exact hp pr (List.mem_of_getElem? h2) _ (List.mem_of_getElem? h1)
  · intro e he hc
    obtain ⟨⟨x, op, r⟩, hx, rfl⟩ := List.mem_map.1 he
    simp only at hc
    subst hc
    have h1 := hL.failed x op hx
    unfold SLin.resAt at h1
    change (drun d programs sched).threads[x.1]?.bind _ = _ at h1
    cases h2 : (drun d programs sched).threads[x.1]? with
    | none => simp [h2] at h1
    | some t =>
      simp only [h2, Option.bind_some] at h1
      exact hno _ (mem_results.2 ⟨t, List.mem_of_getElem? h2, List.mem_of_getElem? h1⟩) rfl

/-- The hypotheses are met, and the conclusion is not trivial: two threads push three elements while two others pop; all
finish without a failing pop, and the one element left over is in the deque. -/
example : ∃ L l', Linearization (dfront 4) (fun k => decide (k = .back)) 4 (create 4 : Deq Nat) []
    [[.push .back 1, .push .back 2], [.push .back 3], [.pop .front], [.pop .front]]
    (List.replicate 8 0 ++ List.replicate 3 1 ++ List.replicate 3 2 ++ (List.range 80).map (· % 4)) L l' ∧
    l'.length = 1 := by
  have h1 := C71_queue_strict (create_holds (α := Nat) 4 (by omega))
    [[.push .back 1, .push .back 2], [.push .back 3], [.pop .front], [.pop .front]] (by decide) (by decide)
    (List.replicate 8 0 ++ List.replicate 3 1 ++ List.replicate 3 2 ++ (List.range 80).map (· % 4)) (by decide +kernel)
  obtain ⟨L, l', hL, hf⟩ := h1
  have h2 := (hf (by unfold Finished; decide +kernel)).size
  refine ⟨L, l', hL, ?_⟩
  have h3 : (drun (create 4 : Deq Nat) [[.push .back 1, .push .back 2], [.push .back 3], [.pop .front], [.pop .front]]
    (List.replicate 8 0 ++ List.replicate 3 1 ++ List.replicate 3 2 ++ (List.range 80).map (· % 4))).shared.ctr.size =
      1 := by decide +kernel
  have h4 := h2.symm.trans h3
  omega

/-- The execution of `C70_counterexample_queue_empty`, in which a pop fails although the queue is not empty, meets the
hypotheses of `C71_queue_linearizable`: the failure is spurious, but the queue is in order. That the initial and the pushed
elements fit is necessary by `C70_counterexample_queue_wrap`. -/
example : ∃ L l', QLinearization (dfront 2) 2 (create 2 : Deq Nat) [] emptyProgs emptySched L l' := by
  obtain ⟨⟨L, l', h, -⟩, -⟩ := C71_queue_linearizable (create_holds (α := Nat) 2 (by omega)) emptyProgs (by decide)
    (by decide) emptySched
  exact ⟨L, l', h⟩

end Stdgpu.Props
