import Verif.Proof.ProgramOrder
import Verif.Props.QLinear
/-!
C96: what one thread pushes, and what one thread pops, keeps the order of its program.
-/
namespace Stdgpu.Props
open Stdgpu.SlotConc Stdgpu.Conc Stdgpu.Spec Stdgpu.SLin

variable {α : Type}

theorem Linearization.core {C K F : Type} {fr : Front C K F} {atBack : K → Bool} {cap : Nat} {m : Mem C α} {l l' : List α}
    {progs : List (List (Op K α))} {sched : List Nat} {L : List (OpId × Op K α × Res α)}
    (h : Linearization fr atBack cap m l progs sched L l') : Core fr m progs sched L :=
  ⟨h.nodup, h.returned, h.called, h.order⟩

theorem QLinearization.core {C K F : Type} {fr : Front C K F} {cap : Nat} {m : Mem C α} {l l' : List α}
    {progs : List (List (Op K α))} {sched : List Nat} {L : List (OpId × Op K α × Res α)}
    (h : QLinearization fr cap m l progs sched L l') : Core fr m progs sched L :=
  ⟨h.nodup, h.returned, h.called, h.order⟩

/-- C96. Every linearization (C70) contains the calls of each thread that have returned in the order of the program of
the thread. -/
theorem C96_linearization_program_order {C K F : Type} {fr : Front C K F} {atBack : K → Bool} {cap : Nat} {m : Mem C α}
    {l l' : List α} {progs : List (List (Op K α))} {sched : List Nat} {L : List (OpId × Op K α × Res α)}
    (h : Linearization fr atBack cap m l progs sched L l') (i : Nat) :
    (callsBy (SLin.exec fr m progs sched) i).Sublist (L.map (·.2)) := (Linearization.core h).thread_sublist i

theorem ops_of {C K F : Type} {fr : Front C K F} {m : Mem C α} {progs : List (List (Op K α))} {sched : List Nat}
    {L : List (OpId × Op K α × Res α)} (h : Core fr m progs sched L) (P : Op K α → Prop)
    (hp : ∀ p ∈ progs, ∀ op ∈ p, P op) : ∀ e ∈ L.map (·.2), P e.1 := by
  intro e he
  obtain ⟨a, ha, rfl⟩ := List.mem_map.1 he
  have hop := (h.called a.1 a.2 ha).2
  simp only [opAt, Option.bind_eq_some_iff] at hop
  obtain ⟨p, h1, h2⟩ := hop
  exact hp p (List.mem_of_getElem? h1) _ (List.mem_of_getElem? h2)

section
open Stdgpu.Vector

/-- C96. Threads push to a vector. When all have finished, the vector holds its old elements followed by the values that
were pushed successfully, and the values pushed by each thread are in the order of its program. -/
theorem C96_vector_push {v : Vec α} {l : List α} (h : Holds v l) (programs : List (List (Op Unit α)))
    (hp : ∀ p ∈ programs, ∀ op ∈ p, op.isPush = true) (sched : List Nat) (hf : Finished (vrun v programs sched)) :
    ∃ a, a.Perm (pushedVals (vrun v programs sched)) ∧
      (∀ p, p < cap v → (vrun v programs sched).shared.slots.data p = (l ++ a)[p]?) ∧
      size (vrun v programs sched).shared = (l ++ a).length ∧
      ∀ i, (pushedBy () (vrun v programs sched) i).Sublist a := by
  obtain ⟨L, l', hL, hfin⟩ := C70_vector_push h programs hp sched
  obtain ⟨h1, h2⟩ := hfin hf
  have hc := Linearization.core hL
  have h3 := seqRun_push hL.legal (ops_of hc _ hp)
  have e1 : pushes (fun _ : Unit => !true) (L.map (·.2)) = [] := by simp [pushes]
  have e2 : pushes (fun _ : Unit => true) (L.map (·.2)) = (L.map (·.2)).filterMap pushVal := by simp [pushes]
  rw [e1, e2, List.reverse_nil, List.nil_append] at h3
  refine ⟨(L.map (·.2)).filterMap pushVal, ?_, by rw [← h3]; exact h1, by rw [← h3]; exact h2, ?_⟩
  · exact (hc.perm (pushInv_run h programs hp sched).v.prog hf).filterMap _
  · intro i
    have h5 := (hc.thread_sublist i).filterMap (pushVal (K := Unit) (α := α))
    have e3 : pushedBy () (vrun v programs sched) i = (callsBy (SLin.exec (vfront (cap v)) v programs sched) i).filterMap
      pushVal := by
      unfold pushedBy
      simp only [if_true]
      rfl
    rw [e3]; exact h5

/-- C96. Threads pop from a vector. At every moment the values that have been popped by each thread are in the order in
which they leave the vector, from its back to its front; and when all have finished the vector holds the elements that
were not popped. -/
theorem C96_vector_pop {v : Vec α} {l : List α} (h : Holds v l) (programs : List (List (Op Unit α)))
    (hp : ∀ p ∈ programs, ∀ op ∈ p, op.isPush = false) (sched : List Nat) :
    ∃ l' r, l = l' ++ r.reverse ∧ (∀ i, (poppedBy () (vrun v programs sched) i).Sublist r) ∧
      (Finished (vrun v programs sched) →
        r.Perm (poppedVals (vrun v programs sched)) ∧
        (∀ p, p < cap v → (vrun v programs sched).shared.slots.data p = l'[p]?) ∧
        size (vrun v programs sched).shared = l'.length) := by
  obtain ⟨L, l', hL, hfin⟩ := C70_vector_pop h programs hp sched
  have hc := Linearization.core hL
  have h3 := seqRun_pop hL.legal (ops_of hc _ hp)
  have e1 : pops (fun _ : Unit => !true) (L.map (·.2)) = [] := by simp [pops]
  have e2 : pops (fun _ : Unit => true) (L.map (·.2)) = (L.map (·.2)).filterMap popVal := by simp [pops]
  rw [e1, e2, List.nil_append] at h3
  refine ⟨l', (L.map (·.2)).filterMap popVal, h3, ?_, fun hf => ⟨?_, hfin hf⟩⟩
  · intro i
    have h5 := (hc.thread_sublist i).filterMap (popVal (K := Unit) (α := α))
    have e3 : poppedBy () (vrun v programs sched) i = (callsBy (SLin.exec (vfront (cap v)) v programs sched) i).filterMap
      popVal := by
      unfold poppedBy
      simp only [if_true]
      rfl
    rw [e3]; exact h5
  · exact (hc.perm (vinv_run h programs sched |>.prog) hf).filterMap _

end

section
open Stdgpu.Deque

theorem side_not (k : Side) : (!decide (k = .back)) = decide (k = .front) := by cases k <;> rfl

theorem pushes_side (k : Side) (E : List (Op Side α × Res α)) :
    pushes (fun j => decide (j = k)) E = E.filterMap (fun e => if e.1.kind = k then pushVal e else none) := by
  simp [pushes]

theorem pops_side (k : Side) (E : List (Op Side α × Res α)) :
    pops (fun j => decide (j = k)) E = E.filterMap (fun e => if e.1.kind = k then popVal e else none) := by
  simp [pops]

/-- C96. Threads push to both ends of a deque. When all have finished, the deque holds, from front to back, the values
pushed to its front in reverse order, its old elements, and the values pushed to its back; and the values pushed by each
thread to one end are in the order of its program. -/
theorem C96_deque_push {d : Deq α} {l : List α} (h : Holds d l) (programs : List (List (Op Side α)))
    (hp : ∀ p ∈ programs, ∀ op ∈ p, op.isPush = true) (sched : List Nat) (hf : Finished (drun d programs sched)) :
    ∃ f b, f.Perm (pushedAt .front (drun d programs sched)) ∧ b.Perm (pushedAt .back (drun d programs sched)) ∧
      (∀ q, q < cap d → (drun d programs sched).shared.slots.data q =
        (f.reverse ++ l ++ b)[ringIdx (cap d) (drun d programs sched).shared.ctr.begin q]?) ∧
      size (drun d programs sched).shared = (f.reverse ++ l ++ b).length ∧
      ∀ i, (pushedBy .front (drun d programs sched) i).Sublist f ∧ (pushedBy .back (drun d programs sched) i).Sublist b := by
  obtain ⟨L, l', hL, hfin⟩ := C70_deque_push h programs hp sched
  obtain ⟨h1, h2⟩ := hfin hf
  have hc := Linearization.core hL
  have h3 := seqRun_push hL.legal (ops_of hc _ hp)
  simp only [side_not, pushes_side] at h3
  have hperm := hc.perm (C25_conservation h programs sched).2.1 hf
  refine ⟨_, _, hperm.filterMap _, hperm.filterMap _, by rw [← h3]; exact h1, by rw [← h3]; exact h2, fun i => ⟨?_, ?_⟩⟩
  · exact (hc.thread_sublist i).filterMap _
  · exact (hc.thread_sublist i).filterMap _

/-- C96. Threads pop from both ends of a deque. At every moment the values that each thread has popped from one end are
in the order in which they leave the deque at this end. -/
theorem C96_deque_pop {d : Deq α} {l : List α} (h : Holds d l) (programs : List (List (Op Side α)))
    (hp : ∀ p ∈ programs, ∀ op ∈ p, op.isPush = false) (sched : List Nat) :
    ∃ f l' b, l = f ++ l' ++ b.reverse ∧
      (∀ i, (poppedBy .front (drun d programs sched) i).Sublist f ∧ (poppedBy .back (drun d programs sched) i).Sublist b) ∧
      (Finished (drun d programs sched) →
        f.Perm (poppedAt .front (drun d programs sched)) ∧ b.Perm (poppedAt .back (drun d programs sched)) ∧
        (∀ q, q < cap d → (drun d programs sched).shared.slots.data q =
          l'[ringIdx (cap d) (drun d programs sched).shared.ctr.begin q]?) ∧
        size (drun d programs sched).shared = l'.length) := by
  obtain ⟨L, l', hL, hfin⟩ := C70_deque_pop h programs hp sched
  have hc := Linearization.core hL
  have h3 := seqRun_pop hL.legal (ops_of hc _ hp)
  simp only [side_not, pops_side] at h3
  refine ⟨_, l', _, h3, fun i => ⟨?_, ?_⟩, fun hf => ?_⟩
  · exact (hc.thread_sublist i).filterMap _
  · exact (hc.thread_sublist i).filterMap _
  · have hperm := hc.perm (C25_conservation h programs sched).2.1 hf
    exact ⟨hperm.filterMap _, hperm.filterMap _, hfin hf⟩

theorem queue_calls {d : Deq α} {programs : List (List (Op Side α))} {sched : List Nat}
    (hprog : ∀ (i : Nat) (t : DThread α), (drun d programs sched).threads[i]? = some t →
      programs[i]? = some (t.done.map (·.1) ++ t.todo))
    (hp : ∀ p ∈ programs, ∀ op ∈ p, isQueueOp op = true) (i : Nat) :
    ∀ e ∈ callsBy (drun d programs sched) i, isQueueOp e.1 = true := by
  intro e he
  unfold callsBy at he
  split at he
  · simp at he
  · next t ht =>
    exact hp _ (List.mem_of_getElem? (hprog i t ht)) _ (List.mem_append_left _ (List.mem_map_of_mem he))

theorem queue_pushedBy {E : List (Op Side α × Res α)} (h : ∀ e ∈ E, isQueueOp e.1 = true) :
    E.filterMap (fun e => if e.1.kind = .back then pushVal e else none) = E.filterMap pushVal := by
  refine List.filterMap_congr (fun e he => ?_)
  have := h e he
  obtain ⟨op, r⟩ := e
  cases op with
  | push k x => cases k <;> simp_all [isQueueOp, Op.kind]
  | pop k => cases r <;> simp [pushVal]

theorem queue_poppedBy {E : List (Op Side α × Res α)} (h : ∀ e ∈ E, isQueueOp e.1 = true)
    (h2 : ∀ e ∈ E, ∀ v, e.2 = .popped v → e.1.isPush = false) :
    E.filterMap (fun e => if e.1.kind = .front then popVal e else none) = E.filterMap popVal := by
  refine List.filterMap_congr (fun e he => ?_)
  have := h e he
  have h2 := h2 e he
  obtain ⟨op, r⟩ := e
  cases op with
  | pop k => cases k <;> simp_all [isQueueOp, Op.kind]
  | push k x => cases r <;> simp_all [popVal, Op.isPush]

theorem qrun_pops {cap : Nat} {m m' : List α} {E : List (Op Side α × Res α)} (h : QRun cap m E m') :
    ∀ e ∈ E, ∀ v, e.2 = .popped v → e.1.isPush = false := by
  induction E generalizing m with
  | nil => simp
  | cons a E ih =>
    obtain ⟨m1, h1, h2⟩ := h
    intro e he v hv
    rcases List.mem_cons.1 he with rfl | he
    · obtain ⟨op, r⟩ := e
      simp only at hv
      subst hv
      cases op with
      | push k x => exact absurd h1 (by simp [QStep])
      | pop k => rfl
    · exact ih h2 e he v hv

/-- C96. Threads push to and pop from a queue at the same time, and no slot is reused. Then at every moment there is one
sequence of all elements, in the order in which they entered the queue, that begins with the old ones: the values that
each thread has pushed are in this sequence in the order of its program, the values that each thread has popped are in
this sequence in the order in which they were returned to it, and popped elements come before those that are still in
the queue. -/
theorem C96_queue {d : Deq α} {l : List α} (h : Holds d l) (programs : List (List (Op Side α)))
    (hp : ∀ p ∈ programs, ∀ op ∈ p, isQueueOp op = true)
    (hroom : l.length + programs.flatten.countP (fun op => op.isPush) ≤ cap d) (sched : List Nat) :
    ∃ a r l', l ++ a = r ++ l' ∧
      (∀ i, (pushedBy .back (drun d programs sched) i).Sublist a ∧ (poppedBy .front (drun d programs sched) i).Sublist r) ∧
      (Finished (drun d programs sched) →
        a.Perm (pushedVals (drun d programs sched)) ∧ r.Perm (poppedVals (drun d programs sched)) ∧
        (∀ q, q < cap d → (drun d programs sched).shared.slots.data q =
          l'[ringIdx (cap d) (drun d programs sched).shared.ctr.begin q]?)) := by
  obtain ⟨⟨L, l', hL, hfin⟩, -⟩ := C71_queue_linearizable h programs hp hroom sched
  have hc := QLinearization.core hL
  have h3 := qRun_seq hL.legal
  have hprog := (C25_conservation h programs sched).2.1
  have hq := fun i => queue_calls hprog hp i
  have hsub := fun i => hc.thread_sublist i
  have hres := qrun_pops hL.legal
  refine ⟨_, _, l', h3, fun i => ⟨?_, ?_⟩, fun hf => ?_⟩
  · have := (hsub i).filterMap (pushVal (K := Side) (α := α))
    unfold pushedBy
    rw [queue_pushedBy (hq i)]
    exact this
  · have := (hsub i).filterMap (popVal (K := Side) (α := α))
    unfold poppedBy
    rw [queue_poppedBy (hq i)]
    · exact this
    · intro e he v hv
      exact hres e ((hsub i).subset he) v hv
  · have hperm := hc.perm hprog hf
    exact ⟨hperm.filterMap _, hperm.filterMap _, (hfin hf).1⟩

/-- One thread pushes 1 and then 2, one thread pops twice; six more threads push or pop once. -/
def fifoProgs : List (List (Op Side Nat)) :=
  [[.push .back 1, .push .back 2], [.pop .front], [.pop .front], [.push .back 3], [.push .back 4], [.pop .front],
   [.pop .front, .pop .front], [.push .back 5]]

def fifoSched : List Nat :=
  List.replicate 16 0 ++ List.replicate 3 1 ++ List.replicate 3 2 ++ List.replicate 3 3 ++ List.replicate 3 4 ++
    List.replicate 3 5 ++ List.replicate 9 6 ++ List.replicate 5 4 ++ List.replicate 3 7 ++ List.replicate 9 6 ++
    List.replicate 5 3 ++ List.replicate 6 1 ++ List.replicate 5 7 ++ List.replicate 6 5 ++ List.replicate 6 2

/-- C96: if slots are reused, a queue does not keep the order of a thread. Thread 0 pushes 1 and then 2, and afterwards
thread 6 pops 2 and then 1; no call fails, all return, and the queue is in a proper state at the end. -/
theorem C96_counterexample_queue_wrap :
    Holds (create 2 : Deq Nat) [] ∧ (∀ p ∈ fifoProgs, ∀ op ∈ p, isQueueOp op = true) ∧
    Finished (drun (create 2) fifoProgs fifoSched) ∧ valid (drun (create 2) fifoProgs fifoSched).shared = true ∧
    (∀ e ∈ results (drun (create 2) fifoProgs fifoSched), e.2 ≠ .popFailed ∧ e.2 ≠ .pushFailed) ∧
    pushedBy .back (drun (create 2) fifoProgs fifoSched) 0 = [1, 2] ∧
    poppedBy .front (drun (create 2) fifoProgs fifoSched) 6 = [2, 1] := by
  refine ⟨create_holds 2 (by omega), by decide, ?_, by decide +kernel, by decide +kernel, by decide +kernel, by decide +kernel⟩
  unfold Finished; decide +kernel

/-! ### The hypotheses are met -/

def poProgs : List (List (Op Side Nat)) := [[.push .back 1, .push .back 2], [.pop .front, .pop .front], [.push .back 3]]

def poSched : List Nat :=
  List.replicate 3 0 ++ List.replicate 8 2 ++ List.replicate 13 0 ++ List.replicate 18 1

/-- A producer with two elements, another one, and a consumer on an empty queue with four slots: the consumer has popped
the elements 1 and 3; the theorem applies. -/
example : ∃ a r l', [] ++ a = r ++ l' ∧ [1, 2].Sublist a ∧ [3].Sublist a ∧ [1, 3].Sublist r := by
  obtain ⟨a, r, l', h1, h2, -⟩ := C96_queue (d := (create 4 : Deq Nat)) (l := []) (create_holds 4 (by omega)) poProgs
    (by decide) (by decide) poSched
  have e1 : pushedBy .back (drun (create 4) poProgs poSched) 0 = [1, 2] := by decide +kernel
  have e2 : pushedBy .back (drun (create 4) poProgs poSched) 2 = [3] := by decide +kernel
  have e3 : poppedBy .front (drun (create 4) poProgs poSched) 1 = [1, 3] := by decide +kernel
  exact ⟨a, r, l', h1, e1 ▸ (h2 0).1, e2 ▸ (h2 2).1, e3 ▸ (h2 1).2⟩

/-- Two threads push to both ends of an empty deque with five slots and have finished. -/
example : Finished (drun (create 5) ([[.push .back 1, .push .front 2, .push .back 3], [.push .front 4, .push .back 5]] :
      List (List (Op Side Nat))) (List.replicate 12 0 ++ List.replicate 10 1 ++ List.replicate 12 0 ++ List.replicate 6 1)) ∧
    pushedBy .back (drun (create 5) ([[.push .back 1, .push .front 2, .push .back 3], [.push .front 4, .push .back 5]] :
      List (List (Op Side Nat))) (List.replicate 12 0 ++ List.replicate 10 1 ++ List.replicate 12 0 ++ List.replicate 6 1)) 0
      = [1, 3] := by
  constructor
  · unfold Finished; decide +kernel
  · decide +kernel

/-- A full deque from which two threads pop at both ends. -/
example : ∃ f l' b, [10, 11] = f ++ l' ++ b.reverse ∧ [10].Sublist f ∧ [11].Sublist b := by
  obtain ⟨f, l', b, h1, h2, -⟩ := C96_deque_pop linDeq_holds [[.pop .front, .pop .front], [.pop .back]] (by decide)
    (List.replicate 3 0 ++ List.replicate 9 1 ++ List.replicate 12 0)
  have e1 : poppedBy .front (drun linDeq [[.pop .front, .pop .front], [.pop .back]]
    (List.replicate 3 0 ++ List.replicate 9 1 ++ List.replicate 12 0)) 0 = [10] := by decide +kernel
  have e2 : poppedBy .back (drun linDeq [[.pop .front, .pop .front], [.pop .back]]
    (List.replicate 3 0 ++ List.replicate 9 1 ++ List.replicate 12 0)) 1 = [11] := by decide +kernel
  exact ⟨f, l', b, h1, e1 ▸ (h2 0).1, e2 ▸ (h2 1).2⟩

end

section
open Stdgpu.Vector

/-- Two threads push to a vector with two free places; the second push of thread 0 fails. -/
example : ∃ a, a.Perm [7, 8] ∧ [7].Sublist a ∧ [8].Sublist a := by
  have hf : Finished (vrun linVec ([[.push () 7, .push () 9], [.push () 8]] : List (List (Op Unit Nat)))
      (List.replicate 3 0 ++ List.replicate 8 1 ++ List.replicate 20 0)) := by unfold Finished; decide +kernel
  obtain ⟨a, h1, -, -, h2⟩ := C96_vector_push linVec_holds [[.push () 7, .push () 9], [.push () 8]] (by decide) _ hf
  have e0 : pushedVals (vrun linVec ([[.push () 7, .push () 9], [.push () 8]] : List (List (Op Unit Nat)))
      (List.replicate 3 0 ++ List.replicate 8 1 ++ List.replicate 20 0)) = [7, 8] := by decide +kernel
  have e1 : pushedBy () (vrun linVec ([[.push () 7, .push () 9], [.push () 8]] : List (List (Op Unit Nat)))
      (List.replicate 3 0 ++ List.replicate 8 1 ++ List.replicate 20 0)) 0 = [7] := by decide +kernel
  have e2 : pushedBy () (vrun linVec ([[.push () 7, .push () 9], [.push () 8]] : List (List (Op Unit Nat)))
      (List.replicate 3 0 ++ List.replicate 8 1 ++ List.replicate 20 0)) 1 = [8] := by decide +kernel
  exact ⟨a, e0 ▸ h1, e1 ▸ h2 0, e2 ▸ h2 1⟩

/-- Two threads pop from a vector; thread 0 has got the elements 2 and 0. -/
example : ∃ l' r, [0, 1, 2] = l' ++ r.reverse ∧ [2, 0].Sublist r ∧ [1].Sublist r := by
  obtain ⟨l', r, h1, h2, -⟩ := C96_vector_pop linVec_holds [[.pop (), .pop ()], [.pop ()]] (by decide)
    (List.replicate 3 0 ++ List.replicate 9 1 ++ List.replicate 20 0)
  have e1 : poppedBy () (vrun linVec ([[.pop (), .pop ()], [.pop ()]] : List (List (Op Unit Nat)))
    (List.replicate 3 0 ++ List.replicate 9 1 ++ List.replicate 20 0)) 0 = [2, 0] := by decide +kernel
  have e2 : poppedBy () (vrun linVec ([[.pop (), .pop ()], [.pop ()]] : List (List (Op Unit Nat)))
    (List.replicate 3 0 ++ List.replicate 9 1 ++ List.replicate 20 0)) 1 = [1] := by decide +kernel
  exact ⟨l', r, h1, e1 ▸ h2 0, e2 ▸ h2 1⟩

end

end Stdgpu.Props
