import Verif.Proof.StoreBuffer2
import Verif.Proof.EarlyReads
import Verif.Props.Vector
import Verif.Props.Deque
import Verif.Props.UnorderedConc
/-
C89: the concurrent operations on a machine with store buffers.
-/
namespace Stdgpu.Props
open Stdgpu.StoreBuffer Stdgpu.Spec Stdgpu.Conc

/-- Threads that execute `programs` on the vector `v`, with store buffers; `o` is the memory order of the atomic operations.
Writes to different elements may become visible out of order. -/
abbrev vweak {α : Type} (o : Fence.Order) (v : Vector.Vec α) (programs : List (List (SlotConc.Op Unit α))) (evs : List Ev) :
    Sys (Vector.Vec α) (WThread (SlotConc.Thread Unit Vector.FPC α)) :=
  wrun (SlotConc.step (Vector.vfront (Vector.cap v))) SlotConc.skind (leadingFence o) SlotConc.sameElement
    (SlotConc.init (Vector.vfront (Vector.cap v)) v programs) evs

/-- The same on a deque. -/
abbrev dweak {α : Type} (o : Fence.Order) (d : Deque.Deq α) (programs : List (List (SlotConc.Op Deque.Side α))) (evs : List Ev) :
    Sys (Deque.Deq α) (WThread (SlotConc.Thread Deque.Side Deque.FPC α)) :=
  wrun (SlotConc.step (Deque.dfront (Deque.cap d))) SlotConc.skind (leadingFence o) SlotConc.sameElement
    (SlotConc.init (Deque.dfront (Deque.cap d)) d programs) evs

/-- The same on an unordered container; the writes of a thread become visible in their order. -/
abbrev uweak {K V : Type} (o : Fence.Order) (P : Unordered.Params K V) (t : Unordered.Tab V)
    (progs : List (List (UnorderedConc.Op K V))) (evs : List Ev) :
    Sys (UnorderedConc.Shared V) (WThread (UnorderedConc.Thread K V)) :=
  wrun (UnorderedConc.step P) UnorderedConc.ukind (leadingFence o) (fun _ _ => true) (UnorderedConc.init t progs) evs

/-- **C89**, vector. Whatever is observed on a machine with store buffers at any time — the memory and the results of the
operations that have returned — is observed in a sequentially consistent execution of the same programs. When all threads have
finished, their writes are in memory and the whole state is that of the sequentially consistent execution. -/
theorem C89_vector {α : Type} (v : Vector.Vec α) (programs : List (List (SlotConc.Op Unit α))) (evs : List Ev) :
    ∃ sched, (vweak .seqCst v programs evs).shared = (vrun v programs sched).shared ∧
      (vweak .seqCst v programs evs).threads.map (·.cur.done) = (vrun v programs sched).threads.map (·.done) ∧
      ((∀ w ∈ (vweak .seqCst v programs evs).threads, w.cur.todo = []) →
        (∀ w ∈ (vweak .seqCst v programs evs).threads, w.buf = []) ∧
        visible (vweak .seqCst v programs evs) = vrun v programs sched) := by
  obtain ⟨sched, h⟩ := sim_run (slot_laws _) (slot_ordered _ SlotConc.sameElement)
    (SlotConc.init (Vector.vfront (Vector.cap v)) v programs) (fun _ _ => trivial) evs
  refine ⟨sched, h.mem.symm, ?_, fun hf => ?_⟩
  · have := h.obs (fun t => t.done) (fun m t _ hk => (slot_obs _ m hk).1) v
    simp only [visible, List.map_map] at this
    exact this
  · refine h.final v (fun w hw a _ ha he => ?_)
    have h1 := (slot_obs (Vector.vfront (Vector.cap v)) v ha).2
    rw [he, hf w hw] at h1
    exact slot_todo ha h1.symm

/-- **C89**, deque. -/
theorem C89_deque {α : Type} (d : Deque.Deq α) (programs : List (List (SlotConc.Op Deque.Side α))) (evs : List Ev) :
    ∃ sched, (dweak .seqCst d programs evs).shared = (drun d programs sched).shared ∧
      (dweak .seqCst d programs evs).threads.map (·.cur.done) = (drun d programs sched).threads.map (·.done) ∧
      ((∀ w ∈ (dweak .seqCst d programs evs).threads, w.cur.todo = []) →
        (∀ w ∈ (dweak .seqCst d programs evs).threads, w.buf = []) ∧
        visible (dweak .seqCst d programs evs) = drun d programs sched) := by
  obtain ⟨sched, h⟩ := sim_run (slot_laws _) (slot_ordered _ SlotConc.sameElement)
    (SlotConc.init (Deque.dfront (Deque.cap d)) d programs) (fun _ _ => trivial) evs
  refine ⟨sched, h.mem.symm, ?_, fun hf => ?_⟩
  · have := h.obs (fun t => t.done) (fun m t _ hk => (slot_obs _ m hk).1) d
    simp only [visible, List.map_map] at this
    exact this
  · refine h.final d (fun w hw a _ ha he => ?_)
    have h1 := (slot_obs (Deque.dfront (Deque.cap d)) d ha).2
    rw [he, hf w hw] at h1
    exact slot_todo ha h1.symm

/-- **C89**, unordered containers: any mix of `insert`, `erase` and `find`. -/
theorem C89_unordered {K V : Type} (P : Unordered.Params K V) (t : Unordered.Tab V) (progs : List (List (UnorderedConc.Op K V)))
    (evs : List Ev) :
    ∃ sched, (uweak .seqCst P t progs evs).shared = (uexec P t progs sched).shared ∧
      (uweak .seqCst P t progs evs).threads.map (·.cur.done) = (uexec P t progs sched).threads.map (·.done) ∧
      ((∀ w ∈ (uweak .seqCst P t progs evs).threads, w.cur.todo = [] ∧ w.cur.cur = .idle) →
        (∀ w ∈ (uweak .seqCst P t progs evs).threads, w.buf = []) ∧
        visible (uweak .seqCst P t progs evs) = uexec P t progs sched) := by
  obtain ⟨sched, h⟩ := sim_run (u_laws P) (inOrder := fun _ _ => true) (.inl (fun _ _ => rfl)) (UnorderedConc.init t progs)
    (fun th hth => by
      simp only [UnorderedConc.init, List.mem_map] at hth
      obtain ⟨p, _, rfl⟩ := hth
      exact rfl) evs
  refine ⟨sched, h.mem.symm, ?_, fun hf => ?_⟩
  · have := h.obs (fun t => t.done) (fun m t hI hk => by
      obtain ⟨cur, ex, _, _, h3⟩ := u_write P t hI hk
      rw [h3]) ⟨t, false, false⟩
    simp only [visible, List.map_map] at this
    exact this
  · refine h.final ⟨t, false, false⟩ (fun w hw a hI ha he => ?_)
    obtain ⟨cur, ex, h1, _, h3⟩ := u_write P a hI ha
    rw [h3] at he
    have := (hf w hw).2
    rw [← he] at this
    exact h1 this

/-- **C89**, consequence for a vector (C20 with store buffers): no operation reads or destroys raw storage or constructs over a
live object, and when all threads have finished, the elements are those before and the pushed ones without the popped ones. -/
theorem C89_vector_conservation {α : Type} {v : Vector.Vec α} {l : List α} (h : Vector.Holds v l)
    (programs : List (List (SlotConc.Op Unit α))) (evs : List Ev) :
    let W := vweak .seqCst v programs evs
    W.shared.slots.err = false ∧
    ((∀ w ∈ W.threads, w.cur.todo = []) → (∀ w ∈ W.threads, ∃ f, w.cur.pc = .front f) →
      (l ++ pushedVals (visible W)).Perm (liveIn W.shared.slots.data 0 (Vector.cap v) ++ poppedVals (visible W))) := by
  intro W
  obtain ⟨sched, h1, _, h3⟩ := C89_vector v programs evs
  obtain ⟨g1, _, g3⟩ := C20_conservation h programs sched
  refine ⟨by rw [h1]; exact g1, fun hf hq => ?_⟩
  obtain ⟨_, h4⟩ := h3 hf
  have hq' : ∀ t ∈ (vrun v programs sched).threads, ∃ f, t.pc = .front f := by
    rw [← h4]
    intro t ht
    simp only [visible, List.mem_map] at ht
    obtain ⟨w, hw, rfl⟩ := ht
    exact hq w hw
  have := (g3 hq').1
  rw [← h4] at this
  exact this

/-- **C89**, consequence for insertions into an unordered container (C38 with store buffers): nothing undefined happens, and
when all threads have finished, the contents are those before and the inserted values, and all can be found. -/
theorem C89_unordered_insertions {K V : Type} {P : Unordered.Params K V} {bc ec : Nat} {t : Unordered.Tab V}
    {progs : List (List (UnorderedConc.Op K V))} (hl : KeyLaws P) (h0 : 0 < bc) (h1 : bc < 2 ^ 63) (hr : PReachable P bc ec t)
    (hp : NoErase progs) (evs : List Ev) :
    let W := uweak .seqCst P t progs evs
    Defined (visible W) ∧
    ((∀ w ∈ W.threads, w.cur.todo = [] ∧ w.cur.cur = .idle) →
      (contents W.shared.tab).Perm (contents t ++ insertedVals (visible W)) ∧
      ∀ k, ∃ it, Unordered.find P W.shared.tab k = .ok it ∧
        Unordered.deref W.shared.tab it = .ok (lookup P (contents t ++ insertedVals (visible W)) k)) := by
  intro W
  obtain ⟨sched, g1, _, g3⟩ := C89_unordered P t progs evs
  have hd := C38_safe hl h0 h1 hr hp sched
  refine ⟨?_, fun hf => ?_⟩
  · unfold Defined at hd ⊢
    rw [← g1] at hd
    exact hd
  · obtain ⟨_, g4⟩ := g3 hf
    have hf' : UFinished (uexec P t progs sched) := by
      rw [← g4]
      intro th hth
      simp only [visible, List.mem_map] at hth
      obtain ⟨w, hw, rfl⟩ := hth
      exact hf w hw
    obtain ⟨k1, _, k3⟩ := C38_final hl h0 h1 hr hp sched hf'
    rw [← g4] at k1 k3
    exact ⟨k1, k3⟩

/-- A push and a pop on a vector with one slot; the element reaches the memory late, the pop waits at the lock. -/
def bufEvs : List Ev :=
  List.replicate 5 (.exec 0) ++ List.replicate 3 (.exec 1) ++ List.replicate 2 (.exec 0) ++ [.flush 0 0] ++
    List.replicate 2 (.exec 0) ++ List.replicate 6 (.exec 1) ++ [.flush 1 0] ++ List.replicate 2 (.exec 1)

example : (vweak .seqCst (Vector.create 1) [[.push () 7], [.pop ()]] (bufEvs.take 10)).threads.map (·.buf.length) = [1, 0] ∧
    (vweak .seqCst (Vector.create 1) [[.push () 7], [.pop ()]] bufEvs).threads.map (·.cur.done) =
      [[(.push () 7, .pushed)], [(.pop (), .popped 7)]] ∧
    (vweak .seqCst (Vector.create 1) [[.push () 7], [.pop ()]] bufEvs).shared.slots.data 0 = none := by
  refine ⟨by decide +kernel, by decide +kernel, by decide +kernel⟩

/-- The fences are needed: if the atomic operations of the library did not issue a fence before the access (memory orders
`relaxed` and `release`; the latter is what `unlock` of a mutex would conventionally use), a pop could read raw storage
because the lock and the occupied bit have overtaken the element. -/
theorem C89_counterexample_without_fences (o : Fence.Order) (ho : o = .relaxed ∨ o = .release) :
    ∃ (v : Vector.Vec Nat) (programs : List (List (SlotConc.Op Unit Nat))) (evs : List Ev),
      Vector.Holds v [] ∧ (vweak o v programs evs).shared.slots.err = true := by
  refine ⟨Vector.create 1, [[.push () 7], [.pop ()]], List.replicate 7 (.exec 0) ++ List.replicate 6 (.exec 1),
    Vector.create_holds 1, ?_⟩
  rcases ho with rfl | rfl <;> decide +kernel

/-! ### Plain reads ahead of time -/

/-- Threads that execute `programs` on the vector `v`, with store buffers and plain reads that may be executed at any time since
the last fence of their thread; `o` is the memory order of the atomic operations. -/
abbrev vearly {α : Type} (o : Fence.Order) (v : Vector.Vec α) (programs : List (List (SlotConc.Op Unit α))) (evs : List EEv) :
    Sys (Vector.Vec α) (WThread (SlotConc.Thread Unit Vector.FPC α)) :=
  (erun (SlotConc.step (Vector.vfront (Vector.cap v))) SlotConc.skind (leadingFence o) (trailingFence o) SlotConc.sameElement
    (SlotConc.init (Vector.vfront (Vector.cap v)) v programs) evs).sys

/-- The same on a deque. -/
abbrev dearly {α : Type} (o : Fence.Order) (d : Deque.Deq α) (programs : List (List (SlotConc.Op Deque.Side α))) (evs : List EEv) :
    Sys (Deque.Deq α) (WThread (SlotConc.Thread Deque.Side Deque.FPC α)) :=
  (erun (SlotConc.step (Deque.dfront (Deque.cap d))) SlotConc.skind (leadingFence o) (trailingFence o) SlotConc.sameElement
    (SlotConc.init (Deque.dfront (Deque.cap d)) d programs) evs).sys

/-- **C89**, vector, with early reads: memory and results at any time are those of a sequentially consistent execution, and when
all threads have finished, the whole state is. -/
theorem C89_vector_early_reads {α : Type} {v : Vector.Vec α} {l : List α} (h : Vector.Holds v l)
    (programs : List (List (SlotConc.Op Unit α))) (evs : List EEv) :
    ∃ sched, (vearly .seqCst v programs evs).shared = (vrun v programs sched).shared ∧
      (vearly .seqCst v programs evs).threads.map (·.cur.done) = (vrun v programs sched).threads.map (·.done) ∧
      ((∀ w ∈ (vearly .seqCst v programs evs).threads, w.cur.todo = []) →
        (∀ w ∈ (vearly .seqCst v programs evs).threads, w.buf = []) ∧
        visible (vearly .seqCst v programs evs) = vrun v programs sched) := by
  obtain ⟨evs', e⟩ := early_run (fr := Vector.vfront (Vector.cap v)) (m := v) (programs := programs) SlotConc.sameElement
    (fun sched => ⟨_, _, _, Vector.vinv_run h programs sched⟩) evs
  have e' : vearly .seqCst v programs evs = vweak .seqCst v programs evs' := e
  rw [e']
  exact C89_vector v programs evs'

/-- **C89**, deque, with early reads. -/
theorem C89_deque_early_reads {α : Type} {d : Deque.Deq α} {l : List α} (h : Deque.Holds d l)
    (programs : List (List (SlotConc.Op Deque.Side α))) (evs : List EEv) :
    ∃ sched, (dearly .seqCst d programs evs).shared = (drun d programs sched).shared ∧
      (dearly .seqCst d programs evs).threads.map (·.cur.done) = (drun d programs sched).threads.map (·.done) ∧
      ((∀ w ∈ (dearly .seqCst d programs evs).threads, w.cur.todo = []) →
        (∀ w ∈ (dearly .seqCst d programs evs).threads, w.buf = []) ∧
        visible (dearly .seqCst d programs evs) = drun d programs sched) := by
  obtain ⟨evs', e⟩ := early_run (fr := Deque.dfront (Deque.cap d)) (m := d) (programs := programs) SlotConc.sameElement
    (fun sched => by obtain ⟨tick, hi⟩ := (dinv_run h programs sched).inv; exact ⟨_, _, tick, hi⟩) evs
  have e' : dearly .seqCst d programs evs = dweak .seqCst d programs evs' := e
  rw [e']
  exact C89_deque d programs evs'

/-- A vector with one slot that holds 7: thread 0 pops it and pushes 8, thread 1 pops. -/
def earlyVec : Vector.Vec Nat := ⟨⟨1, fun _ => false, fun p => p == 0, fun p => if p = 0 then some 7 else none, false⟩, 1⟩

/-- Thread 0 completes its operations, then thread 1 pops; its read of the element is executed ahead of time, as early as the
fences allow. -/
def earlyEvs : List EEv :=
  (List.replicate 8 (Ev.exec 0) ++ [Ev.flush 0 0] ++ [Ev.exec 0] ++ List.replicate 6 (Ev.exec 0) ++ [Ev.flush 0 0] ++
    List.replicate 2 (Ev.exec 0) ++ List.replicate 5 (Ev.exec 1)).map EEv.base ++ [.early 1 0] ++
  [.base (.exec 1), .base (.flush 1 0), .base (.exec 1)]

theorem earlyVec_holds : Vector.Holds earlyVec [7] := ⟨by decide, rfl, by decide, by decide, rfl, by decide⟩

/-- With the fences of the library the pop of thread 1 obtains 8. -/
example : (vearly .seqCst earlyVec [[.pop (), .push () 8], [.pop ()]] earlyEvs).threads.map (·.cur.done) =
    [[(.pop (), .popped 7), (.push () 8, .pushed)], [(.pop (), .popped 8)]] := by decide +kernel

/-- The fences after the atomic operations are needed: without them (memory order `relaxed`) the read of the element could be
executed before the lock is taken, and the element 7 would be popped twice. -/
theorem C89_counterexample_early_read :
    ∃ (v : Vector.Vec Nat) (programs : List (List (SlotConc.Op Unit Nat))) (evs : List EEv), Vector.Holds v [7] ∧
      programs = [[.pop (), .push () 8], [.pop ()]] ∧
      (vearly .relaxed v programs evs).threads.map (·.cur.done) =
        [[(.pop (), .popped 7), (.push () 8, .pushed)], [(.pop (), .popped 7)]] :=
  ⟨earlyVec, _, earlyEvs, earlyVec_holds, rfl, by decide +kernel⟩

end Stdgpu.Props
