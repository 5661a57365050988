import Verif.Proof.ObjectsOOM
import Verif.Proof.UniqueObjectOOM
import Verif.Props.Objects
/-! C86: creating and destroying containers when the device memory may run out. -/
namespace Stdgpu.Props
open Stdgpu.Spec Stdgpu.Objects
open Stdgpu.Memory (Sys Block MemType AOp allocationCount deallocationCount reachable_inv reachable_sinv Inv SInv)
open Stdgpu.Vector (Fault)

/-- A proper program runs without undefined behaviour whatever the backend does. -/
theorem oom_run {E : Env} (hE : AnyEnv E) {ops0 : List AOp} {s0 : Sys} (h0 : AfterCalls ops0 s0)
    (ha : ∀ op ∈ ops0, AllocatorCall op) {ops : List Op} (hp : Proper ops) :
    ∃ st, execAll E ([], s0) ops = .ok st ∧ Oom.OInv E s0 (track ops) st :=
  (Oom.OInv.init (E := E) (reachable_inv h0) (reachable_sinv h0 ha)).run hE ops [] _ hp

/-- Whichever allocations the backend refuses, at every point of every program that creates and destroys containers nothing
undefined has happened, the live memory is exactly what the containers that exist have obtained plus what was live before
(so a container that was created only in part loses nothing and frees nothing twice), all these blocks are disjoint, and the
memory that was live before is not touched. -/
theorem C86_memory_balance (E : Env) (hE : AnyEnv E) (ops0 : List AOp) (s0 : Sys) (h0 : AfterCalls ops0 s0)
    (ha : ∀ op ∈ ops0, AllocatorCall op) (ops : List Op) (hp : Proper ops) :
    ∃ objs s, execAll E ([], s0) ops = .ok (objs, s) ∧
      s.heap.Perm (obtained (ownedBlocks E.isz (track ops) objs) ++ s0.heap) ∧
      (obtained (ownedBlocks E.isz (track ops) objs) ++ s0.heap).Pairwise Apart ∧
      ∀ b ∈ s0.heap, ∀ a, InBlk b a → s.mem a = s0.mem a := by
  obtain ⟨⟨objs, s⟩, e, h⟩ := oom_run hE h0 ha hp
  exact ⟨objs, s, e, h.heap, Objects.Inv.apart h.inv h.heap, h.mem⟩

/-- When all containers are destroyed, exactly the memory that was live before is live: nothing leaked, although some
containers were created only in part. -/
theorem C86_all_destroyed (E : Env) (hE : AnyEnv E) (ops0 : List AOp) (s0 : Sys) (h0 : AfterCalls ops0 s0)
    (ha : ∀ op ∈ ops0, AllocatorCall op) (ops : List Op) (hp : Proper ops) (hd : ∀ e ∈ track ops, e.2 = false) :
    ∃ objs s, execAll E ([], s0) ops = .ok (objs, s) ∧ s.heap.Perm s0.heap := by
  obtain ⟨objs, s, e, h1, -⟩ := C86_memory_balance E hE ops0 s0 h0 ha ops hp
  have hz : ownedBlocks E.isz (track ops) objs = [] := by
    unfold ownedBlocks
    rw [List.flatMap_eq_nil_iff]
    intro x hx
    have := hd x.1 (List.of_mem_zip hx).1
    simp [this]
  rw [hz] at h1
  exact ⟨objs, s, e, by simpa [obtained] using h1⟩

theorem blocks_device (isz : Nat) (k : Kind) (o : Obj) : ∀ b ∈ blocks isz k o, b.ty = .device := by
  have : (blocks isz k o).all (fun b => decide (b.ty = .device)) = true := by cases k <;> cases o <;> rfl
  intro b hb
  simpa using List.all_eq_true.1 this b hb

theorem exec_last {E : Env} {s0 s s' : Sys} {objs objs' : List Obj} {ops : List Op} {op : Op}
    (e : execAll E ([], s0) ops = .ok (objs, s)) (e' : exec E (objs, s) op = .ok (objs', s')) :
    execAll E ([], s0) (ops ++ [op]) = .ok (objs', s') := by
  rw [execAll_append, e]
  show execAll E (objs, s) [op] = _
  unfold execAll
  rw [List.foldlM_cons]
  show (exec E (objs, s) op).bind _ = _
  rw [e']
  rfl

/-- What a creation obtains: exactly the blocks of the new container whose pointer is not null; those of them that a new
container has filled with zeros (locks, occupied bits, counters, offsets) are zero; and the counters count every requested
block, whether or not it was obtained. -/
theorem C86_creation (E : Env) (hE : AnyEnv E) (ops0 : List AOp) (s0 : Sys) (h0 : AfterCalls ops0 s0)
    (ha : ∀ op ∈ ops0, AllocatorCall op) (ops : List Op) (k : Kind) (hp : Proper (ops ++ [.create k])) :
    ∃ objs s o s', execAll E ([], s0) ops = .ok (objs, s) ∧ execAll E ([], s0) (ops ++ [.create k]) = .ok (objs ++ [o], s') ∧
      s'.heap.Perm (obtained (blocks E.isz k o) ++ s.heap) ∧
      (∀ b ∈ obtained (zeroBlocks E.isz k o), ∀ a, InBlk b a → s'.mem a = 0) ∧
      allocationCount s' .device - deallocationCount s' .device =
        allocationCount s .device - deallocationCount s .device + ((blocks E.isz k o).length : Int) := by
  have hp' : ProperFrom [] (ops ++ [.create k]) := hp
  obtain ⟨⟨objs, s⟩, e, h⟩ := oom_run hE h0 ha (ops := ops) hp'.append.1
  obtain ⟨o, s', e', -, g⟩ := Oom.create_grow hE h.inv h.sinv k (hp.1 k (by simp))
  refine ⟨objs, s, o, s', e, exec_last e (by simp only [exec, e', bind, Except.bind]; rfl), g.heap, g.zero, ?_⟩
  have h1 : allocationCount s' .device - deallocationCount s' .device = liveCount s' .device + s'.failed .device := g.inv.cnt .device
  have h2 : allocationCount s .device - deallocationCount s .device = liveCount s .device + s.failed .device := h.inv.cnt .device
  have h3 : liveCount s' .device = (obtained (blocks E.isz k o)).length + liveCount s .device := by
    unfold liveCount
    rw [g.heap.countP_eq, List.countP_append]
    congr 1
    show List.countP _ (obtained (blocks E.isz k o)) = _
    rw [List.countP_eq_length]
    intro b hb
    have hb := (Oom.mem_obtained.1 hb).1
    have : b.ty = .device := blocks_device E.isz k o b hb
    simp [this]
  have h4 := g.failed .device
  simp only [if_true] at h4
  have h5 := Oom.obtained_le (blocks E.isz k o)
  unfold blocks at *
  rw [h1, h2, h3, h4]
  push_cast
  omega

/-- Destroying a container that was created only in part gives back what it obtained, and then the counters differ by the
number of the refused blocks. -/
theorem C86_create_destroy (E : Env) (hE : AnyEnv E) (ops0 : List AOp) (s0 : Sys) (h0 : AfterCalls ops0 s0)
    (ha : ∀ op ∈ ops0, AllocatorCall op) (ops : List Op) (k : Kind) (hp : Proper (ops ++ [.create k])) :
    ∃ objs s o objs' s', execAll E ([], s0) ops = .ok (objs, s) ∧
      (∃ s1, execAll E ([], s0) (ops ++ [.create k]) = .ok (objs ++ [o], s1)) ∧
      execAll E ([], s0) (ops ++ [.create k] ++ [.destroy objs.length]) = .ok (objs', s') ∧ s'.heap.Perm s.heap ∧
      allocationCount s' .device - deallocationCount s' .device = allocationCount s .device - deallocationCount s .device +
        (((blocks E.isz k o).length : Int) - (obtained (blocks E.isz k o)).length) := by
  have hp' : ProperFrom [] (ops ++ [.create k]) := hp
  obtain ⟨⟨objs, s⟩, e, h⟩ := oom_run hE h0 ha (ops := ops) hp'.append.1
  obtain ⟨o, s1, e1, hf, g⟩ := Oom.create_grow hE h.inv h.sinv k (hp.1 k (by simp))
  have e1' := exec_last (op := .create k) e (by simp only [exec, e1, bind, Except.bind]; rfl)
  obtain ⟨s2, e2, i2, -, m2, p2⟩ := Oom.destroy_owned g.inv g.sinv E.isz k o hf (l := s.heap) g.heap
  refine ⟨objs, s, o, (objs ++ [o]).set objs.length (destroyed o), s2, e, ⟨s1, e1'⟩, exec_last e1' ?_, p2, ?_⟩
  · have : (objs ++ [o])[objs.length]? = some o := by simp
    simp only [exec, this, e2, bind, Except.bind]; rfl
  · have h1 : allocationCount s2 .device - deallocationCount s2 .device = liveCount s2 .device + s2.failed .device := i2.cnt .device
    have h2 : allocationCount s .device - deallocationCount s .device = liveCount s .device + s.failed .device := h.inv.cnt .device
    have h3 : liveCount s2 .device = liveCount s .device := by unfold liveCount; rw [p2.countP_eq]
    have h4 := g.failed .device
    have h5 := Oom.obtained_le (blocks E.isz k o)
    have h6 : s2.failed .device = s1.failed .device := by rw [(Prod.mk.inj m2).2]
    simp only [if_true] at h4
    unfold blocks at *
    rw [h1, h2, h3, h6, h4]
    push_cast
    omega

/-- Creating and destroying other containers, successfully or not, neither changes a container nor the bytes of the memory
it has obtained. -/
theorem C86_untouched (E : Env) (hE : AnyEnv E) (ops0 : List AOp) (s0 : Sys) (h0 : AfterCalls ops0 s0)
    (ha : ∀ op ∈ ops0, AllocatorCall op) (ops ops' : List Op) (hp : Proper (ops ++ ops')) (i : Nat) (k : Kind)
    (hi : (track ops)[i]? = some (k, true)) (hn : Op.destroy i ∉ ops') :
    ∃ objs s objs' s' o, execAll E ([], s0) ops = .ok (objs, s) ∧ execAll E ([], s0) (ops ++ ops') = .ok (objs', s') ∧
      objs[i]? = some o ∧ objs'[i]? = some o ∧ (∀ b ∈ obtained (blocks E.isz k o), Live s' b.ty b.addr b.bytes) ∧
      ∀ b ∈ obtained (blocks E.isz k o), ∀ a, InBlk b a → s'.mem a = s.mem a := by
  have hp' : ProperFrom [] (ops ++ ops') := hp
  obtain ⟨⟨objs, s⟩, e, h⟩ := oom_run hE h0 ha (ops := ops) hp'.append.1
  have hlen : (track ops).length = objs.length := h.len
  have hil := (List.getElem?_eq_some_iff.1 hi).1
  have ho : objs[i]? = some objs[i] := List.getElem?_eq_getElem (by omega)
  obtain ⟨⟨objs', s'⟩, e', q1, q2, q3⟩ := h.untouched hE ops' _ _ hp'.append.2 i k _ hi ho hn
  obtain ⟨st2, e2, h2⟩ := h.run hE ops' _ _ hp'.append.2
  rw [e'] at e2; cases e2
  refine ⟨objs, s, objs', s', objs[i], e, ?_, ho, q1, ?_, q3⟩
  · rw [execAll_append, e]; exact e'
  · intro b hb
    have hb := Oom.mem_obtained.1 hb
    exact h2.heap.mem_iff.2 (List.mem_append_left _ (Oom.mem_obtained.2 ⟨owned_mem E.isz _ _ i k _ q2 q1 b hb.1, hb.2⟩))

/-! `device_unique_object` with such a backend: containers are owned, moved and released through variables. -/

open Stdgpu.UniqueObject in
/-- Whichever allocations the backend refuses, the variables own what the specification says, each object has at most one
owner, `destroyDeviceObject` has been called exactly once for each object without an owner and never for the others, and the
live memory is exactly what the owned objects have obtained plus what was live before. -/
theorem C86_unique_objects (E : Env) (hE : AnyEnv E) (ops0 : List AOp) (s0 : Sys) (h0 : AfterCalls ops0 s0)
    (ha : ∀ op ∈ ops0, AllocatorCall op) (ops : List UOp) (hp : OkProg 0 ops) :
    ∃ u, execUAll E ⟨[], ([], s0), []⟩ ops = .ok u ∧
      u.slots.map Slot.ptr = (ownersAfter ops).own ∧
      (∀ n, (ownersAfter ops).own.count (some n) + u.calls.count n = if n < (kindsOf ops).length then 1 else 0) ∧
      u.st.2.heap.Perm (obtained (blocksOf E.isz (kindsOf ops) u.st.1 ((ownersAfter ops).own.filterMap id)) ++ s0.heap) := by
  obtain ⟨u, l, e, h, -⟩ :=
    (UniqueObject.Oom.UInv.init (E := E) (reachable_inv h0) (reachable_sinv h0 ha)).run hE ops _ _ _ _ hp
  refine ⟨u, e, h.own, ?_, ?_⟩
  · intro n
    have := h.count n
    rw [← h.kinds.trans (List.nil_append _)]
    rw [List.length_map]; exact this
  · exact h.oinv.heap.trans (List.Perm.append_right _ (h.heap_owned.filter _))

open Stdgpu.UniqueObject in
/-- When every variable is destructed (or moved from), exactly the memory that was live before is live, although some
objects were created only in part, and `destroyDeviceObject` was called exactly once for every object. -/
theorem C86_unique_objects_released (E : Env) (hE : AnyEnv E) (ops0 : List AOp) (s0 : Sys) (h0 : AfterCalls ops0 s0)
    (ha : ∀ op ∈ ops0, AllocatorCall op) (ops : List UOp) (hp : OkProg 0 ops) (hd : ∀ x ∈ (ownersAfter ops).own, x = none) :
    ∃ u, execUAll E ⟨[], ([], s0), []⟩ ops = .ok u ∧ u.st.2.heap.Perm s0.heap ∧ u.calls.Perm (List.range (kindsOf ops).length) := by
  obtain ⟨u, e, -, h2, h3⟩ := C86_unique_objects E hE ops0 s0 h0 ha ops hp
  have hz : (ownersAfter ops).own.filterMap id = [] := by
    rw [List.filterMap_eq_nil_iff]; intro x hx; simp [hd x hx]
  have hc : ∀ n, (ownersAfter ops).own.count (some n) = 0 := by
    intro n; rw [List.count_eq_zero]; intro hm; exact absurd (hd _ hm) (by simp)
  refine ⟨u, e, by rw [hz] at h3; simpa [blocksOf, obtained] using h3, ?_⟩
  rw [List.perm_iff_count]
  intro n
  have := h2 n
  rw [hc, Nat.zero_add] at this
  rw [this, List.count_range]

open Stdgpu.UniqueObject in
/-- A variable that owns an object gives that object, unchanged (handle and obtained memory) however often it was moved and
whatever was refused in the meantime; the variable is true also when the object was created only in part. -/
theorem C86_unique_objects_access (E : Env) (hE : AnyEnv E) (ops0 : List AOp) (s0 : Sys) (h0 : AfterCalls ops0 s0)
    (ha : ∀ op ∈ ops0, AllocatorCall op) (ops ops' : List UOp) (hp : OkProg 0 (ops ++ ops')) (i j n : Nat)
    (hi : (ownersAfter ops).own[i]? = some (some n)) (hj : (ownersAfter (ops ++ ops')).own[j]? = some (some n)) :
    ∃ u u' o, execUAll E ⟨[], ([], s0), []⟩ ops = .ok u ∧ execUAll E ⟨[], ([], s0), []⟩ (ops ++ ops') = .ok u' ∧
      asBool u i = some true ∧ asBool u' j = some true ∧ deref u i = .ok o ∧ deref u' j = .ok o ∧
      ∀ k, (kindsOf ops)[n]? = some k → ∀ b ∈ obtained (blocks E.isz k o), Live u'.st.2 b.ty b.addr b.bytes ∧
        ∀ a, InBlk b a → u'.st.2.mem a = u.st.2.mem a := by
  have hp1 : OkProg 0 ops ∧ OkProg ((ops.map declares).sum) ops' := by
    have : ∀ (a : List UOp) (n : Nat), OkProg n (a ++ ops') → OkProg n a ∧ OkProg (n + (a.map declares).sum) ops' := by
      intro a
      induction a with
      | nil => intro n h; exact ⟨trivial, by simpa using h⟩
      | cons x a ih =>
        intro n h
        obtain ⟨h1, h2⟩ := ih _ h.2
        exact ⟨⟨h.1, h1⟩, by simpa [Nat.add_assoc] using h2⟩
    simpa using this ops 0 hp
  obtain ⟨u, l, e, h, -⟩ := (UniqueObject.Oom.UInv.init (E := E) (reachable_inv h0) (reachable_sinv h0 ha)).run hE ops _ _ _ _ hp1.1
  obtain ⟨u2, l2, e2, h2, -⟩ := (UniqueObject.Oom.UInv.init (E := E) (reachable_inv h0) (reachable_sinv h0 ha)).run hE (ops ++ ops') _ _ _ _ hp
  have hsl : u.slots.length = (ops.map declares).sum := by
    have : ∀ (a : List UOp) (w : Owners), (a.foldl ownStep w).own.length = w.own.length + (a.map declares).sum := by
      intro a
      induction a with
      | nil => intro w; simp
      | cons x a ih =>
        intro w
        rw [List.foldl_cons, ih]
        cases x <;> simp [ownStep, declares] <;> omega
    have h3 := this ops ⟨[], 0⟩
    rw [← h.own] at h3
    simpa using h3
  obtain ⟨u', l', e', h', -, stab⟩ := h.run hE ops' _ _ _ _ (by rw [hsl]; exact hp1.2)
  have he : execUAll E ⟨[], ([], s0), []⟩ (ops ++ ops') = .ok u' := by
    unfold execUAll at e e' ⊢
    rw [List.foldlM_append, e]; exact e'
  have hfold : ops'.foldl ownStep (ops.foldl ownStep ⟨[], 0⟩) = ownersAfter (ops ++ ops') := by
    unfold ownersAfter; rw [List.foldl_append]
  rw [hfold] at h' stab
  have hmi : some n ∈ (ops.foldl ownStep ⟨[], 0⟩).own := List.mem_of_getElem? hi
  have hmj : some n ∈ (ownersAfter (ops ++ ops')).own := List.mem_of_getElem? hj
  have hnl := ((h.mem_own n).1 hmi).1
  have hlen : l.length = u.st.1.length := h.oinv.len
  have ho : u.st.1[n]? = some u.st.1[n] := List.getElem?_eq_getElem (by omega)
  have hk : l[n]? = some l[n] := List.getElem?_eq_getElem hnl
  have hkk : (kindsOf ops)[n]? = some l[n].1 := by
    have : (l.map Prod.fst)[n]? = some l[n].1 := by rw [List.getElem?_map, hk]; rfl
    rwa [h.kinds.trans (List.nil_append _)] at this
  obtain ⟨q1, q2⟩ := stab n l[n].1 u.st.1[n] hmi hmj (by rw [List.nil_append]; exact hkk) ho
  have si : (u.slots[i]?).map Slot.ptr = some (some n) := by
    rw [← List.getElem?_map, h.own]; exact hi
  have sj : (u'.slots[j]?).map Slot.ptr = some (some n) := by
    rw [← List.getElem?_map, h'.own]; exact hj
  have acc : ∀ (v : UState) (m : Nat) (o : Obj), (v.slots[m]?).map Slot.ptr = some (some n) → v.st.1[n]? = some o →
      asBool v m = some true ∧ deref v m = .ok o := by
    intro v m o h1 h2
    cases hx : v.slots[m]? with
    | none => rw [hx] at h1; simp at h1
    | some x =>
      obtain ⟨p, d⟩ := x
      rw [hx] at h1; simp at h1
      subst h1
      simp [asBool, deref, hx, h2]
  refine ⟨u, u', u.st.1[n], e, he, (acc u i _ si ho).1, (acc u' j _ sj q1).1, (acc u i _ si ho).2, (acc u' j _ sj q1).2, ?_⟩
  intro k hkn b hb
  rw [hkk] at hkn; cases hkn
  refine ⟨?_, q2 b hb⟩
  have hperm := h'.oinv.heap.trans (List.Perm.append_right _ (h'.heap_owned.filter _))
  have hb := Oom.mem_obtained.1 hb
  refine hperm.mem_iff.2 (List.mem_append_left _ (Oom.mem_obtained.2 ⟨?_, hb.2⟩))
  unfold blocksOf
  rw [List.mem_flatMap]
  refine ⟨n, by simpa using hmj, ?_⟩
  have hkl : n < (kindsOf ops).length := (List.getElem?_eq_some_iff.1 hkk).1
  rw [List.nil_append, List.getElem?_append_left hkl, hkk, q1]
  exact hb.1

/-! Examples: a backend with 100 bytes of device memory, which puts every block behind all others. -/

def exSmall : Env := ⟨List.range, fun s bytes => if (s.heap.map (fun b => b.bytes)).sum + bytes ≤ 100 then exPick s bytes else 0, 8,
  fun _ => 255⟩

theorem exSmall_any : AnyEnv exSmall := ⟨fun _ => List.Perm.refl _, by decide⟩

/-- The vector takes 52 bytes, so the unordered container gets only some of its blocks, and the deque as well. -/
example : AfterCalls exOps (stateAfter exOps) ∧ (∀ op ∈ exOps, AllocatorCall op) ∧ AnyEnv exSmall ∧ ¬ GoodEnv exSmall ∧
    Proper exProg ∧ exHeap exSmall [.create (.vector 5 8), .create (.unordered 4 2 12)] =
      some [4, 4, 16, 4, 4, 4, 4, 4, 40, 4, 4, 4] ∧
    exHeap exSmall (exProg ++ [.destroy 2, .destroy 1]) = some [] := by
  refine ⟨stateAfter_after (by decide +kernel), by simp [exOps, AllocatorCall], exSmall_any, ?_, exProg_proper, by decide +kernel,
    by decide +kernel⟩
  intro h
  exact (h.room (Memory.init (fun _ => 0)) 101 (by omega)).1 (by decide +kernel)

/-- With 100 bytes, the program of C66 gets the vector (52 bytes) but only a part of the unordered container. -/
example : AnyEnv exSmall ∧ OkProg 0 exUProg ∧ (ownersAfter (exUProg.take 2)).own = [some 0, some 1] ∧
    (match UniqueObject.execUAll exSmall ⟨[], ([], Memory.init (fun _ => 255)), []⟩ (exUProg.take 2) with
      | .ok u => decide ((u.st.2.heap.map (fun b => b.bytes)).sum = 96) && decide (u.calls = [])
      | _ => false) = true ∧
    (match UniqueObject.execUAll exSmall ⟨[], ([], Memory.init (fun _ => 255)), []⟩
        (exUProg ++ [.destruct 2, .destruct 3, .destruct 0]) with
      | .ok u => decide (u.st.2.heap = []) && decide (u.calls = [0, 2, 1])
      | _ => false) = true := by
  refine ⟨exSmall_any, by simp [exUProg, OkProg, OkOp, declares, PosKind], by decide, by decide +kernel, by decide +kernel⟩

/-- The failure is silent: with a backend that has 100 bytes, creating a vector of 20 elements of 8 bytes returns a vector
of capacity 20 whose locks, occupied bits and size are there and zero, as in every new vector (so it is empty and valid),
but without memory for its elements: the place of the first element, which `push_back` writes to, is in no live block. -/
theorem C86_counterexample_silent :
    ∃ (v : VectorObj) (s : Sys), execAll exSmall ([], Memory.init (fun _ => 255)) [.create (.vector 20 8)] = .ok ([.vector v], s) ∧
      v.occupied.size = 20 ∧ v.locks.bits.size = 20 ∧
      (∀ b ∈ zeroBlocks 8 (.vector 20 8) (.vector v), Live s b.ty b.addr b.bytes ∧ ∀ a, InBlk b a → s.mem a = 0) ∧
      ¬ Inside s .device v.data 8 := by
  have hp : Proper ([] ++ [.create (.vector 20 8)]) := by
    constructor
    · intro k hk; simp at hk; subst hk; simp [PosKind]
    · intro pre i post he
      have := congrArg List.length he
      cases pre with
      | nil => simp at he
      | cons x pre => simp at he
  have h0 : AfterCalls [] (Memory.init (fun _ => 255)) := ⟨_, fun _ => List.range, [], fun _ _ => List.Perm.refl _, rfl⟩
  obtain ⟨objs, s, o, s', e, e', hh, hz, -⟩ := C86_creation exSmall exSmall_any [] _ h0 (by simp) [] (.vector 20 8) hp
  have hobj : objs = [] ∧ s = Memory.init (fun _ => 255) := by cases e; exact ⟨rfl, rfl⟩
  obtain ⟨rfl, rfl⟩ := hobj
  have f1 : (match execAll exSmall ([], Memory.init (fun _ => 255)) [.create (.vector 20 8)] with
      | .ok ([.vector ⟨⟨⟨a, b⟩⟩, ⟨c, d⟩, ⟨f⟩, g⟩], _) => decide ([a, b, c, d, f, g] = [1, 20, 6, 20, 16, 0])
      | _ => false) = true := by decide +kernel
  simp only [List.nil_append] at e'
  rw [e'] at f1
  cases o with
  | vector v =>
    obtain ⟨⟨⟨a, b⟩⟩, ⟨c, d⟩, ⟨f⟩, g⟩ := v
    simp at f1
    obtain ⟨rfl, rfl, rfl, rfl, rfl, rfl⟩ := f1
    refine ⟨_, s', e', rfl, rfl, ?_, ?_⟩
    · intro b hb
      have hne : b.addr ≠ 0 := by
        simp [zeroBlocks, bitsetBlocks, atomicBlocks] at hb
        rcases hb with rfl | rfl | rfl <;> simp
      refine ⟨hh.mem_iff.2 (List.mem_append_left _ (Oom.mem_obtained.2 ⟨?_, hne⟩)), hz b (Oom.mem_obtained.2 ⟨hb, hne⟩)⟩
      exact List.mem_append_left _ hb
    · rintro ⟨q, n, hl, h1, -⟩
      have : q = 0 := by simpa using h1
      subst this
      have := hh.mem_iff.1 hl
      simp [Memory.init, obtained] at this
  | _ => simp at f1

end Stdgpu.Props
