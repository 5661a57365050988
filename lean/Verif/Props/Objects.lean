import Verif.Proof.UniqueObject
import Verif.Proof.Memory3
import Verif.Props.Memory
import Mathlib.Tactic.IntervalCases
/-! C65: the memory that containers own; C66: device_unique_object. -/
namespace Stdgpu.Props
open Stdgpu.Spec Stdgpu.Objects Stdgpu.UniqueObject
open Stdgpu.Memory (Sys Block MemType AOp allocationCount deallocationCount reachable_inv reachable_sinv Inv SInv)
open Stdgpu.Vector (Fault)

/-! ### C65 -/

/-- The common part: a proper program runs without undefined behaviour, and its state satisfies the invariant. -/
theorem objects_run {E : Env} (hE : GoodEnv E) {ops0 : List AOp} {s0 : Sys} (h0 : AfterCalls ops0 s0)
    (ha : ∀ op ∈ ops0, AllocatorCall op) {ops : List Op} (hp : Proper ops) :
    ∃ st, execAll E ([], s0) ops = .ok st ∧ OInv E s0 (track ops) st :=
  (OInv.init (E := E) (reachable_inv h0) (reachable_sinv h0 ha)).run hE ops [] _ hp

/-- The number of live blocks determines the counters. -/
theorem count_diff {s s0 : Sys} (h : Inv s) (h0 : Inv s0) (hf : s.failed = s0.failed) {bs : List Block}
    (hp : s.heap.Perm (bs ++ s0.heap)) (ty : MemType) :
    allocationCount s ty - deallocationCount s ty =
      allocationCount s0 ty - deallocationCount s0 ty + (bs.countP (fun b => b.ty == ty) : Int) := by
  have h1 : allocationCount s ty - deallocationCount s ty = liveCount s ty + s.failed ty := h.cnt ty
  have h2 : allocationCount s0 ty - deallocationCount s0 ty = liveCount s0 ty + s0.failed ty := h0.cnt ty
  have h3 : liveCount s ty = bs.countP (fun b => b.ty == ty) + liveCount s0 ty := by
    unfold liveCount; rw [hp.countP_eq, List.countP_append]
  rw [h1, h2, hf, h3]; push_cast; omega

/-- No leak and no excess: at every point of every program that creates and destroys containers (in any order, some of them
twice) the live memory is exactly that of the containers that exist, plus what was live before; the counters differ by
exactly the number of their blocks; and the memory that was live before is not touched. Nothing is freed twice: the
program has no undefined behaviour. -/
theorem C65_memory_balance (E : Env) (hE : GoodEnv E) (ops0 : List AOp) (s0 : Sys) (h0 : AfterCalls ops0 s0)
    (ha : ∀ op ∈ ops0, AllocatorCall op) (ops : List Op) (hp : Proper ops) :
    ∃ objs s, execAll E ([], s0) ops = .ok (objs, s) ∧
      s.heap.Perm (ownedBlocks E.isz (track ops) objs ++ s0.heap) ∧
      (∀ ty, allocationCount s ty - deallocationCount s ty = allocationCount s0 ty - deallocationCount s0 ty +
        ((ownedBlocks E.isz (track ops) objs).countP (fun b => b.ty == ty) : Int)) ∧
      ∀ b ∈ s0.heap, ∀ a, InBlk b a → s.mem a = s0.mem a := by
  obtain ⟨⟨objs, s⟩, e, h⟩ := objects_run hE h0 ha hp
  exact ⟨objs, s, e, h.heap, fun ty => count_diff h.inv (reachable_inv h0) h.failed h.heap ty, h.mem⟩

/-- When all containers are destroyed, the live memory and the counters are balanced again: nothing leaked. -/
theorem C65_all_destroyed (E : Env) (hE : GoodEnv E) (ops0 : List AOp) (s0 : Sys) (h0 : AfterCalls ops0 s0)
    (ha : ∀ op ∈ ops0, AllocatorCall op) (ops : List Op) (hp : Proper ops) (hd : ∀ e ∈ track ops, e.2 = false) :
    ∃ objs s, execAll E ([], s0) ops = .ok (objs, s) ∧ s.heap.Perm s0.heap ∧
      ∀ ty, allocationCount s ty - deallocationCount s ty = allocationCount s0 ty - deallocationCount s0 ty := by
  obtain ⟨objs, s, e, h1, h2, -⟩ := C65_memory_balance E hE ops0 s0 h0 ha ops hp
  have hz : ownedBlocks E.isz (track ops) objs = [] := by
    unfold ownedBlocks
    rw [List.flatMap_eq_nil_iff]
    intro x hx
    have := hd x.1 (List.of_mem_zip hx).1
    simp [this]
  rw [hz] at h1 h2
  exact ⟨objs, s, e, by simpa using h1, fun ty => by simpa using h2 ty⟩

/-- The blocks of the containers that exist are disjoint from each other and from everything else that is live. -/
theorem C65_disjoint (E : Env) (hE : GoodEnv E) (ops0 : List AOp) (s0 : Sys) (h0 : AfterCalls ops0 s0)
    (ha : ∀ op ∈ ops0, AllocatorCall op) (ops : List Op) (hp : Proper ops) :
    ∃ objs s, execAll E ([], s0) ops = .ok (objs, s) ∧ (ownedBlocks E.isz (track ops) objs ++ s0.heap).Pairwise Apart ∧
      ∀ b ∈ ownedBlocks E.isz (track ops) objs, 0 < b.addr ∧ 0 < b.bytes ∧ Live s b.ty b.addr b.bytes := by
  obtain ⟨⟨objs, s⟩, e, h⟩ := objects_run hE h0 ha hp
  refine ⟨objs, s, e, Objects.Inv.apart h.inv h.heap, ?_⟩
  intro b hb
  have hm : b ∈ s.heap := h.heap.mem_iff.2 (by simp [hb])
  exact ⟨(h.inv.pos b hm).1, (h.inv.pos b hm).2.1, hm⟩

/-- A new container: its locks, occupied bits, counters and offsets are zero (for an unordered container except for the
excess list, see C37). -/
theorem C65_created_zero (E : Env) (hE : GoodEnv E) (ops0 : List AOp) (s0 : Sys) (h0 : AfterCalls ops0 s0)
    (ha : ∀ op ∈ ops0, AllocatorCall op) (ops : List Op) (k : Kind) (hp : Proper (ops ++ [.create k])) :
    ∃ objs s o, execAll E ([], s0) (ops ++ [.create k]) = .ok (objs ++ [o], s) ∧
      ∀ b ∈ zeroBlocks E.isz k o, ∀ a, InBlk b a → s.mem a = 0 := by
  have hp' : ProperFrom [] (ops ++ [.create k]) := hp
  obtain ⟨⟨objs, s⟩, e, h⟩ := objects_run hE h0 ha (ops := ops) hp'.append.1
  obtain ⟨o, s', e', -, g⟩ := create_grow hE h.inv h.sinv k (hp.1 k (by simp))
  refine ⟨objs, s', o, ?_, g.zero⟩
  rw [execAll_append, e]
  show execAll E (objs, s) [.create k] = _
  unfold execAll
  rw [List.foldlM_cons]
  show (exec E (objs, s) (.create k)).bind _ = _
  simp only [exec, e', bind, Except.bind]
  rfl

/-- Creating and destroying other containers neither changes a container nor the bytes of its memory. -/
theorem C65_untouched (E : Env) (hE : GoodEnv E) (ops0 : List AOp) (s0 : Sys) (h0 : AfterCalls ops0 s0)
    (ha : ∀ op ∈ ops0, AllocatorCall op) (ops ops' : List Op) (hp : Proper (ops ++ ops')) (i : Nat) (k : Kind)
    (hi : (track ops)[i]? = some (k, true)) (hn : Op.destroy i ∉ ops') :
    ∃ objs s objs' s' o, execAll E ([], s0) ops = .ok (objs, s) ∧ execAll E ([], s0) (ops ++ ops') = .ok (objs', s') ∧
      objs[i]? = some o ∧ objs'[i]? = some o ∧ (∀ b ∈ blocks E.isz k o, Live s' b.ty b.addr b.bytes) ∧
      ∀ b ∈ blocks E.isz k o, ∀ a, InBlk b a → s'.mem a = s.mem a := by
  have hp' : ProperFrom [] (ops ++ ops') := hp
  obtain ⟨⟨objs, s⟩, e, h⟩ := objects_run hE h0 ha (ops := ops) hp'.append.1
  have hlen : (track ops).length = objs.length := h.len
  have hil := (List.getElem?_eq_some_iff.1 hi).1
  have ho : objs[i]? = some objs[i] := List.getElem?_eq_getElem (by omega)
  obtain ⟨⟨objs', s'⟩, e', q1, q2, q3⟩ := h.untouched hE ops' _ _ hp'.append.2 i k _ hi ho hn
  obtain ⟨st2, e2, h2⟩ := h.run hE ops' _ _ hp'.append.2
  rw [e'] at e2; cases e2
  refine ⟨objs, s, objs', s', objs[i], e, ?_, ho, q1, ?_, q3⟩
  · rw [execAll_append, e]; exact e'
  · intro b hb
    exact h2.heap.mem_iff.2 (List.mem_append_left _ (owned_mem E.isz _ _ i k _ q2 q1 b hb))

/-! Examples: a backend that puts every block behind all others. -/

def exPick (s : Sys) (_ : Int) : Nat := 1 + (s.heap.map (fun b => b.addr + b.bytes.toNat)).sum

def exEnv : Env := ⟨List.range, exPick, 8, fun _ => 255⟩

theorem le_sum : ∀ (l : List Nat) (x : Nat), x ∈ l → x ≤ l.sum := by
  intro l
  induction l with
  | nil => simp
  | cons y l ih =>
    intro x hx
    rw [List.sum_cons]
    rcases List.mem_cons.1 hx with rfl | hx
    · omega
    · have := ih x hx; omega

theorem exEnv_good : GoodEnv exEnv := by
  refine ⟨fun n => List.Perm.refl _, ?_, by decide⟩
  intro s bytes _
  refine ⟨by simp [exEnv, exPick], ?_⟩
  intro ty p n hl
  right
  have h1 : p + n.toNat ∈ s.heap.map (fun b => b.addr + b.bytes.toNat) :=
    List.mem_map.2 ⟨⟨p, n, ty⟩, hl, rfl⟩
  have h2 := le_sum _ _ h1
  simp only [exEnv, exPick]
  omega

/-- Two device arrays of the user, then a vector, an unordered container and a deque; the vector is destroyed twice. -/
def exProg : List Op := [.create (.vector 5 8), .create (.unordered 4 2 12), .destroy 0, .create (.deque 3 4), .destroy 0, .destroy 7]

theorem exProg_proper : Proper exProg := by
  constructor
  · intro k hk
    simp [exProg] at hk
    rcases hk with rfl | rfl | rfl <;> simp [PosKind]
  · intro pre i post h e he hu
    have hlen := congrArg List.length h
    simp [exProg] at hlen
    have : ∀ n, n < 6 → pre = exProg.take n → (track pre)[i]? = some e → e.2 = true := by
      intro n hn hpre he
      have hop : exProg[n]? = some (.destroy i) := by
        have hl : pre.length = n := by rw [hpre, List.length_take]; simp [exProg]; omega
        rw [h, List.getElem?_append_right (by omega), hl]; simp
      interval_cases n <;> simp [exProg] at hop <;> subst hop <;> subst hpre <;> simp [exProg, track, trackStep] at he <;>
        subst he <;> simp [Kind.isUnordered] at hu ⊢
    have hpl : pre.length < 6 := by omega
    exact this pre.length hpl (by rw [h]; simp) he

example : AfterCalls exOps (stateAfter exOps) ∧ (∀ op ∈ exOps, AllocatorCall op) ∧ GoodEnv exEnv ∧ Proper exProg ∧
    track exProg = [(.vector 5 8, false), (.unordered 4 2 12, true), (.deque 3 4, true)] :=
  ⟨stateAfter_after (by decide +kernel), by simp [exOps, AllocatorCall], exEnv_good, exProg_proper, rfl⟩

/-- For examples: the number of live device blocks and their sizes after a program. -/
def exHeap (E : Env) (ops : List Op) : Option (List Int) :=
  match execAll E ([], Memory.init (fun _ => 0)) ops with
  | .ok (_, s) => some (s.heap.map (fun b => b.bytes))
  | .error _ => none

example : exHeap exEnv exProg = some [24, 12, 4, 4, 4, 4, 4, 48, 48, 72, 4, 4, 16, 4, 4, 4, 4, 4] ∧
    exHeap exEnv (exProg ++ [.destroy 2, .destroy 1]) = some [] := by
  constructor <;> decide +kernel

/-- A backend that reuses the address of the last freed array when the new array has the same size: the array of values. -/
def exReuse : Env := ⟨List.range, fun s bytes => if bytes = 72 then 500000 else exPick s bytes, 8, fun _ => 255⟩

/-- The vector of the counterexample. -/
def exObjVec : Option Obj → Bool
  | some (.vector ⟨⟨⟨a, b⟩⟩, ⟨c, d⟩, ⟨f⟩, g⟩) => decide ([a, b, c, d, f, g] = [1, 9, 6, 9, 16, 500000])
  | _ => false

/-- The code keeps the promise only for containers that are not destroyed twice: an unordered container keeps its pointers
to the values, the offsets and the range indices when it is destroyed (impl/unordered_base_detail.cuh:1310-1348), so
destroying it again frees the memory of another container that got the same address. The other containers can be destroyed
twice (`Proper` allows it). -/
theorem C65_counterexample_unordered_twice :
    ∃ (ops : List Op) (v : VectorObj) (objs objs' : List Obj) (s s' : Sys),
      execAll exReuse ([], Memory.init (fun _ => 0)) ops = .ok (objs, s) ∧
      execAll exReuse ([], Memory.init (fun _ => 0)) (ops ++ [.destroy 0]) = .ok (objs', s') ∧
      track ops = [(.unordered 4 2 12, false), (.vector 9 8, true)] ∧
      objs[1]? = some (.vector v) ∧ objs'[1]? = some (.vector v) ∧
      Live s .device v.data 72 ∧ ¬ ∃ n, Live s' .device v.data n := by
  have key : ∀ ops : List Op, (match execAll exReuse ([], Memory.init (fun _ => 0)) ops with
      | .ok _ => true | .error _ => false) = true → ∃ objs s, execAll exReuse ([], Memory.init (fun _ => 0)) ops = .ok (objs, s) := by
    intro ops h
    cases e : execAll exReuse ([], Memory.init (fun _ => 0)) ops with
    | error x => rw [e] at h; simp at h
    | ok x => exact ⟨x.1, x.2, rfl⟩
  let ops : List Op := [.create (.unordered 4 2 12), .destroy 0, .create (.vector 9 8)]
  obtain ⟨objs, s, e⟩ := key ops (by decide +kernel)
  obtain ⟨objs', s', e'⟩ := key (ops ++ [.destroy 0]) (by decide +kernel)
  have f1 : (match execAll exReuse ([], Memory.init (fun _ => 0)) ops with
      | .ok (objs, s) => exObjVec objs[(1 : Nat)]? && s.heap.any (fun b => b == ⟨500000, 72, .device⟩)
      | .error _ => false) = true := by decide +kernel
  have f2 : (match execAll exReuse ([], Memory.init (fun _ => 0)) (ops ++ [.destroy 0]) with
      | .ok (objs, s) => exObjVec objs[(1 : Nat)]? && s.heap.all (fun b => b.addr != 500000)
      | .error _ => false) = true := by decide +kernel
  have hv : ∀ L : List Obj, exObjVec L[(1 : Nat)]? = true → L[1]? = some (.vector ⟨⟨⟨1, 9⟩⟩, ⟨6, 9⟩, ⟨16⟩, 500000⟩) := by
    intro L hL
    unfold exObjVec at hL
    split at hL
    · rename_i h
      simp at hL
      rw [h]; obtain ⟨rfl, rfl, rfl, rfl, rfl, rfl⟩ := hL; rfl
    · simp at hL
  rw [e] at f1
  rw [e'] at f2
  simp only [Bool.and_eq_true] at f1 f2
  refine ⟨ops, ⟨⟨⟨1, 9⟩⟩, ⟨6, 9⟩, ⟨16⟩, 500000⟩, objs, objs', s, s', e, e', rfl, hv _ f1.1, hv _ f2.1, ?_, ?_⟩
  · simpa [Live] using f1.2
  · rintro ⟨n, hn⟩
    have := List.all_eq_true.1 f2.2 _ hn
    simp at this

/-! ### C66 -/

/-- The variables own what the specification says, each object has at most one owner, `destroyDeviceObject` has been called
exactly once for each object without an owner and never for the others, the live memory is exactly that of the owned
objects plus what was live before, and nothing goes wrong (no empty function is called, nothing is freed twice). -/
theorem C66_ownership (E : Env) (hE : GoodEnv E) (ops0 : List AOp) (s0 : Sys) (h0 : AfterCalls ops0 s0)
    (ha : ∀ op ∈ ops0, AllocatorCall op) (ops : List UOp) (hp : OkProg 0 ops) :
    ∃ u, execUAll E ⟨[], ([], s0), []⟩ ops = .ok u ∧
      u.slots.map Slot.ptr = (ownersAfter ops).own ∧
      (∀ n, (ownersAfter ops).own.count (some n) + u.calls.count n = if n < (kindsOf ops).length then 1 else 0) ∧
      u.st.2.heap.Perm (blocksOf E.isz (kindsOf ops) u.st.1 ((ownersAfter ops).own.filterMap id) ++ s0.heap) := by
  obtain ⟨u, l, e, h, -⟩ := (UInv.init (E := E) (reachable_inv h0) (reachable_sinv h0 ha)).run hE ops _ _ _ _ hp
  refine ⟨u, e, h.own, ?_, ?_⟩
  · intro n
    have := h.count n
    rw [← h.kinds.trans (List.nil_append _)]
    rw [List.length_map]; exact this
  · exact h.oinv.heap.trans (List.Perm.append_right _ h.heap_owned)

/-- When every variable is destructed (or moved from), everything is freed and `destroyDeviceObject` was called exactly once
for every object. -/
theorem C66_all_released (E : Env) (hE : GoodEnv E) (ops0 : List AOp) (s0 : Sys) (h0 : AfterCalls ops0 s0)
    (ha : ∀ op ∈ ops0, AllocatorCall op) (ops : List UOp) (hp : OkProg 0 ops) (hd : ∀ x ∈ (ownersAfter ops).own, x = none) :
    ∃ u, execUAll E ⟨[], ([], s0), []⟩ ops = .ok u ∧ u.st.2.heap.Perm s0.heap ∧ u.calls.Perm (List.range (kindsOf ops).length) := by
  obtain ⟨u, e, -, h2, h3⟩ := C66_ownership E hE ops0 s0 h0 ha ops hp
  have hz : (ownersAfter ops).own.filterMap id = [] := by
    rw [List.filterMap_eq_nil_iff]; intro x hx; simp [hd x hx]
  have hc : ∀ n, (ownersAfter ops).own.count (some n) = 0 := by
    intro n; rw [List.count_eq_zero]; intro hm; exact absurd (hd _ hm) (by simp)
  refine ⟨u, e, by rw [hz] at h3; simpa [blocksOf] using h3, ?_⟩
  rw [List.perm_iff_count]
  intro n
  have := h2 n
  rw [hc, Nat.zero_add] at this
  rw [this, List.count_range]

/-- `operator bool` tells whether the variable owns an object, and `operator*` / `operator->` then give it: the container
that was created, unchanged (handle and memory) however often it was moved. -/
theorem C66_access (E : Env) (hE : GoodEnv E) (ops0 : List AOp) (s0 : Sys) (h0 : AfterCalls ops0 s0)
    (ha : ∀ op ∈ ops0, AllocatorCall op) (ops ops' : List UOp) (hp : OkProg 0 (ops ++ ops')) (i j n : Nat)
    (hi : (ownersAfter ops).own[i]? = some (some n)) (hj : (ownersAfter (ops ++ ops')).own[j]? = some (some n)) :
    ∃ u u' o, execUAll E ⟨[], ([], s0), []⟩ ops = .ok u ∧ execUAll E ⟨[], ([], s0), []⟩ (ops ++ ops') = .ok u' ∧
      asBool u i = some true ∧ asBool u' j = some true ∧ deref u i = .ok o ∧ deref u' j = .ok o ∧
      ∀ k, (kindsOf ops)[n]? = some k → ∀ b ∈ blocks E.isz k o, Live u'.st.2 b.ty b.addr b.bytes ∧
        ∀ a, InBlk b a → u'.st.2.mem a = u.st.2.mem a := by
  have hp1 : OkProg 0 ops ∧ OkProg ((ops.map declares).sum) ops' := by
    have : ∀ (a : List UOp) (n : Nat), OkProg n (a ++ ops') → OkProg n a ∧ OkProg (n + (a.map declares).sum) ops' := by
      intro a
      induction a with
      | nil => intro n h; exact ⟨trivial, by simpa using h⟩
      | cons x a ih =>
        intro n h
        obtain ⟨h1, h2⟩ := ih _ h.2
        exact ⟨⟨h.1, h1⟩, by simpa [Nat.add_assoc] using h2⟩
    simpa using this ops 0 hp
  obtain ⟨u, l, e, h, -⟩ := (UInv.init (E := E) (reachable_inv h0) (reachable_sinv h0 ha)).run hE ops _ _ _ _ hp1.1
  obtain ⟨u2, l2, e2, h2, -⟩ := (UInv.init (E := E) (reachable_inv h0) (reachable_sinv h0 ha)).run hE (ops ++ ops') _ _ _ _ hp
  have hsl : u.slots.length = (ops.map declares).sum := by
    have : ∀ (a : List UOp) (w : Owners), (a.foldl ownStep w).own.length = w.own.length + (a.map declares).sum := by
      intro a
      induction a with
      | nil => intro w; simp
      | cons x a ih =>
        intro w
        rw [List.foldl_cons, ih]
        cases x <;> simp [ownStep, declares] <;> omega
    have h3 := this ops ⟨[], 0⟩
    rw [← h.own] at h3
    simpa using h3
  obtain ⟨u', l', e', h', -, stab⟩ := h.run hE ops' _ _ _ _ (by rw [hsl]; exact hp1.2)
  have he : execUAll E ⟨[], ([], s0), []⟩ (ops ++ ops') = .ok u' := by
    unfold execUAll at e e' ⊢
    rw [List.foldlM_append, e]; exact e'
  have hfold : ops'.foldl ownStep (ops.foldl ownStep ⟨[], 0⟩) = ownersAfter (ops ++ ops') := by
    unfold ownersAfter; rw [List.foldl_append]
  rw [hfold] at h' stab
  have hmi : some n ∈ (ops.foldl ownStep ⟨[], 0⟩).own := List.mem_of_getElem? hi
  have hmj : some n ∈ (ownersAfter (ops ++ ops')).own := List.mem_of_getElem? hj
  have hnl := ((h.mem_own n).1 hmi).1
  have hlen : l.length = u.st.1.length := h.oinv.len
  have ho : u.st.1[n]? = some u.st.1[n] := List.getElem?_eq_getElem (by omega)
  have hk : l[n]? = some l[n] := List.getElem?_eq_getElem hnl
  have hkk : (kindsOf ops)[n]? = some l[n].1 := by
    have : (l.map Prod.fst)[n]? = some l[n].1 := by rw [List.getElem?_map, hk]; rfl
    rwa [h.kinds.trans (List.nil_append _)] at this
  obtain ⟨q1, q2⟩ := stab n l[n].1 u.st.1[n] hmi hmj (by rw [List.nil_append]; exact hkk) ho
  have si : (u.slots[i]?).map Slot.ptr = some (some n) := by
    rw [← List.getElem?_map, h.own]; exact hi
  have sj : (u'.slots[j]?).map Slot.ptr = some (some n) := by
    rw [← List.getElem?_map, h'.own]; exact hj
  have acc : ∀ (v : UState) (m : Nat) (o : Obj), (v.slots[m]?).map Slot.ptr = some (some n) → v.st.1[n]? = some o →
      asBool v m = some true ∧ deref v m = .ok o := by
    intro v m o h1 h2
    cases hx : v.slots[m]? with
    | none => rw [hx] at h1; simp at h1
    | some x =>
      obtain ⟨p, d⟩ := x
      rw [hx] at h1; simp at h1
      subst h1
      simp [asBool, deref, hx, h2]
  refine ⟨u, u', u.st.1[n], e, he, (acc u i _ si ho).1, (acc u' j _ sj q1).1, (acc u i _ si ho).2, (acc u' j _ sj q1).2, ?_⟩
  intro k hkn b hb
  rw [hkk] at hkn; cases hkn
  refine ⟨?_, q2 b hb⟩
  have hperm := h'.oinv.heap.trans (List.Perm.append_right _ h'.heap_owned)
  refine hperm.mem_iff.2 (List.mem_append_left _ ?_)
  unfold blocksOf
  rw [List.mem_flatMap]
  refine ⟨n, by simpa using hmj, ?_⟩
  have hkl : n < (kindsOf ops).length := (List.getElem?_eq_some_iff.1 hkk).1
  rw [List.nil_append, List.getElem?_append_left hkl, hkk, q1]
  exact hb

/-- Two objects; the first is moved to a new variable, the second replaces it there, and a third is created. -/
def exUProg : List UOp := [.make (.vector 5 8), .make (.unordered 4 2 12), .null, .moveConstruct 0, .moveAssign 3 1, .make (.atomic),
  .moveAssign 2 4]

example : OkProg 0 exUProg ∧ (ownersAfter exUProg).own = [none, none, some 2, some 1, none] ∧
    (ownersAfter (exUProg.take 2)).own[1]? = some (some 1) ∧ kindsOf exUProg = [.vector 5 8, .unordered 4 2 12, .atomic] := by
  refine ⟨by simp [exUProg, OkProg, OkOp, declares, PosKind], by decide, by decide, by decide⟩

example : OkProg 0 (exUProg ++ [.destruct 2, .destruct 3, .destruct 0]) ∧
    ∀ x ∈ (ownersAfter (exUProg ++ [.destruct 2, .destruct 3, .destruct 0])).own, x = none := by
  refine ⟨by simp [exUProg, OkProg, OkOp, declares, PosKind], by decide⟩

/-- For examples: the calls of `destroyDeviceObject` and the number of live blocks. -/
def exU (ops : List UOp) : Option (List Nat × Nat) :=
  match execUAll exEnv ⟨[], ([], Memory.init (fun _ => 0)), []⟩ ops with
  | .ok u => some (u.calls, u.st.2.heap.length)
  | .error _ => none

example : exU exUProg = some ([0], 12) ∧ exU (exUProg ++ [.destruct 2, .destruct 3, .destruct 0]) = some ([0, 2, 1], 0) := by
  constructor <;> decide +kernel

end Stdgpu.Props
