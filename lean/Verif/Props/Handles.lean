import Verif.Props.Objects
/-! C91: copies of a container handle. -/
namespace Stdgpu.Props
open Stdgpu.Spec Stdgpu.Objects
open Stdgpu.Memory (Sys Block MemType AOp Inv SInv)

/-- No block of the container is live (any more): the backend has not placed a new array at one of its addresses. -/
def NotReused (isz : Nat) (k : Kind) (o : Obj) (s : Sys) : Prop := ∀ b ∈ blocks isz k o, ∀ n, ¬ Live s .device b.addr n

/-- Destroying a handle whose blocks are not live has no effect on the memory and the counters. -/
theorem destroy_dead {s : Sys} (h : Inv s) (hs : SInv s) (isz : Nat) (k : Kind) (o : Obj) (hk : Fits k o)
    (hd : NotReused isz k o s) : ∃ o', destroy s o = .ok (o', s) := by
  have f : ∀ b ∈ blocks isz k o, Memory.safeDeallocate s b.addr .device = .ok s :=
    fun b hb => free_dead h hs (fun n hn => hd b hb n hn)
  cases k <;> cases o <;> first | exact hk.elim | skip
  · rename_i o
    have e := f ⟨o.value, 4, .device⟩ (by simp [blocks, zeroBlocks, atomicBlocks])
    exact ⟨_, by simp only [destroy, destroyAtomic, e, bind, Except.bind, pure, Except.pure]; rfl⟩
  · rename_i n o
    have e := f ⟨o.bits, bitBytes n, .device⟩ (by simp [blocks, zeroBlocks, bitsetBlocks])
    exact ⟨_, by simp only [destroy, destroyBitset, e, bind, Except.bind, pure, Except.pure]; rfl⟩
  · rename_i n o
    have e := f ⟨o.bits.bits, bitBytes n, .device⟩ (by simp [blocks, zeroBlocks, bitsetBlocks])
    exact ⟨_, by simp only [destroy, destroyMutex, destroyBitset, e, bind, Except.bind, pure, Except.pure]; rfl⟩
  · rename_i n esz o
    have e1 := f (arrayBlock o.data n esz) (by simp [blocks, rawBlocks])
    have e2 := f ⟨o.locks.bits.bits, bitBytes n, .device⟩ (by simp [blocks, zeroBlocks, bitsetBlocks])
    have e3 := f ⟨o.occupied.bits, bitBytes n, .device⟩ (by simp [blocks, zeroBlocks, bitsetBlocks])
    have e4 := f ⟨o.size.value, 4, .device⟩ (by simp [blocks, zeroBlocks, atomicBlocks])
    simp only [arrayBlock] at e1
    exact ⟨_, by
      simp only [destroy, destroyVector, destroyMutex, destroyBitset, destroyAtomic, e1, e2, e3, e4, bind, Except.bind, pure,
        Except.pure]; rfl⟩
  · rename_i n esz o
    have e1 := f (arrayBlock o.data n esz) (by simp [blocks, rawBlocks])
    have e1' := f (arrayBlock o.rangeIndices n isz) (by simp [blocks, rawBlocks])
    have e2 := f ⟨o.locks.bits.bits, bitBytes n, .device⟩ (by simp [blocks, zeroBlocks, bitsetBlocks])
    have e3 := f ⟨o.occupied.bits, bitBytes n, .device⟩ (by simp [blocks, zeroBlocks, bitsetBlocks])
    have e4 := f ⟨o.size.value, 4, .device⟩ (by simp [blocks, zeroBlocks, atomicBlocks])
    have e5 := f ⟨o.begin_.value, 4, .device⟩ (by simp [blocks, zeroBlocks, atomicBlocks])
    have e6 := f ⟨o.end_.value, 4, .device⟩ (by simp [blocks, zeroBlocks, atomicBlocks])
    simp only [arrayBlock] at e1 e1'
    exact ⟨_, by
      simp only [destroy, destroyDeque, destroyMutex, destroyBitset, destroyAtomic, e1, e1', e2, e3, e4, e5, e6, bind, Except.bind,
        pure, Except.pure]; rfl⟩
  · rename_i bc ec esz o
    have e1 := f (arrayBlock o.values (bc + ec) esz) (by simp [blocks, rawBlocks])
    have e2 := f (arrayBlock o.offsets (bc + ec) isz) (by simp [blocks, zeroBlocks])
    have e3 := f (arrayBlock o.rangeIndices (bc + ec) isz) (by simp [blocks, rawBlocks])
    have e4 := f ⟨o.occupied.bits, bitBytes (bc + ec), .device⟩ (by simp [blocks, zeroBlocks, bitsetBlocks])
    have e5 := f ⟨o.count.value, 4, .device⟩ (by simp [blocks, zeroBlocks, atomicBlocks])
    have e6 := f ⟨o.locks.bits.bits, bitBytes (bc + ec), .device⟩ (by simp [blocks, zeroBlocks, bitsetBlocks])
    have e7 := f (arrayBlock o.excess.data ec isz) (by simp [blocks, rawBlocks])
    have e8 := f ⟨o.excess.locks.bits.bits, bitBytes ec, .device⟩ (by simp [blocks, zeroBlocks, bitsetBlocks])
    have e9 := f ⟨o.excess.occupied.bits, bitBytes ec, .device⟩ (by simp [blocks, rawBlocks, bitsetBlocks])
    have e10 := f ⟨o.excess.size.value, 4, .device⟩ (by simp [blocks, rawBlocks, atomicBlocks])
    have e11 := f ⟨o.rangeEnd.value, 4, .device⟩ (by simp [blocks, zeroBlocks, atomicBlocks])
    simp only [arrayBlock] at e1 e2 e3 e7
    exact ⟨_, by
      simp only [destroy, destroyUnordered, destroyVector, destroyMutex, destroyBitset, destroyAtomic, e1, e2, e3, e4, e5, e6, e7,
        e8, e9, e10, e11, bind, Except.bind, pure, Except.pure]; rfl⟩

/-- Running one more `destroy`. -/
theorem exec_destroy {E : Env} {s0 s s1 : Sys} {ops : List Op} {objs : List Obj} {i : Nat} {o o' : Obj}
    (e : execAll E ([], s0) ops = .ok (objs, s)) (ho : objs[i]? = some o) (hd : destroy s o = .ok (o', s1)) :
    execAll E ([], s0) (ops ++ [.destroy i]) = .ok (objs.set i o', s1) := by
  rw [execAll_append, e]
  show execAll E (objs, s) [.destroy i] = _
  unfold execAll
  rw [List.foldlM_cons]
  show (exec E (objs, s) (.destroy i)).bind _ = _
  simp only [exec, ho, hd, bind, Except.bind]
  rfl

/-- A copy of a handle, made at any time (after the calls `ops`), refers to the same container later (after `ops'`, which do
not destroy it): destroying the container through the copy frees exactly the memory of the container, changes no byte, and
leaves the memory and the counters in the same state as destroying it through the original. -/
theorem C91_copy (E : Env) (hE : GoodEnv E) (ops0 : List AOp) (s0 : Sys) (h0 : AfterCalls ops0 s0)
    (ha : ∀ op ∈ ops0, AllocatorCall op) (ops ops' : List Op) (hp : Proper (ops ++ ops')) (i : Nat) (k : Kind)
    (hi : (track ops)[i]? = some (k, true)) (hn : Op.destroy i ∉ ops') :
    ∃ objs s copy objs' s' o'' s'' objs'', execAll E ([], s0) ops = .ok (objs, s) ∧ objs[i]? = some copy ∧
      execAll E ([], s0) (ops ++ ops') = .ok (objs', s') ∧ destroy s' copy = .ok (o'', s'') ∧
      s'.heap.Perm (blocks E.isz k copy ++ s''.heap) ∧ s''.mem = s'.mem ∧
      execAll E ([], s0) (ops ++ ops' ++ [.destroy i]) = .ok (objs'', s'') := by
  have hp' : ProperFrom [] (ops ++ ops') := hp
  obtain ⟨⟨objs, s⟩, e, h⟩ := objects_run hE h0 ha (ops := ops) hp'.append.1
  have hlen : (track ops).length = objs.length := h.len
  have hil := (List.getElem?_eq_some_iff.1 hi).1
  have ho : objs[i]? = some objs[i] := List.getElem?_eq_getElem (by omega)
  obtain ⟨⟨objs', s'⟩, e', q1, q2, -⟩ := h.untouched hE ops' _ _ hp'.append.2 i k _ hi ho hn
  obtain ⟨st2, e2, h2⟩ := h.run hE ops' _ _ hp'.append.2
  rw [e'] at e2; cases e2
  have er : execAll E ([], s0) (ops ++ ops') = .ok (objs', s') := by rw [execAll_append, e]; exact e'
  have hrem := owned_remove E.isz _ _ i k _ objs[i] q2 q1
  have hh := h2.heap.trans (hrem.append_right s0.heap)
  rw [List.append_assoc] at hh
  obtain ⟨s'', ed, -, -, -, hm, hp2⟩ := destroy_owned h2.inv h2.sinv E.isz k objs[i] (h2.fits i (k, true) _ q2 q1).1 hh
  exact ⟨objs, s, objs[i], objs', s', _, s'', _, e, ho, er, ed, hh.trans (hp2.symm.append_left _), hm, exec_destroy er q1 ed⟩

/-- After the container was destroyed, destroying it again through a copy of the handle has no effect, neither on the memory
nor on the counters, as long as the backend has not placed another array at one of the addresses. -/
theorem C91_stale_copy (E : Env) (hE : GoodEnv E) (ops0 : List AOp) (s0 : Sys) (h0 : AfterCalls ops0 s0)
    (ha : ∀ op ∈ ops0, AllocatorCall op) (ops ops' : List Op) (i : Nat) (hp : Proper (ops ++ .destroy i :: ops')) (k : Kind)
    (hi : (track ops)[i]? = some (k, true)) :
    ∃ objs s copy objs' s', execAll E ([], s0) ops = .ok (objs, s) ∧ objs[i]? = some copy ∧
      execAll E ([], s0) (ops ++ .destroy i :: ops') = .ok (objs', s') ∧
      (NotReused E.isz k copy s' → ∃ o', destroy s' copy = .ok (o', s')) := by
  have hp' : ProperFrom [] (ops ++ .destroy i :: ops') := hp
  obtain ⟨⟨objs, s⟩, e, h⟩ := objects_run hE h0 ha (ops := ops) hp'.append.1
  obtain ⟨⟨objs', s'⟩, e', h'⟩ := objects_run hE h0 ha hp
  have hlen : (track ops).length = objs.length := h.len
  have hil := (List.getElem?_eq_some_iff.1 hi).1
  have ho : objs[i]? = some objs[i] := List.getElem?_eq_getElem (by omega)
  exact ⟨objs, s, objs[i], objs', s', e, ho, e', destroy_dead h'.inv h'.sinv E.isz k _ (h.fits i (k, true) _ hi ho).1⟩

/-- In particular right after the container was destroyed. -/
theorem C91_stale_at_once (E : Env) (hE : GoodEnv E) (ops0 : List AOp) (s0 : Sys) (h0 : AfterCalls ops0 s0)
    (ha : ∀ op ∈ ops0, AllocatorCall op) (ops : List Op) (hp : Proper ops) (i : Nat) (k : Kind)
    (hi : (track ops)[i]? = some (k, true)) :
    ∃ objs s copy objs' s' o', execAll E ([], s0) ops = .ok (objs, s) ∧ objs[i]? = some copy ∧
      execAll E ([], s0) (ops ++ [.destroy i]) = .ok (objs', s') ∧ destroy s' copy = .ok (o', s') := by
  obtain ⟨⟨objs, s⟩, e, h⟩ := objects_run hE h0 ha hp
  have hlen : (track ops).length = objs.length := h.len
  have hil := (List.getElem?_eq_some_iff.1 hi).1
  have ho : objs[i]? = some objs[i] := List.getElem?_eq_getElem (by omega)
  have hh := h.heap.trans ((owned_remove E.isz _ _ i k _ objs[i] hi ho).append_right s0.heap)
  rw [List.append_assoc] at hh
  have hf := (h.fits i (k, true) _ hi ho).1
  obtain ⟨s', ed, hi', hs', -, -, hp2⟩ := destroy_owned h.inv h.sinv E.isz k objs[i] hf hh
  have hap := Objects.Inv.apart h.inv (hh.trans (hp2.symm.append_left _))
  obtain ⟨o', eo⟩ := destroy_dead hi' hs' E.isz k objs[i] hf (by
    intro b hb n hl
    have hb' := h.inv.pos b (hh.mem_iff.2 (by simp [hb]))
    have hc' := hi'.pos _ hl
    have := (List.pairwise_append.1 hap).2.2 b hb _ hl
    rcases this with h1 | h1 <;> simp only at h1 hc' <;> omega)
  exact ⟨objs, s, objs[i], _, s', o', e, ho, exec_destroy e ho ed, eo⟩

/-- The handle of object `i` after a program (for examples). -/
def exHandle (E : Env) (ops : List Op) (i : Nat) : Option (Obj × Sys) :=
  match execAll E ([], Memory.init (fun _ => 0)) ops with
  | .ok (objs, s) => objs[i]?.map (fun o => (o, s))
  | .error _ => none

/-- Nothing protects a container from a stale copy: when the backend has given the address to another container, destroying
the first one again through the copy frees the memory of the other one. -/
theorem C91_counterexample_reused :
    ∃ (ops ops' : List Op) (copy o : Obj) (s s' : Sys) (p : Nat), Proper (ops ++ .destroy 0 :: ops') ∧
      track (ops ++ .destroy 0 :: ops') = [(.vector 9 8, false), (.vector 9 8, true)] ∧
      exHandle exReuse ops 0 = some (copy, s) ∧ exHandle exReuse (ops ++ .destroy 0 :: ops') 1 = some (o, s') ∧
      arrayBlock p 9 8 ∈ blocks 8 (.vector 9 8) o ∧ Live s' .device p 72 ∧
      ∃ o' s'', destroy s' copy = .ok (o', s'') ∧ ¬ ∃ n, Live s'' .device p n := by
  have hp : Proper [.create (.vector 9 8), .destroy 0, .create (.vector 9 8)] := by
    constructor
    · intro k hk
      simp at hk
      subst hk; simp [PosKind]
    · intro pre i post h e he hu
      have hlen := congrArg List.length h
      simp at hlen
      have hd : ∀ e ∈ track pre, Kind.isUnordered e.1 = false := by
        have hpre : pre = [Op.create (.vector 9 8), .destroy 0, .create (.vector 9 8)].take pre.length := by rw [h]; simp
        have hl : pre.length < 3 := by omega
        rw [hpre]
        interval_cases pre.length <;> simp [track, trackStep, Kind.isUnordered]
      rw [hd e (List.mem_of_getElem? he)] at hu
      exact absurd hu (by simp)
  have f : (match exHandle exReuse [.create (.vector 9 8)] 0,
      exHandle exReuse [.create (.vector 9 8), .destroy 0, .create (.vector 9 8)] 1 with
    | some (copy, _), some (.vector v, s') =>
      decide (v.data = 500000) && s'.heap.any (fun b => b == ⟨500000, 72, .device⟩) &&
        (match destroy s' copy with
          | .ok (_, s'') => s''.heap.all (fun b => b.addr != 500000)
          | .error _ => false)
    | _, _ => false) = true := by decide +kernel
  split at f
  · rename_i copy s v s' e1 e2
    simp only [Bool.and_eq_true, decide_eq_true_eq] at f
    obtain ⟨⟨hv, hl⟩, hd⟩ := f
    split at hd
    · rename_i o' s'' e3
      refine ⟨[.create (.vector 9 8)], [.create (.vector 9 8)], copy, .vector v, s, s', 500000, hp, rfl, e1, e2, ?_, ?_, o', s'', e3,
        ?_⟩
      · simp [blocks, rawBlocks, hv]
      · simpa [Live] using hl
      · rintro ⟨n, hn⟩
        have := List.all_eq_true.1 hd _ hn
        simp at this
    · simp at hd
  · simp at f

/-- Instances of the hypotheses: a vector, an unordered container and a deque, of which the vector is destroyed; the deque is
copied and other containers are created and destroyed. -/
example : GoodEnv exEnv ∧ Proper (exProg.take 2 ++ exProg.drop 2) ∧ (track (exProg.take 2))[1]? = some (.unordered 4 2 12, true) ∧
    Op.destroy 1 ∉ exProg.drop 2 ∧ Proper (exProg.take 2 ++ .destroy 0 :: exProg.drop 3) ∧
    (track (exProg.take 2))[0]? = some (.vector 5 8, true) :=
  ⟨exEnv_good, exProg_proper, rfl, by decide, exProg_proper, rfl⟩

end Stdgpu.Props
