import Verif.Proof.MemoryConc
import Verif.Spec.Memory
/-
C59: several host threads allocate and deallocate at the same time.

`owned` are the blocks that an allocation has returned and for which no deallocation has been called yet; `misuse` tells
that a deallocation was called for a non-null pointer that is not owned (for instance a second deallocation of a block);
`ub` tells that the backend was asked to free something that is no live block.
-/
namespace Stdgpu.Props
open Stdgpu.Memory Stdgpu.MemoryConc Stdgpu.Conc Stdgpu.Spec

/-- State of `programs`, one list of calls per thread, after a schedule. -/
def mrun (mem : Nat → BitVec 8) (programs : List (List MemoryConc.Op)) (sched : List Nat) : Conc.Sys Shared Thread :=
  run MemoryConc.step (MemoryConc.init mem programs) sched

/-- No call is in progress. -/
def Quiet (s : Conc.Sys Shared Thread) : Prop := ∀ t ∈ s.threads, t.pc = .idle

section
variable (mem : Nat → BitVec 8) (programs : List (List MemoryConc.Op)) (sched : List Nat)
  (hm : (mrun mem programs sched).shared.misuse = false)
include hm

/-- C59. In every state of every execution in which each block is deallocated at most once, nothing is freed that is not a
live block. -/
theorem C59_no_double_free : (mrun mem programs sched).shared.ub = false := (inv_run mem programs sched hm).inv.ub

/-- C59. Every block that was returned and not yet given back is live, and two different ones are disjoint (also from
the blocks that other threads are just allocating or freeing). -/
theorem C59_owned_live_disjoint :
    (∀ b ∈ (mrun mem programs sched).shared.owned, Live (mrun mem programs sched).shared.sys b.ty b.addr b.bytes ∧
      0 < b.addr ∧ 0 < b.bytes) ∧
    (mrun mem programs sched).shared.owned.Nodup ∧
    (∀ b c, b ∈ (mrun mem programs sched).shared.sys.heap → c ∈ (mrun mem programs sched).shared.sys.heap → b ≠ c →
      (b.addr : Int) + b.bytes ≤ c.addr ∨ (c.addr : Int) + c.bytes ≤ b.addr) := by
  have h := (inv_run mem programs sched hm).inv
  refine ⟨fun b hb => ⟨h.owned_heap hb, (h.pos b (h.owned_heap hb)).1, (h.pos b (h.owned_heap hb)).2.1⟩, ?_, ?_⟩
  · exact (List.nodup_append.1 h.nodup).1
  · intro b c hb hc hne
    have hsym : Std.Symm (fun b c : Block => (b.addr : Int) + b.bytes ≤ c.addr ∨ (c.addr : Int) + c.bytes ≤ b.addr) :=
      ⟨fun x y hxy => hxy.symm⟩
    exact h.disj.forall hb hc hne

/-- C59. At every moment the size and type that the library reports for an owned block are the requested ones. -/
theorem C59_size_and_type (p : Nat) (n : Int) (ty : MemType)
    (hb : (⟨p, n, ty⟩ : Block) ∈ (mrun mem programs sched).shared.owned) :
    sizeBytes (mrun mem programs sched).shared.sys p = n ∧ dynamicMemoryType (mrun mem programs sched).shared.sys p = ty :=
  ⟨(inv_run mem programs sched hm).inv.sizeBytes_owned hb, (inv_run mem programs sched hm).inv.type_owned hb⟩

/-- C59. Whenever no call is in progress, the live blocks are exactly the owned ones, and the difference of the allocation
counters is their number plus the number of refused allocations; so nothing leaks. -/
theorem C59_counters_balance (hq : Quiet (mrun mem programs sched)) :
    (mrun mem programs sched).shared.sys.heap.Perm (mrun mem programs sched).shared.owned ∧
    ∀ ty, allocationCount (mrun mem programs sched).shared.sys ty - deallocationCount (mrun mem programs sched).shared.sys ty =
      liveCount (mrun mem programs sched).shared.sys ty + (mrun mem programs sched).shared.sys.failed ty := by
  have h := (inv_run mem programs sched hm).inv
  have hz : ∀ {β : Type} (f : Thread → List β), (∀ t, t.pc = .idle → f t = []) →
      (run MemoryConc.step (MemoryConc.init mem programs) sched).threads.flatMap f = [] := fun f hf =>
    List.flatMap_eq_nil_iff.2 (fun t ht => hf t (hq t ht))
  have hH := hz held (fun t ht => by simp [held, ht])
  have hA := hz inA (fun t ht => by simp [inA, ht])
  have hp := h.perm
  rw [hH, List.append_nil] at hp
  refine ⟨hp, fun ty => ?_⟩
  have hc := h.count ty
  have hF : ((run MemoryConc.step (MemoryConc.init mem programs) sched).threads.map (fun t => pendFail t ty)).sum = 0 := by
    rw [sum_map_eq_zero]
    intro t ht
    simp [pendFail, hq t ht]
  rw [hF, hA, List.append_nil, ← cnt_perm hp] at hc
  simpa [allocationCount, deallocationCount, liveCount, cnt, mrun] using hc

end

/-- C59. A non-null pointer that an allocation returns is owned at that moment, with the requested size and type. -/
theorem C59_returned (mem : Nat → BitVec 8) (programs : List (List MemoryConc.Op)) (sched : List Nat) (i : Nat) (t t' : Thread)
    (ht : (mrun mem programs sched).threads[i]? = some t) (ht' : (mrun mem programs (sched ++ [i])).threads[i]? = some t')
    (hm : (mrun mem programs sched).shared.misuse = false)
    (ty : MemType) (bytes : Int) (addr p : Nat) (hp : p ≠ 0) (hd : t'.done = t.done ++ [(.alloc ty bytes addr, p)]) :
    (⟨p, bytes, ty⟩ : Block) ∈ (mrun mem programs (sched ++ [i])).shared.owned := by
  have e : mrun mem programs (sched ++ [i]) = stepAt MemoryConc.step (mrun mem programs sched) i := by
    simp [mrun, run, List.foldl_append]
  rw [e] at ht' ⊢
  unfold stepAt at ht' ⊢
  rw [ht] at ht' ⊢
  simp only at ht' ⊢
  rw [List.getElem?_set_self (by exact (List.getElem?_eq_some_iff.1 ht).1)] at ht'
  obtain rfl := Option.some.inj ht'
  exact step_returns _ t (pcMatch_run mem programs sched t (List.mem_of_getElem? ht))
    ((inv_run mem programs sched hm).ok t (List.mem_of_getElem? ht)) ty bytes addr p hp hd

/-- C59. An owned block stays owned as long as nobody calls its deallocation. -/
theorem C59_stays_owned (mem : Nat → BitVec 8) (programs : List (List MemoryConc.Op)) (sched : List Nat) (i : Nat) (b : Block)
    (hb : b ∈ (mrun mem programs sched).shared.owned)
    (hn : ∀ t rest, (mrun mem programs sched).threads[i]? = some t → t.todo ≠ .free b.ty b.addr :: rest) :
    b ∈ (mrun mem programs (sched ++ [i])).shared.owned := by
  have e : mrun mem programs (sched ++ [i]) = stepAt MemoryConc.step (mrun mem programs sched) i := by
    simp [mrun, run, List.foldl_append]
  rw [e]
  unfold stepAt
  split
  · exact hb
  · next t ht => exact step_stays _ t b hb (fun rest => hn t rest ht)

/-- Two threads; each allocates and one of them frees, interleaved step by step. -/
def exConcAlloc : List (List MemoryConc.Op) := [[.alloc .device 16 100, .free .device 100, .alloc .host 8 100], [.alloc .device 4 116, .alloc .device 4 300]]

def exConcSched : List Nat := List.flatten (List.replicate 14 [0, 1])

example : (mrun (fun _ => 0) exConcAlloc exConcSched).shared.misuse = false ∧
    (mrun (fun _ => 0) exConcAlloc exConcSched).shared.owned = [⟨100, 8, .host⟩, ⟨300, 4, .device⟩, ⟨116, 4, .device⟩] ∧
    (mrun (fun _ => 0) exConcAlloc exConcSched).threads.map (·.pc) = [.idle, .idle] ∧
    allocationCount (mrun (fun _ => 0) exConcAlloc exConcSched).shared.sys .device = 3 ∧
    deallocationCount (mrun (fun _ => 0) exConcAlloc exConcSched).shared.sys .device = 1 := by
  refine ⟨by decide +kernel, by decide +kernel, by decide +kernel, by decide +kernel, by decide +kernel⟩

/-- C59. Two threads that deallocate the same block at the same time can free it twice, and both deallocations are counted,
although a second deallocation that comes later is rejected (C41): the check and the removal of the registration are not
one atomic action. -/
theorem C59_counterexample_racing_deallocations :
    (mrun (fun _ => 0) [[.alloc .device 16 100, .free .device 100], [.free .device 100]]
      [0, 0, 0, 0, 0, 0, 0, 1, 1, 0, 1, 0, 1, 0, 1]).shared.ub = true ∧
    deallocationCount (mrun (fun _ => 0) [[.alloc .device 16 100, .free .device 100], [.free .device 100]]
      [0, 0, 0, 0, 0, 0, 0, 1, 1, 0, 1, 0, 1, 0, 1]).shared.sys .device = 2 ∧
    allocationCount (mrun (fun _ => 0) [[.alloc .device 16 100, .free .device 100], [.free .device 100]]
      [0, 0, 0, 0, 0, 0, 0, 1, 1, 0, 1, 0, 1, 0, 1]).shared.sys .device = 1 ∧
    (mrun (fun _ => 0) [[.alloc .device 16 100, .free .device 100], [.free .device 100]]
      [0, 0, 0, 0, 0, 0, 0, 0, 0, 1, 1, 1, 1]).shared.ub = false ∧
    deallocationCount (mrun (fun _ => 0) [[.alloc .device 16 100, .free .device 100], [.free .device 100]]
      [0, 0, 0, 0, 0, 0, 0, 0, 0, 1, 1, 1, 1]).shared.sys .device = 1 := by
  refine ⟨by decide +kernel, by decide +kernel, by decide +kernel, by decide +kernel, by decide +kernel⟩

end Stdgpu.Props
