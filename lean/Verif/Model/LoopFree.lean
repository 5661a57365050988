import Verif.Model.UnorderedConc
/-
`loop_free` of impl/unordered_base_detail.cuh, part of `valid()`, with one thread per bucket and the single accesses to memory
interleaved in any way. (In Model/Unordered.lean the walk of a bucket is one step.) The offsets do not change meanwhile: `valid()`
is a host operation. The container may be in any state.
-/
namespace Stdgpu.LoopFree
open Stdgpu.Conc
open Stdgpu.SlotConc (upd)
open Stdgpu.Unordered

variable {K V : Type}

/-- impl/unordered_base_detail.cuh:322-325: the array `flags`; ghost: a thread has left the table. -/
structure Mem where
  flags : Nat → Nat
  oob : Bool

/-- Program points of `count_visits::operator()`. impl/unordered_base_detail.cuh:268-291: before the increment for the bucket
(l.273), the two reads of the offset (l.275, 277), the increment for the next entry (l.279), the check of its flag (l.282). -/
inductive VPC where
  | start (i : Nat) | off1 (p : Nat) | off2 (p : Nat) | inc (q : Nat) | chk (q : Nat) | done
  deriving DecidableEq

/-- impl/unordered_base_detail.cuh:268-291 `count_visits::operator()`: one access to memory. The read of the flag for the
message (l.284-288) is not modelled. A thread that leaves the table is stopped. -/
def step (t : Tab V) (m : Mem) : VPC → Mem × VPC
  | .start i => ({ m with flags := upd m.flags i (m.flags i + 1), oob := m.oob || decide (t.total ≤ i) }, .off1 i)
  | .off1 p => (m, if t.off p = 0 then .done else .off2 p)
  | .off2 p =>
    match UnorderedConc.hop t p with
    | none => ({ m with oob := true }, .done)
    | some q => (m, .inc q)
  | .inc q => ({ m with flags := upd m.flags q (m.flags q + 1) }, .chk q)
  | .chk q => (m, if m.flags q > 1 then .done else .off1 q)
  | .done => (m, .done)

/-- impl/unordered_base_detail.cuh:322-329: all flags are zero, and a thread is started for every bucket. -/
def init (t : Tab V) : Sys Mem VPC := ⟨⟨fun _ => 0, false⟩, (List.range t.bc).map .start⟩

/-- impl/unordered_base_detail.cuh:327-329: the loop over the buckets, after the steps of a schedule. -/
def visits (t : Tab V) (sched : List Nat) : Sys Mem VPC := run (step t) (init t) sched

/-- impl/unordered_base_detail.cuh:316-350 `loop_free`; `none` as long as some thread has not finished. -/
def loopFree (t : Tab V) (sched : List Nat) : Option Bool :=
  if (visits t sched).threads.all (fun pc => decide (pc = .done)) then
    some ((List.range t.total).all (fun i => decide ((visits t sched).shared.flags i ≤ 1)))
  else none

/-- impl/unordered_base_detail.cuh:1199-1218 `valid`, with the interleaved `loop_free`. The other loops only read. `none` as long
as the threads of `loop_free` have not finished. -/
def valid (P : Params K V) (t : Tab V) (sched : List Nat) : Option (Except Vector.Fault Bool) :=
  if t.total = 0 then some (.ok true)
  else if !(List.range t.total).all (offsetInsideRange t) then some (.ok false)
  else (loopFree t sched).map fun b =>
    if !b then .ok false
    else do
      let c ← allM (valueReachable P t) (List.range t.total)
      if !c then return false
      let d ← allM (valueUnique P t) (List.range t.total)
      return d && (size t == (Vector.countBits t.total t.occ : Int)) && (Vector.countBits t.total t.locks == 0) &&
        Vector.valid t.excess

end Stdgpu.LoopFree
