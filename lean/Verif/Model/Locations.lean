import Verif.Model.SlotAccess
import Verif.Model.Vector
import Verif.Model.Deque
import Verif.Model.UnorderedConc
/-
The shared variables that a thread accesses in its next step of `push_*` / `pop_*` of vector and deque
(`Model/SlotConc.lean`) and of `insert` / `erase` / `find` of the unordered containers (`Model/UnorderedConc.lean`):
elements, lock bits, occupied bits, counters, offsets, atomic or not. The initial copy of `_data[0]` of `pop_*`
(vector_detail.cuh:245, deque_detail.cuh:265, 393) is counted with the first step of the operation. That these functions
are the footprints of the steps of the model is proved in `Props/Addresses.lean` (C87).

A handle (pointers, capacities) is passed to the threads by value and is not shared.
-/
namespace Stdgpu.SlotConc

/-- Shared variables of a vector or a deque: `_data[p]`, the lock bit and the occupied bit of `p`, the counters.
vector.cuh:587-590, deque.cuh:430-436. -/
inductive SLoc where
  | data (p : Nat) | lock (p : Nat) | occ (p : Nat) | size | begin_ | end_
  deriving DecidableEq

/-- vector_detail.cuh:202-226 (push), 262-287 (pop); deque_detail.cuh:225-249, 285-310, 353-377, 412-437. -/
def SPC.loc {α : Type} (p : Nat) : SPC α → SLoc
  | .tryLock | .unlockRetry | .unlockDone _ => .lock p
  | .check | .setOcc | .resetOcc => .occ p
  | .construct | .take | .destroy _ => .data p

/-- The variables that the next step accesses; `floc` are those of the front end. impl/vector_detail.cuh:181-299,
impl/deque_detail.cuh:203-446; the steps are those of `SlotConc.step`. -/
def slocs {K F α : Type} (start : F → Bool) (floc : Bool → K → F → SLoc) (t : Thread K F α) : List SLoc :=
  match t.todo, t.pc with
  | [], _ => []
  | .push k _ :: _, .front f => [floc true k f]
  | .pop k :: _, .front f => if start f then [.data 0, floc false k f] else [floc false k f]
  | _ :: _, .slot p s => [s.loc p]

end Stdgpu.SlotConc

namespace Stdgpu.Vector
open Stdgpu.SlotConc

/-- The first step of an operation: vector_detail.cuh:188, 248. -/
def FPC.first : FPC → Bool
  | .check => true
  | .rmw => false

/-- vector_detail.cuh:181-299: both accesses of the front end are to `_size`. -/
def locs {α : Type} (t : Thread Unit FPC α) : List SLoc := slocs FPC.first (fun _ _ _ => .size) t

end Stdgpu.Vector

namespace Stdgpu.Deque
open Stdgpu.SlotConc

/-- The first step of an operation: deque_detail.cuh:209, 268, 336, 396. -/
def FPC.first : FPC → Bool
  | .check => true
  | _ => false

/-- deque_detail.cuh:203-446: `_size` twice, then `_end` for the operations at the back and `_begin` for those at the
front. -/
def locs {α : Type} (t : Thread Side FPC α) : List SLoc :=
  slocs FPC.first (fun _ side f => match f, side with | .pos, .back => .end_ | .pos, .front => .begin_ | _, _ => .size) t

end Stdgpu.Deque

namespace Stdgpu.UnorderedConc
open Stdgpu.Unordered
open Stdgpu.SlotConc (SLoc)

/-- Shared variables of an unordered container: `_values[p]`, `_offsets[p]`, lock bit, occupied bit, `_occupied_count`,
and those of the free list `_excess_list_positions`. impl/unordered_base.cuh:526-544. -/
inductive ULoc where
  | val (p : Nat) | off (p : Nat) | lock (p : Nat) | occ (p : Nat) | count | ex (l : SLoc)
  deriving DecidableEq

/-- impl/unordered_base_detail.cuh:655-682 `find_impl`. -/
def Walk.loc : Walk → ULoc
  | .occ w => .occ w
  | .val w => .val w
  | .off1 w | .off2 w => .off w

/-- impl/unordered_base_detail.cuh:915-956 `find_linked_list_end`, `find_previous_entry_position`. -/
def Hop.loc : Hop → ULoc
  | .off1 w | .off2 w => .off w

/-- impl/unordered_base_detail.cuh:967-994 `insert`, 708-809 `try_insert`; `b` is the bucket. -/
def IPC.locs (b : Nat) (ex : Ex) : IPC → List ULoc
  | .full | .cntB | .cnt _ _ => [.count]
  | .exc => [.ex .size]
  | .c1 w | .c2 w | .c3 _ _ w => [w.loc]
  | .e1 w | .e2 _ w => [w.loc]
  | .occ1 | .occ2 | .setB => [.occ b]
  | .lockB => [.lock b]
  | .consB => [.val b]
  | .lockE e => [.lock e]
  | .pop _ => (Vector.locs ex).map .ex
  | .cons _ n => [.val n]
  | .off _ n => [.off n]
  | .set _ n => [.occ n]
  | .link e _ => [.off e]
  | .unlock p _ => [.lock p]

/-- impl/unordered_base_detail.cuh:1019-1043 `erase`, 811-913 `try_erase`. -/
def EPC.locs (ex : Ex) : EPC → List ULoc
  | .f1 w | .f2 _ w | .f3 _ _ w => [w.loc]
  | .p1 _ w | .p2 _ _ _ w => [w.loc]
  | .lockB p | .unlockB p _ | .lock1 p _ | .undo1 p | .unlock1 p _ _ => [.lock p]
  | .lock2 _ q | .unlock2 q _ => [.lock q]
  | .resetB p | .reset p _ => [.occ p]
  | .cntB _ | .cnt _ _ => [.count]
  | .desB p | .des p _ => [.val p]
  | .rd1 p _ | .rd2 p _ => [.off p]
  | .rd3 _ q _ | .wr _ q _ | .zero _ q => [.off q]
  | .push _ _ => (Vector.locs ex).map .ex

/-- The variables that the next step of a thread accesses; of `t` only the number of buckets is used.
impl/unordered_base_detail.cuh:655-682, 708-1043; the steps are those of `UnorderedConc.step`. -/
def locs {K V : Type} (P : Params K V) (t : Tab V) (th : Thread K V) : List ULoc :=
  match th.cur with
  | .idle => []
  | .ins v pc => pc.locs (bucket P t (P.keyOf v)) th.ex
  | .era _ pc => pc.locs th.ex
  | .fnd _ w => [w.loc]

end Stdgpu.UnorderedConc
