import Verif.Model.UnorderedConc
import Verif.Model.SlotAccess
/-
The plain (not atomic) accesses to `_values`, `_offsets` and the elements of the free list `_excess_list_positions` that a
thread performs in its next step of `Model/UnorderedConc.lean`; the occupied bits, locks and counters are atomic
(impl/unordered_base.cuh:526-536). Not included: the initial copy of `pop_back` on the free list, see
`Model/SlotAccess.lean`.
-/
namespace Stdgpu.UnorderedConc
open Stdgpu.Unordered

/-- Plain locations: `_values[p]`, `_offsets[p]`, element `p` of the free list. impl/unordered_base.cuh:526-534. -/
inductive Loc where
  | val (p : Nat) | off (p : Nat) | exc (p : Nat)
  deriving DecidableEq

/-- impl/unordered_base_detail.cuh:655-682 `find_impl`. -/
def Walk.access : Walk → Option (Loc × Bool)
  | .occ _ => none
  | .val w => some (.val w, false)
  | .off1 w | .off2 w => some (.off w, false)

/-- impl/unordered_base_detail.cuh:915-956 `find_linked_list_end`, `find_previous_entry_position`. -/
def Hop.access : Hop → Option (Loc × Bool)
  | .off1 w | .off2 w => some (.off w, false)

/-- `push_back` / `pop_back` of the free list. impl/vector_detail.cuh:181-299. -/
def exAccess (ex : Ex) : Option (Loc × Bool) := (SlotConc.slotAccess ex).map (fun a => (.exc a.1, a.2))

/-- impl/unordered_base_detail.cuh:708-809 `try_insert`; `b` is the bucket. -/
def IPC.access (b : Nat) (ex : Ex) : IPC → Option (Loc × Bool)
  | .c1 w | .c2 w | .c3 _ _ w => w.access
  | .e1 w | .e2 _ w => w.access
  | .consB => some (.val b, true)
  | .pop _ => exAccess ex
  | .cons _ n => some (.val n, true)
  | .off _ n => some (.off n, true)
  | .link e _ => some (.off e, true)
  | _ => none

/-- impl/unordered_base_detail.cuh:811-913 `try_erase`. -/
def EPC.access (ex : Ex) : EPC → Option (Loc × Bool)
  | .f1 w | .f2 _ w | .f3 _ _ w => w.access
  | .p1 _ w | .p2 _ _ _ w => w.access
  | .rd1 p _ | .rd2 p _ => some (.off p, false)
  | .rd3 _ q _ => some (.off q, false)
  | .wr _ q _ | .zero _ q => some (.off q, true)
  | .desB p | .des p _ => some (.val p, true)
  | .push _ _ => exAccess ex
  | _ => none

/-- The next plain access of a thread; `t` is the container (only its number of buckets is used).
impl/unordered_base_detail.cuh:655-682, 708-1043. -/
def uaccess {K V : Type} (P : Params K V) (t : Tab V) (th : Thread K V) : Option (Loc × Bool) :=
  match th.cur with
  | .idle => none
  | .ins v pc => pc.access (bucket P t (P.keyOf v)) th.ex
  | .era _ pc => pc.access th.ex
  | .fnd _ w => w.access

/-- The thread is walking along a chain: `find_impl`, `find_linked_list_end` or `find_previous_entry_position`.
impl/unordered_base_detail.cuh:655-682, 915-956. -/
def walking {K V : Type} (th : Thread K V) : Bool :=
  match th.cur with
  | .ins _ (.c1 _) | .ins _ (.c2 _) | .ins _ (.c3 _ _ _) | .ins _ (.e1 _) | .ins _ (.e2 _ _) => true
  | .era _ (.f1 _) | .era _ (.f2 _ _) | .era _ (.f3 _ _ _) | .era _ (.p1 _ _) | .era _ (.p2 _ _ _ _) => true
  | .fnd _ _ => true
  | _ => false

end Stdgpu.UnorderedConc
