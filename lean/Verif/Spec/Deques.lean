import Verif.Model.Deque
import Verif.Spec.SlotConc
/-! Specification of the sequential deque: a list with at most `cap` elements. -/
namespace Stdgpu.Spec
open Stdgpu.Vector (Out)
open Stdgpu.Deque (DOp)

variable {α : Type}

/-- Result and new list; `none` when an element that does not exist is accessed. -/
def deqExec (cap : Nat) (l : List α) : DOp α → Option (Out α × List α)
  | .push .back x => if l.length < cap then some (.bool true, l ++ [x]) else some (.bool false, l)
  | .push .front x => if l.length < cap then some (.bool true, x :: l) else some (.bool false, l)
  | .pop .back => some (.pop l.getLast?, l.dropLast)
  | .pop .front => some (.pop l.head?, l.tail)
  | .clear => some (.unit, [])
  | .size => some (.num l.length, l)
  | .empty => some (.bool (l.length == 0), l)
  | .full => some (.bool (l.length == cap), l)
  | .valid => some (.bool true, l)
  | .front => l.head?.map (fun x => (.val x, l))
  | .back => l.getLast?.map (fun x => (.val x, l))
  | .get n => if n < 0 then none else l[n.toNat]?.map (fun x => (.val x, l))

def deqExecAll (cap : Nat) (l : List α) : List (DOp α) → Option (List (Out α) × List α)
  | [] => some ([], l)
  | op :: ops => do
    let (o, l1) ← deqExec cap l op
    let (os, l2) ← deqExecAll cap l1 ops
    return (o :: os, l2)

end Stdgpu.Spec

namespace Stdgpu.Deque
variable {α : Type}

/-- Logical index (distance from the front) of slot `q`. -/
def ringIdx (cap begin q : Nat) : Nat := if begin ≤ q then q - begin else q + cap - begin

/-- The deque is in a proper state with contents `l` (front to back): element `i` is the live object in slot
`(begin + i) mod cap`, all other slots are raw storage, the counters agree, nothing is locked, nothing undefined
happened. C23 shows that every sequential history leads to such states. -/
structure Holds (d : Deq α) (l : List α) : Prop where
  pos : 0 < cap d
  len : l.length ≤ cap d
  size : d.ctr.size = l.length
  begin : d.ctr.begin < cap d
  endd : d.ctr.endd = (d.ctr.begin + l.length) % cap d
  locks : ∀ q, q < cap d → d.slots.locks q = false
  occ : ∀ q, q < cap d → d.slots.occ q = decide (ringIdx (cap d) d.ctr.begin q < l.length)
  err : d.slots.err = false
  data : ∀ q, q < cap d → d.slots.data q = l[ringIdx (cap d) d.ctr.begin q]?

end Stdgpu.Deque

namespace Stdgpu.Spec
open Stdgpu.SlotConc Stdgpu.Conc Stdgpu.Deque

variable {C F α : Type}

/-- Values of the pushes at the end `k` that returned true. -/
def pushedAt (k : Side) (s : Sys (Mem C α) (Thread Side F α)) : List α :=
  (results s).filterMap (fun e => if e.1.kind = k then pushVal e else none)

/-- Values returned by the pops at the end `k` that succeeded. -/
def poppedAt (k : Side) (s : Sys (Mem C α) (Thread Side F α)) : List α :=
  (results s).filterMap (fun e => if e.1.kind = k then popVal e else none)

end Stdgpu.Spec
