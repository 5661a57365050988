import Verif.Model.Vector
/-! Specification of the sequential vector: a list with at most `cap` elements. -/
namespace Stdgpu.Spec
open Stdgpu.Vector (VOp Out)

variable {α : Type}

/-- Result and new list; `none` when a precondition of the API is violated. -/
def vecExec (cap : Nat) (l : List α) : VOp α → Option (Out α × List α)
  | .push x => if l.length < cap then some (.bool true, l ++ [x]) else some (.bool false, l)
  | .pop => some (.pop l.getLast?, l.dropLast)
  | .insert pos xs =>
      if pos = l.length ∧ l.length + xs.length ≤ cap then some (.unit, l ++ xs) else some (.unit, l)
  | .erase b e =>
      if e < b then none                                     -- not a range
      else if e = l.length ∧ 0 ≤ b then some (.unit, l.take b.toNat) else some (.unit, l)
  | .clear => some (.unit, [])
  | .size => some (.num l.length, l)
  | .empty => some (.bool (l.length == 0), l)
  | .full => some (.bool (l.length == cap), l)
  | .valid => some (.bool true, l)
  | .front => l.head?.map (fun x => (.val x, l))
  | .back => l.getLast?.map (fun x => (.val x, l))
  | .get n => if n < 0 then none else l[n.toNat]?.map (fun x => (.val x, l))
  | .deviceRange => some (.vals l, l)

def vecExecAll (cap : Nat) (l : List α) : List (VOp α) → Option (List (Out α) × List α)
  | [] => some ([], l)
  | op :: ops => do
    let (o, l1) ← vecExec cap l op
    let (os, l2) ← vecExecAll cap l1 ops
    return (o :: os, l2)

end Stdgpu.Spec

namespace Stdgpu.Vector
open Stdgpu.SlotConc
variable {α : Type}

/-- The vector is in a proper state with contents `l`: the elements are the live objects of the slots `0 … length-1`
(with their occupied bits), all other slots are raw storage, nothing is locked, and no undefined behaviour happened.
C16 shows that every sequential history leads to such states. -/
structure Holds (v : Vec α) (l : List α) : Prop where
  len : l.length ≤ cap v
  ctr : v.ctr = l.length
  locks : ∀ p, p < cap v → v.slots.locks p = false
  occ : ∀ p, p < cap v → v.slots.occ p = decide (p < l.length)
  err : v.slots.err = false
  data : ∀ p, p < cap v → v.slots.data p = l[p]?

end Stdgpu.Vector
