import Verif.Model.QueueStack
/-! Observations on histories of a queue or a stack, used to state C27 and C28. -/
namespace Stdgpu.Spec
open Stdgpu.Adaptor
open Stdgpu.Vector (Out)

variable {α : Type}

/-- The values whose push returned true, in order. -/
def accepted : List (AOp α × Out α) → List α
  | [] => []
  | (.push x, .bool true) :: tr => x :: accepted tr
  | _ :: tr => accepted tr

/-- The values returned by successful pops, in order. -/
def returned : List (AOp α × Out α) → List α
  | [] => []
  | (.pop, .pop (some v)) :: tr => v :: returned tr
  | _ :: tr => returned tr

/-- Number of elements that are inside after a history. -/
def inside (tr : List (AOp α × Out α)) : Nat := (accepted tr).length - (returned tr).length

/-- A piece of history that pops exactly what it pushes: in each of its prefixes there are at least as many successful
pushes as successful pops, in total equally many. -/
def Balanced (tr : List (AOp α × Out α)) : Prop :=
  (∀ p, p <+: tr → (returned p).length ≤ (accepted p).length) ∧ (returned tr).length = (accepted tr).length

/-- The results of the operations that do not change the contents, with `n` elements inside and capacity `c`. -/
def observer (c n : Nat) : AOp α → Option (Out α)
  | .push _ => none
  | .pop => none
  | .empty => some (.bool (decide (n = 0)))
  | .full => some (.bool (decide (n = c)))
  | .size => some (.num n)
  | .capacity => some (.num c)
  | .valid => some (.bool true)

end Stdgpu.Spec
