import Verif.Model.UniqueObject
import Verif.Spec.Objects
/-! Specification of `device_unique_object` (C66): what each variable owns. -/
namespace Stdgpu.Spec
open Stdgpu.Memory Stdgpu.Objects Stdgpu.UniqueObject

/-- What the variables own (an object is named by the number of its creation), and how many objects were created. -/
structure Owners where
  own : List (Option Nat)
  created : Nat
  deriving DecidableEq

/-- The meaning of a statement: a new object has one owner; a move hands the object over, and the object that the target
owned before is gone; the destructor ends the ownership. -/
def ownStep (w : Owners) : UOp → Owners
  | .null => { w with own := w.own ++ [none] }
  | .make _ => ⟨w.own ++ [some w.created], w.created + 1⟩
  | .moveConstruct j => { w with own := (w.own.set j none) ++ [(w.own[j]?).getD none] }
  | .moveAssign i j => { w with own := (w.own.set i ((w.own[j]?).getD none)).set j none }
  | .destruct i => { w with own := w.own.set i none }

def ownersAfter (ops : List UOp) : Owners := ops.foldl ownStep ⟨[], 0⟩

/-- The kinds of the created objects. -/
def kindsOf (ops : List UOp) : List Kind := ops.filterMap (fun | .make k => some k | _ => none)

/-- How many variables the statement declares. -/
def declares : UOp → Nat
  | .null | .make _ | .moveConstruct _ => 1
  | _ => 0

/-- The statement only uses variables that exist (`n` many), creates objects of positive size, and does not move a variable
to itself. -/
def OkOp (n : Nat) : UOp → Prop
  | .null => True
  | .make k => PosKind k
  | .moveConstruct j => j < n
  | .moveAssign i j => i < n ∧ j < n ∧ i ≠ j
  | .destruct i => i < n

/-- A correct program. -/
def OkProg : Nat → List UOp → Prop
  | _, [] => True
  | n, op :: ops => OkOp n op ∧ OkProg (n + declares op) ops

/-- The blocks of the objects with these numbers. -/
def blocksOf (isz : Nat) (kinds : List Kind) (objs : List Obj) (hs : List Nat) : List Block :=
  hs.flatMap (fun h => match kinds[h]?, objs[h]? with | some k, some o => blocks isz k o | _, _ => [])

end Stdgpu.Spec
