import Verif.Model.Unordered
/-! Specification of the unordered containers used from one thread: a finite map, as a list of values with different
keys, where the order of the list does not matter. -/
namespace Stdgpu.Spec
open Stdgpu.Unordered

variable {K V : Type}

/-- What the user has to guarantee: the key comparison is an equivalence, and equal keys have equal hashes. -/
structure KeyLaws (P : Params K V) : Prop where
  refl : ∀ a, P.keyEq a a = true
  symm : ∀ a b, P.keyEq a b = true → P.keyEq b a = true
  trans : ∀ a b c, P.keyEq a b = true → P.keyEq b c = true → P.keyEq a c = true
  hash : ∀ a b, P.keyEq a b = true → P.hash a = P.hash b

/-- The value stored for a key. -/
def lookup (P : Params K V) (m : List V) (k : K) : Option V := m.find? (fun v => P.keyEq (P.keyOf v) k)

/-- Is `out` an admissible result of `op` on the map `m`, and what is the new map? An insertion is allowed to fail (C33
says when), all other results are determined. -/
def mapStep [DecidableEq V] (P : Params K V) (m : List V) : UOp K V → UOut V → Option (List V)
  | .insert v, .inserted it b =>
      if b then (if lookup P m (P.keyOf v) = none ∧ it = some v then some (v :: m) else none)
      else (if it = none then some m else none)
  | .erase k, .num n =>
      match lookup P m k with
      | some _ => if n = 1 then some (m.filter (fun v => !P.keyEq (P.keyOf v) k)) else none
      | none => if n = 0 then some m else none
  | .clear, .unit => some []
  | .find k, .found r => if r = lookup P m k then some m else none
  | .contains k, .bool b => if b = (lookup P m k).isSome then some m else none
  | .count k, .num n => if n = (if (lookup P m k).isSome then 1 else 0) then some m else none
  | .size, .num n => if n = m.length then some m else none
  | .empty, .bool b => if b = (m.length == 0) then some m else none
  | .valid, .bool b => if b = true then some m else none
  | _, _ => none

/-- A whole history. -/
def mapRun [DecidableEq V] (P : Params K V) (m : List V) : List (UOp K V) → List (UOut V) → Option (List V)
  | [], [] => some m
  | op :: ops, o :: outs => (mapStep P m op o).bind (fun m' => mapRun P m' ops outs)
  | _, _ => none

/-- `t` is the state after some history of operations on a newly created container with `bc` buckets and `ec` excess
entries (the parallel loops of the operations may process their indices in any order). -/
def Reachable (P : Params K V) (bc ec : Nat) (t : Tab V) : Prop :=
  ∃ (ops : List (UOp K V)) (ords : Nat → Nat → List Nat) (outs : List (UOut V)),
    (∀ j n, (ords j n).Perm (List.range n)) ∧ execAll P ords (create bc ec) ops = .ok (outs, t)

/-- The stored values, in the order of the entries. -/
def contents (t : Tab V) : List V :=
  (List.range t.total).filterMap (fun p => if t.occ p then t.val p else none)

/-- The unused excess entries: the elements of the free list, from bottom to top. -/
def freeList (t : Tab V) : List Nat := (Vector.deviceRange t.excess).filterMap id

end Stdgpu.Spec
