import Verif.Spec.UnorderedConc
/-!
Specification of linearizability of the unordered containers (C64): the operations of a concurrent execution can be put
into one order that respects the order in real time, and executing them one after another on a finite map in this order
gives the same results.
-/
namespace Stdgpu.Spec
open Stdgpu.UnorderedConc Stdgpu.Conc Stdgpu.Unordered

variable {K V : Type}

/-- An operation is identified by its thread and its number in the program of this thread. -/
abbrev OpId := Nat × Nat

/-- The operation `x` of the programs. -/
def opAt (progs : List (List (Op K V))) (x : OpId) : Option (Op K V) := (progs[x.1]?).bind (·[x.2]?)

/-- The operation `x` with its result, if it has returned. -/
def resAt (s : Sys (Shared V) (Thread K V)) (x : OpId) : Option (Op K V × Res) := (s.threads[x.1]?).bind (·.done[x.2]?)

/-- How many operations has thread `t` called? -/
def numCalled (t : Thread K V) : Nat := t.done.length + match t.cur with | .idle => 0 | _ => 1

/-- Operation `x` has been called. -/
def Called (s : Sys (Shared V) (Thread K V)) (x : OpId) : Prop := ∃ t, s.threads[x.1]? = some t ∧ x.2 < numCalled t

/-- In the execution given by `sched`, operation `x` has returned before operation `y` is called. -/
def Before (P : Params K V) (t : Tab V) (progs : List (List (Op K V))) (sched : List Nat) (x y : OpId) : Prop :=
  ∃ n, (resAt (uexec P t progs (sched.take n)) x).isSome = true ∧ ¬ Called (uexec P t progs (sched.take n)) y

/-- The elements of a container with the positions to which iterators point. -/
def entries (t : Tab V) : List (Nat × V) :=
  (List.range t.total).filterMap (fun p => if t.occ p then (t.val p).map (fun v => (p, v)) else none)

/-- Does the map contain the key? -/
def hasKey (P : Params K V) (m : List (Nat × V)) (k : K) : Bool := m.any (fun e => P.keyEq (P.keyOf e.2) k)

/-- The sequential specification: may `op` return `res` on the map `m`, and what is the map afterwards? If `strict`, then
an insertion fails only if the key is there; otherwise it may always fail. -/
def seqStep (P : Params K V) (strict : Bool) (m : List (Nat × V)) : Op K V × Res → Option (List (Nat × V))
  | (.insert v, .inserted p) => if hasKey P m (P.keyOf v) || m.any (fun e => e.1 == p) then none else some ((p, v) :: m)
  | (.insert v, .notInserted) => if hasKey P m (P.keyOf v) || !strict then some m else none
  | (.find k, .found p) => if m.any (fun e => e.1 == p && P.keyEq (P.keyOf e.2) k) then some m else none
  | (.find k, .notFound) => if hasKey P m k then none else some m
  | (.erase k, .erased) => if hasKey P m k then some (m.filter (fun e => !P.keyEq (P.keyOf e.2) k)) else none
  | (.erase k, .notErased) => if hasKey P m k then none else some m
  | _ => none

/-- One operation after the other. -/
def seqRun (P : Params K V) (strict : Bool) (m : List (Nat × V)) : List (Op K V × Res) → Option (List (Nat × V))
  | [] => some m
  | e :: l => (seqStep P strict m e).bind (fun m' => seqRun P strict m' l)

/-- `L` is a linearization of the execution given by `sched`, and `m` is the map at its end. An operation that has been
called and has not returned may be part of `L` (it has taken effect) or not. -/
structure Linearization (P : Params K V) (strict : Bool) (t : Tab V) (progs : List (List (Op K V))) (sched : List Nat)
    (L : List (OpId × Op K V × Res)) (m : List (Nat × V)) : Prop where
  /-- no operation occurs twice -/
  nodup : (L.map (·.1)).Nodup
  /-- every operation that has returned occurs with its result -/
  returned : ∀ x e, resAt (uexec P t progs sched) x = some e → (x, e) ∈ L
  /-- only operations that have been called occur -/
  called : ∀ x e, (x, e) ∈ L → Called (uexec P t progs sched) x ∧ opAt progs x = some e.1
  /-- an operation that has returned before another was called does not come after it -/
  order : L.Pairwise (fun a b => ¬ Before P t progs sched b.1 a.1)
  /-- the results are those of the sequential execution in this order -/
  legal : seqRun P strict (entries t) (L.map (·.2)) = some m

end Stdgpu.Spec
