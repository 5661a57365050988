import Verif.Spec.SlotConc
/-!
Specification of linearizability of `vector` and `deque` (C70): the operations of a concurrent execution can be put into
one order that respects the order in real time, and executing them one after another on a bounded sequence in this order
gives the same results.
-/
namespace Stdgpu.SLin
open Stdgpu.SlotConc Stdgpu.Conc

variable {C K F α : Type}

/-- An operation is identified by its thread and its number in the program of this thread. -/
abbrev OpId := Nat × Nat

/-- The state after the threads have been scheduled as given by `sched`. -/
def exec (fr : Front C K F) (m : Mem C α) (progs : List (List (Op K α))) (sched : List Nat) :
    Sys (Mem C α) (Thread K F α) := run (step fr) (init fr m progs) sched

/-- The operation `x` of the programs. -/
def opAt (progs : List (List (Op K α))) (x : OpId) : Option (Op K α) := (progs[x.1]?).bind (·[x.2]?)

/-- The operation `x` with its result, if it has returned. -/
def resAt (s : Sys (Mem C α) (Thread K F α)) (x : OpId) : Option (Op K α × Res α) := (s.threads[x.1]?).bind (·.done[x.2]?)

/-- Operation `x` has been called: it has returned or it has done its first step. -/
def Called (fr : Front C K F) (s : Sys (Mem C α) (Thread K F α)) (x : OpId) : Prop :=
  ∃ t, s.threads[x.1]? = some t ∧ (x.2 < t.done.length ∨ x.2 = t.done.length ∧ t.pc ≠ .front fr.start)

/-- In the execution given by `sched`, operation `x` has returned before operation `y` is called. -/
def Before (fr : Front C K F) (m : Mem C α) (progs : List (List (Op K α))) (sched : List Nat) (x y : OpId) : Prop :=
  ∃ n, (resAt (exec fr m progs (sched.take n)) x).isSome = true ∧ ¬ Called fr (exec fr m progs (sched.take n)) y

/-- The sequential specification: a sequence of at most `cap` elements. May `op` return `res` on the sequence `m`, and
leave the sequence `m'`? `atBack` tells at which end an operation works. -/
def SeqStep (atBack : K → Bool) (cap : Nat) (m : List α) (e : Op K α × Res α) (m' : List α) : Prop :=
  match e with
  | (.push k x, .pushed) => m.length < cap ∧ m' = if atBack k then m ++ [x] else x :: m
  | (.push _ _, .pushFailed) => m.length = cap ∧ m' = m
  | (.pop k, .popped v) => m = if atBack k then m' ++ [v] else v :: m'
  | (.pop _, .popFailed) => m = [] ∧ m' = []
  | _ => False

/-- One operation after the other. -/
def SeqRun (atBack : K → Bool) (cap : Nat) : List α → List (Op K α × Res α) → List α → Prop
  | m, [], m' => m' = m
  | m, e :: l, m' => ∃ m1, SeqStep atBack cap m e m1 ∧ SeqRun atBack cap m1 l m'

/-- `L` is a linearization of the execution given by `sched` on a container with the elements `l`, and `l'` are the
elements at its end. An operation that has been called and has not returned may be part of `L` (it has taken effect) or
not. -/
structure Linearization (fr : Front C K F) (atBack : K → Bool) (cap : Nat) (m : Mem C α) (l : List α)
    (progs : List (List (Op K α))) (sched : List Nat) (L : List (OpId × Op K α × Res α)) (l' : List α) : Prop where
  /-- no operation occurs twice -/
  nodup : (L.map (·.1)).Nodup
  /-- every operation that has returned occurs with its result -/
  returned : ∀ x e, resAt (exec fr m progs sched) x = some e → (x, e) ∈ L
  /-- only operations that have been called occur -/
  called : ∀ x e, (x, e) ∈ L → Called fr (exec fr m progs sched) x ∧ opAt progs x = some e.1
  /-- an operation that has returned before another was called does not come after it -/
  order : L.Pairwise (fun a b => ¬ Before fr m progs sched b.1 a.1)
  /-- the results are those of the sequential execution in this order -/
  legal : SeqRun atBack cap l (L.map (·.2)) l'

end Stdgpu.SLin
