import Verif.Spec.SLinear
import Verif.Model.Deque
/-!
Specification of the use of a deque as a queue (C71): `push_back` and `pop_front` at the same time, as `stdgpu::queue` does.
-/
namespace Stdgpu.SLin
open Stdgpu.SlotConc Stdgpu.Conc
open Stdgpu.Deque (Side)

variable {C K F α : Type}

/-- The operations of a queue: `push_back` and `pop_front`. -/
def isQueueOp : Op Side α → Bool
  | .push .back _ => true
  | .pop .front => true
  | _ => false

/-- A bounded queue whose pops may fail without effect. May `op` return `res` on the queue `m`, and leave the queue `m'`? -/
def QStep (cap : Nat) (m : List α) (e : Op K α × Res α) (m' : List α) : Prop :=
  match e with
  | (.push _ x, .pushed) => m.length < cap ∧ m' = m ++ [x]
  | (.pop _, .popped v) => m = v :: m'
  | (.pop _, .popFailed) => m' = m
  | _ => False

/-- One operation after the other. -/
def QRun (cap : Nat) : List α → List (Op K α × Res α) → List α → Prop
  | m, [], m' => m' = m
  | m, e :: l, m' => ∃ m1, QStep cap m e m1 ∧ QRun cap m1 l m'

/-- `L` is a linearization of the execution given by `sched` to such a queue with the elements `l`, and `l'` are the
elements at its end; see `Linearization`. -/
structure QLinearization (fr : Front C K F) (cap : Nat) (m : Mem C α) (l : List α)
    (progs : List (List (Op K α))) (sched : List Nat) (L : List (OpId × Op K α × Res α)) (l' : List α) : Prop where
  /-- no operation occurs twice -/
  nodup : (L.map (·.1)).Nodup
  /-- every operation that has returned occurs with its result -/
  returned : ∀ x e, resAt (exec fr m progs sched) x = some e → (x, e) ∈ L
  /-- only operations that have been called occur -/
  called : ∀ x e, (x, e) ∈ L → Called fr (exec fr m progs sched) x ∧ opAt progs x = some e.1
  /-- only pops that have returned fail -/
  failed : ∀ x op, (x, op, .popFailed) ∈ L → resAt (exec fr m progs sched) x = some (op, .popFailed)
  /-- an operation that has returned before another was called does not come after it -/
  order : L.Pairwise (fun a b => ¬ Before fr m progs sched b.1 a.1)
  /-- the results are those of the sequential execution in this order -/
  legal : QRun cap l (L.map (·.2)) l'

end Stdgpu.SLin
