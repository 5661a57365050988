import Verif.Model.Atomic
/-!
Specification of atomicity (linearizability of read-modify-writes on one cell): there is one total order of all
performed operations in which every operation returns the value left by its predecessor.
-/
namespace Stdgpu.Spec
open Stdgpu.Atomic

/-- (thread, operation, returned old value) -/
abbrev Entry (V : Type) := Nat × Op V × V

/-- Executing the operations one after another from `v` produces exactly the recorded return values and ends
in `v'`. -/
def Replay {V : Type} (v : V) : List (Entry V) → V → Prop
  | [], v' => v' = v
  | (_, op, ret) :: L, v' => ret = v ∧ Replay (op.f v) L v'

/-- The sub-history of thread `i`. -/
def perThread {V : Type} (L : List (Entry V)) (i : Nat) : List (Op V × V) :=
  (L.filter (fun e => e.1 == i)).map (·.2)

/-- `s` is explained by the sequential history `L` starting from value `v₀`. -/
structure Linearizes {V : Type} (v₀ : V) (s : Conc.Sys (Mem V) (Thread V)) (L : List (Entry V)) : Prop where
  replay : Replay v₀ L s.shared.value
  threads : ∀ (i : Nat) (t : Thread V), s.threads[i]? = some t → perThread L i = t.done
  known : ∀ e ∈ L, e.1 < s.threads.length

end Stdgpu.Spec
