import Verif.Model.Conc
/-! Data races: two threads whose next steps are conflicting plain accesses. -/
namespace Stdgpu.Spec
open Stdgpu.Conc

/-- Two different threads are about to access the same plain location, at least one of them writing. -/
def Race {σ τ L : Type} (acc : τ → Option (L × Bool)) (s : Sys σ τ) : Prop :=
  ∃ (i j : Nat) (ti tj : τ) (p : L) (w w' : Bool), i ≠ j ∧ s.threads[i]? = some ti ∧ s.threads[j]? = some tj ∧ acc ti = some (p, w) ∧
    acc tj = some (p, w') ∧ (w = true ∨ w' = true)

end Stdgpu.Spec
