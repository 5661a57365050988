import Verif.Model.Conc
import Mathlib.Data.Fintype.Card
import Mathlib.Data.Fintype.Pi
import Mathlib.Data.Rat.Defs
/-
A random scheduler: at every moment each of the `n` threads is chosen with the same probability, independently of the past.
The probability of an event that depends on the first `L` choices is the fraction of the `n ^ L` sequences of choices for which
it occurs.
-/
namespace Stdgpu.Spec

/-- The schedule given by `L` choices among `n` threads. -/
def choices {L n : Nat} (c : Fin L → Fin n) : List Nat := List.ofFn (fun i => (c i).val)

open Classical in
/-- The number of sequences of `L` choices after which `fin` does not hold. -/
noncomputable def unfinishedCount (fin : List Nat → Prop) (n L : Nat) : Nat :=
  Fintype.card {c : Fin L → Fin n // ¬ fin (choices c)}

/-- The probability that `fin` does not hold after `L` random choices. -/
noncomputable def unfinishedProbability (fin : List Nat → Prop) (n L : Nat) : Rat := unfinishedCount fin n L / (n ^ L : Nat)

end Stdgpu.Spec
