import Verif.Model.Fence
/-! What a thread that publishes data, and one that consumes it, may rely on. -/
namespace Stdgpu.Spec
open Stdgpu.Fence
variable {V : Type}

/-- The access may change location `x`. -/
def Writes (c : Instr V) (x : Nat) : Prop := (∃ v, c = .write x v) ∨ ∃ id f, c = .rmw id x f

/-- The access never makes the flag signal. -/
def Silent (flag : Nat) (signal : V → Prop) (c : Instr V) : Prop :=
  (∀ v, c = .write flag v → ¬ signal v) ∧ (∀ id f, c = .rmw id flag f → ∀ u, ¬ signal u → ¬ signal (f u))

/-- Identifier of a read. -/
def ident : Instr V → List Nat
  | .read id _ | .rmw id _ _ => [id]
  | .write _ _ | .fence => []

/-- Thread `a` prepares the data locations `D` and then makes `flag` signal with the accesses `publish`; thread `b` executes
the accesses `consume` and then those of `R`. Nobody else changes
the data or makes `flag` signal, and `a` does not touch the data again. -/
structure Publication (m : Nat → V) (progs : List (List (Instr V))) (D : Nat → Prop) (flag : Nat) (signal : V → Prop) (a b : Nat)
    (W publish tail pre consume R : List (Instr V)) : Prop where
  ne : a ≠ b
  pa : progs[a]? = some (W ++ publish ++ tail)
  pb : progs[b]? = some (pre ++ consume ++ R)
  flagD : ¬ D flag
  start : ¬ signal (m flag)
  prepW : ∀ i ∈ W, Silent flag signal i
  others : ∀ j p, j ≠ a → progs[j]? = some p → ∀ i ∈ p, Silent flag signal i ∧ ∀ x, D x → ¬ Writes i x
  after : ∀ i ∈ publish ++ tail, ∀ x, D x → ¬ Writes i x
  ids : ((pre ++ consume ++ R).flatMap ident).Nodup

/-- What the guarantee is: if the consumer has seen the flag signal then its later reads of data obtain what the publisher
has prepared, `W` executed alone. -/
def Seen (m : Nat → V) (D : Nat → Prop) (signal : V → Prop) (b : Nat) (W R : List (Instr V)) (c : Nat)
    (s : Conc.Sys (Nat → V) (Thread V)) : Prop :=
  ∀ t, s.threads[b]? = some t → (∃ u, (c, u) ∈ t.log ∧ signal u) →
    ∀ id x, Instr.read id x ∈ R → D x → ∀ u, (id, u) ∈ t.log → u = W.foldl apply m x

end Stdgpu.Spec
