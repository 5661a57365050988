import Verif.Model.AtomicOps
/-! Specification of the members of `atomic_ref` for integers: the effect of one call, and one order of all calls. -/
namespace Stdgpu.Spec
open Stdgpu.Atomic

variable {w : Nat}

/-- One call: the value before, the value after and the value returned, as in the C++ standard. The numbers are those of the
unsigned type; for a signed type they are its representation (two's complement). -/
def CallEffect (m : Member w) (old new ret : BitVec w) : Prop :=
  match m with
  | .load => new = old ∧ ret = old
  | .store a => new = a
  | .exchange a => new = a ∧ ret = old
  | .fetchAdd a => new.toNat = (old.toNat + a.toNat) % 2 ^ w ∧ ret = old
  | .fetchSub a => old.toNat = (new.toNat + a.toNat) % 2 ^ w ∧ ret = old
  | .fetchAnd a => (∀ i, new.getLsbD i = (old.getLsbD i && a.getLsbD i)) ∧ ret = old
  | .fetchOr a => (∀ i, new.getLsbD i = (old.getLsbD i || a.getLsbD i)) ∧ ret = old
  | .fetchXor a => (∀ i, new.getLsbD i = (old.getLsbD i ^^ a.getLsbD i)) ∧ ret = old
  | .fetchMin a => new.toNat = min old.toNat a.toNat ∧ ret = old
  | .fetchMax a => new.toNat = max old.toNat a.toNat ∧ ret = old
  | .preInc => new.toNat = (old.toNat + 1) % 2 ^ w ∧ ret = new
  | .postInc => new.toNat = (old.toNat + 1) % 2 ^ w ∧ ret = old
  | .preDec => old.toNat = (new.toNat + 1) % 2 ^ w ∧ ret = new
  | .postDec => old.toNat = (new.toNat + 1) % 2 ^ w ∧ ret = old
  | .addAssign a => new.toNat = (old.toNat + a.toNat) % 2 ^ w ∧ ret = new
  | .subAssign a => old.toNat = (new.toNat + a.toNat) % 2 ^ w ∧ ret = new
  | .andAssign a => (∀ i, new.getLsbD i = (old.getLsbD i && a.getLsbD i)) ∧ ret = new
  | .orAssign a => (∀ i, new.getLsbD i = (old.getLsbD i || a.getLsbD i)) ∧ ret = new
  | .xorAssign a => (∀ i, new.getLsbD i = (old.getLsbD i ^^ a.getLsbD i)) ∧ ret = new

/-- The arithmetic and bitwise operations. -/
def IsArith : Member w → Prop
  | .fetchAdd _ | .fetchSub _ | .fetchAnd _ | .fetchOr _ | .fetchXor _ | .preInc | .postInc | .preDec | .postDec
  | .addAssign _ | .subAssign _ | .andAssign _ | .orAssign _ | .xorAssign _ => True
  | .load | .store _ | .exchange _ | .fetchMin _ | .fetchMax _ => False

/-- No restriction for CUDA; for OpenMP, either all calls are arithmetic or bitwise operations, or none is (C07 shows that
this is needed). -/
def Excluding (b : Backend) (progs : List (List (Member w))) : Prop :=
  b = .cuda ∨ (∀ p ∈ progs, ∀ m ∈ p, IsArith m) ∨ (∀ p ∈ progs, ∀ m ∈ p, ¬ IsArith m)

/-- The calls `H` (thread, call, returned value), one after the other, lead from `v` to `v'`. -/
def CallsFrom (v : BitVec w) : List (Nat × Member w × BitVec w) → BitVec w → Prop
  | [], v' => v' = v
  | (_, m, ret) :: H, v' => ∃ v1, CallEffect m v v1 ret ∧ CallsFrom v1 H v'

/-- The calls of thread `i` in a history. -/
def callsOf (H : List (Nat × Member w × BitVec w)) (i : Nat) : List (Member w × BitVec w) :=
  (H.filter (fun e => e.1 == i)).map (·.2)

end Stdgpu.Spec
