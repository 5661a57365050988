import Verif.Model.Atomic
import Verif.Model.Vector
/-!
Model of the member functions and operators of `atomic_ref` (impl/atomic_detail.cuh:426-776; those of `atomic` forward to
them, 201-414): which primitive of the backend they call and what they compute from the value it returns.

`min`/`max` are those of unsigned types here. Floating point is not modelled.
-/
namespace Stdgpu.Atomic
open Stdgpu.Vector (Fault)

/-- The member functions of `atomic_ref<T>` for a `w`-bit integer type `T`. impl/atomic_detail.cuh:433-776. -/
inductive Member (w : Nat) where
  | load | store (a : BitVec w) | exchange (a : BitVec w)
  | fetchAdd (a : BitVec w) | fetchSub (a : BitVec w) | fetchAnd (a : BitVec w) | fetchOr (a : BitVec w) | fetchXor (a : BitVec w)
  | fetchMin (a : BitVec w) | fetchMax (a : BitVec w)
  | preInc | postInc | preDec | postDec
  | addAssign (a : BitVec w) | subAssign (a : BitVec w) | andAssign (a : BitVec w) | orAssign (a : BitVec w)
  | xorAssign (a : BitVec w)
  deriving DecidableEq

/-- Backends: in CUDA/HIP all primitives are hardware atomics; in OpenMP some are `omp atomic capture` and the others are
critical sections (openmp/impl/atomic_detail.h:38-217). -/
inductive Backend where
  | cuda | openmp
  deriving DecidableEq

variable {w : Nat}

/-- openmp/impl/atomic_detail.h:38-191, cuda/impl/atomic_detail.cuh:102-177: the update of the primitive that the member
function calls. -/
def Member.update : Member w → BitVec w → BitVec w
  | .load, v => v
  | .store a, _ | .exchange a, _ => a
  | .fetchAdd a, v | .addAssign a, v => v + a
  | .fetchSub a, v | .subAssign a, v => v - a
  | .fetchAnd a, v | .andAssign a, v => v &&& a
  | .fetchOr a, v | .orAssign a, v => v ||| a
  | .fetchXor a, v | .xorAssign a, v => v ^^^ a
  | .fetchMin a, v => if a < v then a else v
  | .fetchMax a, v => if v < a then a else v
  | .preInc, v | .postInc, v => v + 1              -- fetch_add(1)
  | .preDec, v | .postDec, v => v - 1              -- fetch_sub(1)

/-- impl/atomic_detail.cuh:704-776 (operators) and 433-674: what the member function returns, given the value `old` that
the primitive returns. (`store` returns nothing; here the value that it replaced.) -/
def Member.result : Member w → BitVec w → BitVec w
  | .preInc, old => old + 1
  | .preDec, old => old - 1
  | .addAssign a, old => old + a
  | .subAssign a, old => old - a
  | .andAssign a, old => old &&& a
  | .orAssign a, old => old ||| a
  | .xorAssign a, old => old ^^^ a
  | _, old => old

/-- The result for signed types: `fetch_add(1) + 1` etc. is an addition of `int`s, which is undefined if it overflows.
impl/atomic_detail.cuh:704-776. -/
def Member.resultSigned : Member w → BitVec w → Except Fault (BitVec w)
  | .preInc, old => if BitVec.saddOverflow old 1 then .error .ub else .ok (old + 1)
  | .preDec, old => if BitVec.ssubOverflow old 1 then .error .ub else .ok (old - 1)
  | .addAssign a, old => if BitVec.saddOverflow old a then .error .ub else .ok (old + a)
  | .subAssign a, old => if BitVec.ssubOverflow old a then .error .ub else .ok (old - a)
  | m, old => .ok (m.result old)

/-- openmp/impl/atomic_detail.h: the implementation of the primitive. openmp/impl/atomic_detail.h:35-217,
cuda/impl/atomic_detail.cuh, hip/impl/atomic_detail.h (intrinsics). -/
def Member.kind (b : Backend) : Member w → Kind
  | .load | .store _ | .exchange _ | .fetchMin _ | .fetchMax _ => if b = .openmp then .critical else .capture
  | _ => .capture

/-- The operation of the machine of Model/Atomic. impl/atomic_detail.cuh:538-702. -/
def Member.op (b : Backend) (m : Member w) : Op (BitVec w) := { kind := m.kind b, f := m.update }

/-- What the calls of thread `t` with the program `prog` have returned so far. impl/atomic_detail.cuh:433-776. -/
def returned (prog : List (Member w)) (t : Thread (BitVec w)) : List (Member w × BitVec w) :=
  List.zipWith (fun m d => (m, m.result d.2)) prog t.done

end Stdgpu.Atomic
