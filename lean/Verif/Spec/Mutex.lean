import Verif.Model.Mutex
/-! Specification vocabulary for mutexes, in terms of the accesses a thread performs. -/
namespace Stdgpu.Spec
open Stdgpu.Mutex

/-- Successful acquisitions minus releases of mutex `n` in a sequence of accesses. -/
def balance (acts : List Act) (n : Nat) : Int :=
  (acts.countP (fun a => a.n == n && a.written && !a.old) : Int) -
    (acts.countP (fun a => a.n == n && !a.written) : Int)

def acquired (n : Nat) : Act := ⟨n, true, false⟩
def refused (n : Nat) : Act := ⟨n, true, true⟩
def released (n : Nat) : Act := ⟨n, false, true⟩

/-- All accesses of a finished request with result `i`: for `-1` every mutex is acquired in order, and later
released by the user; otherwise the first `i` mutexes are acquired, mutex number `i` is refused, and those acquired
before are released again. -/
def segment : Req × Int → List Act
  | (r, .negSucc _) => r.locks.map acquired ++ r.unlockOrder.map released
  | (r, .ofNat i) => (r.locks.take i).map acquired ++ ((r.locks[i]?).toList).map refused ++
      ((r.locks.take i).reverse).map released

end Stdgpu.Spec
