import Verif.Model.Bitset
import Verif.Model.Conc
/-
Model of `src/stdgpu/impl/mutex_detail.cuh`.

A `mutex_array` is a bitset, bit set = locked. First the functions as executed by one thread without interference,
then a machine in which any number of threads execute lock requests, one atomic bit access per step.
-/
namespace Stdgpu.Mutex
open Stdgpu.Bitset Stdgpu.Conc

variable {w : Nat}

/-- impl/mutex_detail.cuh:31-38 `reference::try_lock`: `!(bit = true)`. -/
def tryLock1 (b : Bitset w) (n : Nat) : Option (Bool × Bitset w) :=
  (Bitset.set b n true).map (fun r => (!r.1, r.2))

/-- impl/mutex_detail.cuh:40-46 `reference::unlock`: `bit = false`. -/
def unlock (b : Bitset w) (n : Nat) : Option (Bitset w) :=
  (Bitset.set b n false).map (·.2)

/-- impl/mutex_detail.cuh:48-53 `reference::locked`. -/
def locked (b : Bitset w) (n : Nat) : Option Bool := Bitset.test b n

/-- impl/mutex_detail.cuh:144-151 `valid`. -/
def valid (b : Bitset w) : Bool := Bitset.count b == 0

/-- impl/mutex_detail.cuh:156-182 `detail::try_lock(i, lock1, lockn...)`; the variadic recursion is recursion over
the list `n :: ns`. -/
def tryLockAux (b : Bitset w) (i : Int) (n : Nat) : List Nat → Option (Int × Bitset w)
  | [] => do
    let (ok, b') ← tryLock1 b n
    return (if ok then -1 else i, b')
  | n2 :: ns => do
    let (ok, b1) ← tryLock1 b n
    if !ok then return (i, b1)
    let (result, b2) ← tryLockAux b1 (i + 1) n2 ns
    if result ≠ -1 then
      let b3 ← unlock b2 n
      return (result, b3)
    return (result, b2)

/-- impl/mutex_detail.cuh:186-191 `try_lock(lock1, lock2, lockn...)`. -/
def tryLockAll (b : Bitset w) (n1 n2 : Nat) (ns : List Nat) : Option (Int × Bitset w) :=
  tryLockAux b 0 n1 (n2 :: ns)

/-! ### Concurrent machine -/

/-- A request of the user program: the (multi-)`try_lock` call on `locks`, and the order in which the user unlocks
after the critical section (see the documented pattern in mutex.cuh:50-70). `locks` with one element is the
single `try_lock()`. -/
structure Req where
  locks : List Nat
  unlockOrder : List Nat
  deriving DecidableEq

/-- Program points of impl/mutex_detail.cuh:24-53 and 158-191. -/
inductive PC where
  | idle
  /-- inside the recursion of `detail::try_lock`: `held` are the frames that have acquired (innermost first). -/
  | acquire (r : Req) (held rest : List Nat)
  /-- a frame failed; the recursion returns and every frame of `held` unlocks its own mutex (l.175-179). -/
  | rollback (r : Req) (held : List Nat) (result : Int)
  /-- the call returned -1; the thread is in its critical section. -/
  | inside (r : Req)
  /-- the thread left the critical section and unlocks. -/
  | leave (r : Req) (held : List Nat)
  deriving DecidableEq

/-- One access to a mutex as seen from outside: which mutex, the written bit, the previous bit.
impl/mutex_detail.cuh:31-45: the accesses of `try_lock` and `unlock`. -/
structure Act where
  n : Nat
  written : Bool
  old : Bool
  deriving DecidableEq

/-- A caller of impl/mutex_detail.cuh:24-53, 158-191; `acts` is a ghost variable. -/
structure Thread where
  todo : List Req
  pc : PC
  done : List (Req × Int)    -- returned calls with their result
  acts : List Act            -- ghost: all accesses of this thread
  deriving DecidableEq

/-- mutex.cuh:209: `_lock_bits`. -/
structure Mem (w : Nat) where
  bits : Bitset w
  ub : Bool
  deriving DecidableEq

/-- One step of a thread: one access to a mutex, or a local step. impl/mutex_detail.cuh:24-53, 158-191. -/
def step (m : Mem w) (t : Thread) : Mem w × Thread :=
  match t.pc with
  | .idle =>
    match t.todo with
    | [] => (m, t)
    | r :: todo => (m, { t with todo := todo, pc := .acquire r [] r.locks })
  | .acquire r held rest =>
    match rest with
    | [] => (m, { t with pc := .inside r, done := t.done ++ [(r, -1)] })
    | n :: rest' =>
      -- l.35-37: the bit is exchanged with `true`; the previous value decides
      match Bitset.set m.bits n true with
      | none => ({ m with ub := true }, { t with pc := .idle })
      | some (old, b') =>
        let t1 : Thread := { t with acts := t.acts ++ [⟨n, true, old⟩] }
        if !old then ({ m with bits := b' }, { t1 with pc := .acquire r (n :: held) rest' })
        else ({ m with bits := b' }, { t1 with pc := .rollback r held (held.length : Int) })
  | .rollback r held result =>
    match held with
    | [] => (m, { t with pc := .idle, done := t.done ++ [(r, result)] })
    | n :: held' =>
      match Bitset.set m.bits n false with
      | none => ({ m with ub := true }, { t with pc := .idle })
      | some (old, b') =>
        ({ m with bits := b' }, { t with acts := t.acts ++ [⟨n, false, old⟩], pc := .rollback r held' result })
  | .inside r => (m, { t with pc := .leave r r.unlockOrder })
  | .leave r held =>
    match held with
    | [] => (m, { t with pc := .idle })
    | n :: held' =>
      match Bitset.set m.bits n false with
      | none => ({ m with ub := true }, { t with pc := .idle })
      | some (old, b') =>
        ({ m with bits := b' }, { t with acts := t.acts ++ [⟨n, false, old⟩], pc := .leave r held' })

/-- No code: any number of callers of impl/mutex_detail.cuh:24-53, 158-191. -/
def init (b : Bitset w) (programs : List (List Req)) : Sys (Mem w) Thread :=
  { shared := { bits := b, ub := false },
    threads := programs.map (fun p => { todo := p, pc := .idle, done := [], acts := [] }) }

end Stdgpu.Mutex
