import Verif.Model.Conc
/-
Model of `impl/atomic_detail.cuh` and the backend primitives `openmp/impl/atomic_detail.h`,
`cuda/impl/atomic_detail.cuh`.

Memory orders / fences are not modelled (SC, see DESIGN.md). The null-pointer guards of `load`/`store`
(impl/atomic_detail.cuh:438-441, 491-494) concern default-constructed objects only.
-/
namespace Stdgpu.Atomic

/-! ### Modular increment / decrement (unsigned int) -/

/-- openmp/impl/atomic_detail.h:193-204 `atomic_fetch_inc_mod` (new value; CUDA `atomicInc` is specified equally). -/
def backendIncMod (old arg : Nat) : Nat := if old ≥ arg then 0 else old + 1

/-- openmp/impl/atomic_detail.h:206-217 `atomic_fetch_dec_mod` (new value; CUDA `atomicDec` is specified equally). -/
def backendDecMod (old arg : Nat) : Nat := if old = 0 ∨ old > arg then arg else old - 1

/-- impl/atomic_detail.cuh:676-688 `fetch_inc_mod`: (returned old value, new value). The `unsigned int` domain
`arg ≥ 1`, `arg < 2^32` has no wrap-around in `arg - 1`. -/
def fetchIncMod (value arg : Nat) : Nat × Nat := (value, backendIncMod value (arg - 1))

/-- impl/atomic_detail.cuh:690-702 `fetch_dec_mod`: (returned old value, new value). -/
def fetchDecMod (value arg : Nat) : Nat × Nat := (value, backendDecMod value (arg - 1))

/-! ### compare_exchange -/

/-- openmp/impl/atomic_detail.h:69-80 `atomic_compare_exchange`: (old, new value). CUDA: `atomicCAS`. -/
def backendCompareExchange {V : Type} [DecidableEq V] (value expected desired : V) : V × V :=
  (value, if value = expected then desired else value)

/-- impl/atomic_detail.cuh:559-576 `compare_exchange_strong` (and `_weak`, 552-557):
(returned bool, new `expected`, new value). -/
def compareExchange {V : Type} [DecidableEq V] (value expected desired : V) : Bool × V × V :=
  let r := backendCompareExchange value expected desired
  let old := r.1
  let changed := decide (old = expected)
  (changed, (if changed then expected else old), r.2)

/-! ### CUDA 64-bit subtraction -/

/-- cuda/impl/atomic_detail.cuh:23-27 `atomicSub(unsigned long long)`:
`atomicAdd(address, max - value + 1)`; new value. -/
def cudaAtomicSub (value arg : BitVec 64) : BitVec 64 :=
  let max : BitVec 64 := BitVec.allOnes 64
  value + (max - arg + 1)

/-! ### Read-modify-write operations under concurrency -/

/-- How a backend implements an operation.
* `capture`  – one indivisible access: `#pragma omp atomic capture` (openmp/impl/atomic_detail.h:82-165: add, sub,
  and, or, xor) and all hardware atomics of CUDA/HIP (cuda/impl/atomic_detail.cuh:102-177).
* `critical` – `#pragma omp critical { old = *address; *address = ...; }` (openmp/impl/atomic_detail.h:38-80 and
  167-217: load, store, exchange, compare_exchange, min, max, inc_mod, dec_mod). Critical sections exclude each
  other (they all use the unnamed critical section), but they do not exclude `omp atomic` operations.
* `casloop`  – cuda/impl/atomic_detail.cuh:35-67 float `atomicMin`/`atomicMax`: plain load, then CAS until the
  compared bit pattern was current. -/
inductive Kind where
  | capture | critical | casloop
  deriving DecidableEq

/-- An atomic operation `old = *address; *address = f(old); return old;`. impl/atomic_detail.cuh:538-702,
openmp/impl/atomic_detail.h:35-217. -/
structure Op (V : Type) where
  kind : Kind
  f : V → V

/-- Program counter inside one operation. The blocks `omp critical` and `omp atomic capture` of
openmp/impl/atomic_detail.h:35-217. -/
inductive PC (V : Type) where
  | idle
  | entered            -- inside `omp critical`, before the read
  | hasRead (v : V)    -- inside `omp critical`, after `old = *address`
  | leaving            -- inside `omp critical`, after the write
  | loaded (v : V)     -- CAS loop, `assumed = v`

/-- A thread: operations still to be performed and (operation, returned old value) of the performed ones. A caller of
the functions in openmp/impl/atomic_detail.h:35-217. -/
structure Thread (V : Type) where
  todo : List (Op V)
  pc : PC V
  done : List (Op V × V)

/-- Shared memory: the cell and whether somebody is inside `omp critical`. openmp/impl/atomic_detail.h:35-217: all `omp
critical` blocks without a name exclude each other. -/
structure Mem (V : Type) where
  value : V
  crit : Bool

/-- One step of a thread. openmp/impl/atomic_detail.h:35-217; see `Kind` for the individual functions. -/
def step {V : Type} [DecidableEq V] (m : Mem V) (t : Thread V) : Mem V × Thread V :=
  match t.todo with
  | [] =>
    match t.pc with
    | .leaving => ({ m with crit := false }, { t with pc := .idle })
    | _ => (m, t)
  | op :: rest =>
    match t.pc with
    | .idle =>
      match op.kind with
      | .capture =>
        ({ m with value := op.f m.value }, { todo := rest, pc := .idle, done := t.done ++ [(op, m.value)] })
      | .critical =>
        if m.crit then (m, t) else ({ m with crit := true }, { t with pc := .entered })
      | .casloop => (m, { t with pc := .loaded m.value })
    | .entered => (m, { t with pc := .hasRead m.value })
    | .hasRead v =>
      ({ m with value := op.f v }, { todo := rest, pc := .leaving, done := t.done ++ [(op, v)] })
    | .leaving => ({ m with crit := false }, { t with pc := .idle })
    | .loaded assumed =>
      let r := backendCompareExchange m.value assumed (op.f assumed)
      if assumed = r.1 then
        ({ m with value := r.2 }, { todo := rest, pc := .idle, done := t.done ++ [(op, r.1)] })
      else ({ m with value := r.2 }, { t with pc := .loaded r.1 })

/-- Initial system: every thread has a program. No code: any number of callers of openmp/impl/atomic_detail.h:35-217. -/
def init {V : Type} (v : V) (programs : List (List (Op V))) : Conc.Sys (Mem V) (Thread V) :=
  { shared := { value := v, crit := false },
    threads := programs.map (fun p => { todo := p, pc := .idle, done := [] }) }

/-- All threads have finished their programs. No code: all calls have returned (callers of
openmp/impl/atomic_detail.h:35-217). -/
def Finished {V : Type} (s : Conc.Sys (Mem V) (Thread V)) : Prop := ∀ t ∈ s.threads, t.todo = []

end Stdgpu.Atomic
