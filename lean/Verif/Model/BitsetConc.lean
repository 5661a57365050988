import Verif.Model.Bitset
import Verif.Model.Conc
/-
Concurrent use of a bitset: every thread executes a program of element operations (`set(n,x)`, `reset(n)`,
`flip(n)`, `test(n)`). Each of them accesses shared memory exactly once, with one atomic operation on the block
(impl/bitset_detail.cuh:58, 62, 82, 99), so a step is one operation.
-/
namespace Stdgpu.BitsetConc
open Stdgpu.Bitset Stdgpu.Conc

/-- Index of an element operation. impl/bitset_detail.cuh:265-364. -/
def idx : Op → Option Nat
  | .set n _ | .reset n | .flip n | .test n => some n
  | _ => none

/-- A caller of `set(n)`, `reset(n)`, `flip(n)`, `test(n)` (impl/bitset_detail.cuh:265-364). -/
structure Thread where
  todo : List Op
  done : List (Op × Out)

/-- Shared: the bitset and whether undefined behaviour has happened. bitset.cuh:409-413. -/
structure Mem (w : Nat) where
  bits : Bitset w
  ub : Bool

/-- impl/bitset_detail.cuh:47-125 (`reference`), 265-364: every call performs one atomic access to the block (C06,
C07), which is one step. -/
def step {w : Nat} (m : Mem w) (t : Thread) : Mem w × Thread :=
  match t.todo with
  | [] => (m, t)
  | op :: rest =>
    match exec m.bits op with
    | none => ({ m with ub := true }, { t with todo := rest })
    | some (o, b') => ({ m with bits := b' }, { todo := rest, done := t.done ++ [(op, o)] })

/-- No code: any number of callers of impl/bitset_detail.cuh:265-364. -/
def init {w : Nat} (b : Bitset w) (programs : List (List Op)) : Sys (Mem w) Thread :=
  { shared := { bits := b, ub := false }, threads := programs.map (fun p => { todo := p, done := [] }) }

end Stdgpu.BitsetConc
