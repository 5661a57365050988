import Verif.Model.Algorithm32
import Verif.Model.UnorderedBulk
import Verif.Model.Vector
/-
The operations of the containers on ranges with `index_t` as a 32 bit signed integer (the default, cstddef.h:55-59): the
number of elements is `static_cast<index_t>(end - begin)`. Model/Vector and Model/UnorderedBulk describe them for unbounded
integers. A sum or difference of two `index_t` that does not fit is undefined behaviour.
-/
namespace Stdgpu.Range32
open Stdgpu.Algorithm32 (index32)
open Stdgpu.Vector (Vec Fault insertAt eraseAt)
open Stdgpu.Conc Stdgpu.Unordered Stdgpu.UnorderedConc

variable {α K V : Type}

/-- A value of type `index_t`. `index_t` is `index32_t` in builds with STDGPU_USE_32_BIT_INDEX (cstddef.h:52-58). -/
def fits (x : Int) : Bool := decide (-2 ^ 31 ≤ x) && decide (x < 2 ^ 31)

/-- impl/vector_detail.cuh:380-414 `vector::insert(position, begin, end)`; `ord n` is the order in which the parallel loop
handles the indices below `n` (none for a negative number). -/
def vectorInsert (ord : Nat → List Nat) (v : Vec α) (position : Int) (xs : List α) : Except Fault (Vec α) :=
  if position ≠ Vector.size v then .ok v
  else
    let N := index32 xs.length
    let newSize := Vector.size v + N
    if !fits newSize then .error .ub
    else if newSize > Vector.cap v then .ok v
    else do
      let s ← (ord N.toNat).foldlM (fun s i => insertAt s (Vector.size v) xs i) v.slots
      return { slots := s, ctr := newSize }

/-- impl/vector_detail.cuh:423-450 `vector::erase(begin, end)`. -/
def vectorErase (ord : Nat → List Nat) (v : Vec α) (b e : Int) : Except Fault (Vec α) :=
  if e ≠ Vector.size v then .ok v
  else
    let N := index32 (e - b)
    let newSize := Vector.size v - N
    if !fits newSize then .error .ub
    else if newSize < 0 then .ok v
    else do
      let s ← (ord N.toNat).foldlM (fun s i => eraseAt s newSize i) v.slots
      return { slots := s, ctr := newSize }

/-- impl/unordered_base_detail.cuh:996-1018 `insert(begin, end)`: one thread per index below
`static_cast<index_t>(end - begin)`, none when this is negative. -/
def bulkInsert (P : Params K V) (t : Tab V) (vs : List V) (sched : List Nat) : Sys (Shared V) (Thread K V) :=
  run (step P) (init t ((List.range (index32 vs.length).toNat).filterMap (fun i => vs[i]?.map (fun v => [.insert v])))) sched

/-- impl/unordered_base_detail.cuh:1045-1066 `erase(begin, end)`. -/
def bulkErase (P : Params K V) (t : Tab V) (ks : List K) (sched : List Nat) : Sys (Shared V) (Thread K V) :=
  run (step P) (init t ((List.range (index32 ks.length).toNat).filterMap (fun i => ks[i]?.map (fun k => [.erase k])))) sched

end Stdgpu.Range32
