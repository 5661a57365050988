import Verif.Model.Memory
/-! Vocabulary of the memory properties. -/
namespace Stdgpu.Spec
open Stdgpu.Memory

/-- `p` is the start of a live block of `bytes` bytes. -/
def Live (s : Sys) (ty : MemType) (p : Nat) (bytes : Int) : Prop := (⟨p, bytes, ty⟩ : Block) ∈ s.heap

/-- Number of live blocks. -/
def liveCount (s : Sys) (ty : MemType) : Nat := s.heap.countP (fun b => b.ty == ty)

/-- The bytes `[p, p + bytes)` lie inside one live block. -/
def Inside (s : Sys) (ty : MemType) (p : Nat) (bytes : Int) : Prop :=
  ∃ q n, Live s ty q n ∧ q ≤ p ∧ (p : Int) + bytes ≤ q + n

/-- The ranges of a copy overlap. -/
def Overlap (dst src : Nat) (bytes : Int) : Prop := (dst : Int) < src + bytes ∧ (src : Int) < dst + bytes

/-- Element `i` of the array at `p`, as its bytes. -/
def elem (s : Sys) (p esz i : Nat) : List (BitVec 8) := (List.range esz).map (fun j => s.mem (p + i * esz + j))

/-- The elements of an array of `n` elements of `esz` bytes. -/
def arrayAt (s : Sys) (p esz n : Nat) : List (List (BitVec 8)) := (List.range n).map (elem s p esz)

/-- The bytes of a value. -/
def bytesOf (esz : Nat) (v : Nat → BitVec 8) : List (BitVec 8) := (List.range esz).map v

/-- A history of calls that ended without undefined behaviour. -/
def AfterCalls (ops : List AOp) (s : Sys) : Prop :=
  ∃ (mem : Nat → BitVec 8) (ords : Nat → Nat → List Nat) (rs : List Nat),
    (∀ j n, (ords j n).Perm (List.range n)) ∧ execAll ords (init mem) ops = .ok (rs, s)

/-- The call is not `register_memory` / `deregister_memory`. -/
def AllocatorCall : AOp → Prop
  | .register _ _ _ => False
  | .deregister _ _ => False
  | _ => True

/-- No backend allocation has failed. -/
def NoFailure (s : Sys) : Prop := ∀ ty, s.failed ty = 0

/-- A piece of memory whose allocation the backend can satisfy at `addr`. -/
def Room (s : Sys) (addr : Nat) (bytes : Int) : Prop :=
  addr ≠ 0 ∧ ∀ ty p n, Live s ty p n → (addr : Int) + bytes ≤ p ∨ (p : Int) + n ≤ addr

end Stdgpu.Spec
