import Verif.Model.Objects
import Verif.Spec.Memory
/-!
Specification of the memory that container objects own (C65, C66).
-/
namespace Stdgpu.Spec
open Stdgpu.Memory Stdgpu.Objects

/-- The number of bytes of a set of `n` bits. -/
def bitBytes (n : Nat) : Int := (n + 31) / 32 * 4

def atomicBlocks (o : AtomicObj) : List Block := [⟨o.value, 4, .device⟩]
def bitsetBlocks (n : Nat) (o : BitsetObj) : List Block := [⟨o.bits, bitBytes n, .device⟩]

/-- Arrays of `n` elements. -/
def arrayBlock (p n esz : Nat) : Block := ⟨p, (n : Int) * esz, .device⟩

/-- The blocks of an object of the kind that are initialised with zeros and stay zero until the object is used. -/
def zeroBlocks (isz : Nat) : Kind → Obj → List Block
  | .atomic, .atomic o => atomicBlocks o
  | .bitset n, .bitset o => bitsetBlocks n o
  | .mutexArray n, .mutexArray o => bitsetBlocks n o.bits
  | .vector n _, .vector o => bitsetBlocks n o.locks.bits ++ bitsetBlocks n o.occupied ++ atomicBlocks o.size
  | .deque n _, .deque o => bitsetBlocks n o.locks.bits ++ bitsetBlocks n o.occupied ++ atomicBlocks o.size ++
      atomicBlocks o.begin_ ++ atomicBlocks o.end_
  | .unordered bc ec _, .unordered o => bitsetBlocks (bc + ec) o.occupied ++ atomicBlocks o.count ++
      bitsetBlocks ec o.excess.locks.bits ++ bitsetBlocks (bc + ec) o.locks.bits ++ atomicBlocks o.rangeEnd ++
      [arrayBlock o.offsets (bc + ec) isz]
  | _, _ => []

/-- The other blocks of an object of the kind. -/
def rawBlocks (isz : Nat) : Kind → Obj → List Block
  | .vector n esz, .vector o => [arrayBlock o.data n esz]
  | .deque n esz, .deque o => [arrayBlock o.data n esz, arrayBlock o.rangeIndices n isz]
  | .unordered bc ec esz, .unordered o => bitsetBlocks ec o.excess.occupied ++ atomicBlocks o.excess.size ++
      [arrayBlock o.excess.data ec isz, arrayBlock o.values (bc + ec) esz, arrayBlock o.rangeIndices (bc + ec) isz]
  | _, _ => []

/-- All blocks of an object. -/
def blocks (isz : Nat) (k : Kind) (o : Obj) : List Block := zeroBlocks isz k o ++ rawBlocks isz k o

/-- The byte belongs to the block. -/
def InBlk (b : Block) (a : Nat) : Prop := b.addr ≤ a ∧ (a : Int) < b.addr + b.bytes

/-- The blocks have no byte in common. -/
def Apart (b c : Block) : Prop := (b.addr : Int) + b.bytes ≤ c.addr ∨ (c.addr : Int) + c.bytes ≤ b.addr

/-- The contracts of `createDeviceObject`. -/
def PosKind : Kind → Prop
  | .atomic => True
  | .bitset n => 0 < n
  | .mutexArray n => 0 < n
  | .vector n esz => 0 < n ∧ 0 < esz
  | .deque n esz => 0 < n ∧ 0 < esz
  | .unordered bc ec esz => 0 < bc ∧ 0 < ec ∧ 0 < esz

/-- The backend does not refuse allocations, and `index_t` has a size. -/
structure GoodEnv (E : Env) : Prop where
  ord : ∀ n, (E.ord n).Perm (List.range n)
  room : ∀ s bytes, 0 < bytes → Room s (E.pick s bytes) bytes
  isz : 0 < E.isz

/-- The kinds of the objects created so far, and whether they are not destroyed yet. -/
def trackStep (l : List (Kind × Bool)) : Op → List (Kind × Bool)
  | .create k => l ++ [(k, true)]
  | .destroy i => l.modify i (fun e => (e.1, false))

/-- What the program has created, and whether it is not destroyed yet. -/
def track (ops : List Op) : List (Kind × Bool) := ops.foldl trackStep []

/-- An unordered container. -/
def Kind.isUnordered : Kind → Bool
  | .unordered _ _ _ => true
  | _ => false

/-- The program creates objects of positive size and never destroys an unordered container that it has destroyed
already. (Other objects may be destroyed twice.) -/
def Proper (ops : List Op) : Prop :=
  (∀ k, Op.create k ∈ ops → PosKind k) ∧
  ∀ pre i post, ops = pre ++ Op.destroy i :: post → ∀ e, (track pre)[i]? = some e → Kind.isUnordered e.1 = true → e.2 = true

/-- The blocks of the objects that are not destroyed. -/
def ownedBlocks (isz : Nat) (l : List (Kind × Bool)) (objs : List Obj) : List Block :=
  (l.zip objs).flatMap (fun e => if e.1.2 then blocks isz e.1.1 e.2 else [])

/-! Running out of memory (C86) -/

/-- Parallel loops visit all indices, and `index_t` has a size. Nothing is assumed about the addresses the backend chooses:
an address that the backend cannot use means that the allocation fails. -/
structure AnyEnv (E : Env) : Prop where
  ord : ∀ n, (E.ord n).Perm (List.range n)
  isz : 0 < E.isz

/-- The blocks whose allocation succeeded: those with a pointer other than null. -/
def obtained (l : List Block) : List Block := l.filter (fun b => b.addr != 0)

end Stdgpu.Spec
