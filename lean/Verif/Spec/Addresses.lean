import Verif.Spec.Objects
import Verif.Spec.UnorderedConc
import Verif.Spec.Lists
import Verif.Spec.Deques
import Verif.Model.Locations
/-!
Specification of where the shared variables of a container are in memory, and of the bytes that concurrent operations touch
(C87).
-/
namespace Stdgpu.Spec
open Stdgpu.Memory Stdgpu.Objects
open Stdgpu.SlotConc (SLoc)
open Stdgpu.UnorderedConc (ULoc)

/-- A range of bytes. -/
structure Range where
  addr : Nat
  len : Nat
  deriving DecidableEq

/-- All bytes of the range are in the block. -/
def Range.In (r : Range) (b : Block) : Prop := b.addr ≤ r.addr ∧ (r.addr : Int) + r.len ≤ b.addr + b.bytes

/-- The ranges have no byte in common. -/
def Range.Apart (r r' : Range) : Prop := r.addr + r.len ≤ r'.addr ∨ r'.addr + r'.len ≤ r.addr

/-- Element `p` of an array. -/
def elemRange (base esz p : Nat) : Range := ⟨base + p * esz, esz⟩

/-- The word with bit `p` of a bitset or a mutex array. -/
def wordRange (o : BitsetObj) (p : Nat) : Range := ⟨o.bits + 4 * (p / 32), 4⟩

def atomicRange (o : AtomicObj) : Range := ⟨o.value, 4⟩

/-- The bytes of a variable of a vector (which has no `_begin` and `_end`). -/
def vectorRange (esz : Nat) (o : VectorObj) : SLoc → Option Range
  | .data p => some (elemRange o.data esz p)
  | .lock p => some (wordRange o.locks.bits p)
  | .occ p => some (wordRange o.occupied p)
  | .size => some (atomicRange o.size)
  | _ => none

/-- The bytes of a variable of a deque. -/
def dequeRange (esz : Nat) (o : DequeObj) : SLoc → Option Range
  | .data p => some (elemRange o.data esz p)
  | .lock p => some (wordRange o.locks.bits p)
  | .occ p => some (wordRange o.occupied p)
  | .size => some (atomicRange o.size)
  | .begin_ => some (atomicRange o.begin_)
  | .end_ => some (atomicRange o.end_)

/-- The bytes of a variable of an unordered container; `isz` is `sizeof(index_t)`. -/
def unorderedRange (isz esz : Nat) (o : UnorderedObj) : ULoc → Option Range
  | .val p => some (elemRange o.values esz p)
  | .off p => some (elemRange o.offsets isz p)
  | .lock p => some (wordRange o.locks.bits p)
  | .occ p => some (wordRange o.occupied p)
  | .count => some (atomicRange o.count)
  | .ex l => vectorRange isz o.excess l

/-- A shared variable of some container. -/
inductive Var where
  | s (x : SLoc) | u (x : ULoc)

/-- The bytes of a variable. -/
def varRange (isz : Nat) : Kind → Obj → Var → Option Range
  | .vector _ esz, .vector o, .s x => vectorRange esz o x
  | .deque _ esz, .deque o, .s x => dequeRange esz o x
  | .unordered _ _ esz, .unordered o, .u x => unorderedRange isz esz o x
  | _, _, _ => none

/-- Some thread, at some point of some concurrent use of a container of the kind, is about to access the variable: any
number of threads with any operations in any schedule on a container with any contents. For an unordered container as long
as nothing undefined has happened, see C38, C39, C75 for when this is the case. -/
inductive Touches : Kind → Var → Prop where
  | vector {α : Type} {n esz : Nat} {v : Vector.Vec α} {l : List α} (h : Vector.Holds v l)
      (hn : Vector.cap v = n) (programs : List (List (SlotConc.Op Unit α))) (sched : List Nat)
      (t : SlotConc.Thread Unit Vector.FPC α)
      (ht : t ∈ (Conc.run (SlotConc.step (Vector.vfront (Vector.cap v)))
        (SlotConc.init (Vector.vfront (Vector.cap v)) v programs) sched).threads)
      (x : SLoc) (hx : x ∈ Vector.locs t) : Touches (.vector n esz) (.s x)
  | deque {α : Type} {n esz : Nat} {d : Deque.Deq α} {l : List α} (h : Deque.Holds d l)
      (hn : Deque.cap d = n) (programs : List (List (SlotConc.Op Deque.Side α))) (sched : List Nat)
      (t : SlotConc.Thread Deque.Side Deque.FPC α)
      (ht : t ∈ (Conc.run (SlotConc.step (Deque.dfront (Deque.cap d)))
        (SlotConc.init (Deque.dfront (Deque.cap d)) d programs) sched).threads)
      (x : SLoc) (hx : x ∈ Deque.locs t) : Touches (.deque n esz) (.s x)
  | unordered {K V : Type} {P : Unordered.Params K V} {bc ec esz : Nat} {c : Unordered.Tab V}
      (hl : KeyLaws P) (hb : bc < 2 ^ 63) (h : PReachable P bc ec c) (programs : List (List (UnorderedConc.Op K V)))
      (sched : List Nat) (hu : (uexec P c programs sched).shared.ub = false) (t : UnorderedConc.Thread K V)
      (ht : t ∈ (uexec P c programs sched).threads) (x : ULoc) (hx : x ∈ UnorderedConc.locs P c t) :
      Touches (.unordered bc ec esz) (.u x)

end Stdgpu.Spec

namespace Stdgpu.Spec
open Stdgpu.SlotConc (SLoc Mem)
open Stdgpu.UnorderedConc (ULoc)

/-! What it means that the value of a variable is the same in two states. -/

/-- Vectors: `_data[p]` (raw or an object), lock bit, occupied bit, `_size`. -/
def SameV {α : Type} (m m' : Vector.Vec α) : SLoc → Prop
  | .data p => m.slots.data p = m'.slots.data p
  | .lock p => m.slots.locks p = m'.slots.locks p
  | .occ p => m.slots.occ p = m'.slots.occ p
  | .size => m.ctr = m'.ctr
  | _ => True

/-- Deques. -/
def SameD {α : Type} (m m' : Deque.Deq α) : SLoc → Prop
  | .data p => m.slots.data p = m'.slots.data p
  | .lock p => m.slots.locks p = m'.slots.locks p
  | .occ p => m.slots.occ p = m'.slots.occ p
  | .size => m.ctr.size = m'.ctr.size
  | .begin_ => m.ctr.begin = m'.ctr.begin
  | .end_ => m.ctr.endd = m'.ctr.endd

/-- Unordered containers; a value includes whether it is alive. -/
def SameU {V : Type} (t t' : Unordered.Tab V) : ULoc → Prop
  | .val p => t.val p = t'.val p ∧ t.live p = t'.live p
  | .off p => t.off p = t'.off p
  | .lock p => t.locks p = t'.locks p
  | .occ p => t.occ p = t'.occ p
  | .count => t.count = t'.count
  | .ex x => SameV t.excess t'.excess x

/-- Bits of the same array of bits in the same word. -/
def SameWord : Var → Var → Prop
  | .s (.lock p), .s (.lock q) | .s (.occ p), .s (.occ q)
  | .u (.lock p), .u (.lock q) | .u (.occ p), .u (.occ q)
  | .u (.ex (.lock p)), .u (.ex (.lock q)) | .u (.ex (.occ p)), .u (.ex (.occ q)) => p / 32 = q / 32
  | _, _ => False

end Stdgpu.Spec
