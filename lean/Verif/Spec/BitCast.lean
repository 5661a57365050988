import Verif.Model.BitCast
/-! Types of objects in memory: what C++ says about trivially copyable types and about unsigned integers. -/
namespace Stdgpu.Spec
open Stdgpu.BitCast

/-- A trivially copyable type: an object into which the bytes of another have been copied has its value, and only the bytes of the
object matter. -/
structure TriviallyCopyable {α : Type} (R : Rep α) : Prop where
  copied : ∀ x, R.value (R.bytes x) = x
  own : ∀ b b', (∀ i, i < R.size → b i = b' i) → R.value b = R.value b'

/-- All bytes of the type belong to its value (no padding). -/
def NoPadding {α : Type} (R : Rep α) : Prop := ∀ b i, i < R.size → R.bytes (R.value b) i = b i

/-- An order of the bytes of an integer of `n` bytes: byte number `i` in memory has the weight `256 ^ pos i`, and `at' j` is the
byte in memory with the weight `256 ^ j`. -/
structure ByteOrder (n : Nat) where
  pos : Nat → Nat
  at' : Nat → Nat
  pos_lt : ∀ i, i < n → pos i < n
  at_lt : ∀ j, j < n → at' j < n
  at_pos : ∀ i, i < n → at' (pos i) = i
  pos_at : ∀ j, j < n → pos (at' j) = j

def littleEndian (n : Nat) : ByteOrder n := ⟨id, id, fun _ h => h, fun _ h => h, fun _ _ => rfl, fun _ _ => rfl⟩

def bigEndian (n : Nat) : ByteOrder n :=
  ⟨fun i => n - 1 - i, fun i => n - 1 - i, fun _ _ => by omega, fun _ _ => by omega, fun _ _ => by omega, fun _ _ => by omega⟩

/-- The integer type with `n` bytes and this byte order. -/
def intRep {n : Nat} (o : ByteOrder n) : Rep (BitVec (8 * n)) where
  size := n
  bytes x i := x.extractLsb' (8 * o.pos i) 8
  value b := (BitVec.iunfoldr (fun (j : Fin (8 * n)) (_ : Unit) => ((), (b (o.at' (j.val / 8))).getLsbD (j.val % 8))) ()).2

end Stdgpu.Spec
