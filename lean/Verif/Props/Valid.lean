import Verif.Proof.Valid
import Verif.Proof.Mutex
import Verif.Props.UnorderedConc
/-
C62: `valid()` is true only for well-formed containers. `Spec/Valid.lean` says what that means. Nothing is assumed about the
history of the container; for unordered containers the sizes have to be those of a created one.
-/
namespace Stdgpu.Props
open Stdgpu.Spec Stdgpu.Unordered
open Stdgpu.Vector (Vec)
open Stdgpu.Deque (Deq)

/-- C62. `vector::valid()` is true exactly if the counter is in range and is the number of occupied slots, and no slot is
locked. -/
theorem C62_vector_valid_iff {α : Type} (v : Vec α) :
    Vector.valid v = true ↔ SlotsOK v.slots.cap v.ctr v.slots.occ v.slots.locks := slotsOK_vector v

/-- C62. The same for `deque::valid()`. -/
theorem C62_deque_valid_iff {α : Type} (d : Deq α) :
    Deque.valid d = true ↔ SlotsOK d.slots.cap d.ctr.size d.slots.occ d.slots.locks := slotsOK_deque d

/-- C62. `mutex_array::valid()` is true exactly if no mutex is locked. -/
theorem C62_mutex_valid_iff {w : Nat} (b : Bitset.Bitset w) (h : Bitset.WF b) :
    Mutex.valid b = true ↔ ∀ n, n < b.size → Mutex.locked b n = some false := by
  unfold Mutex.valid
  rw [beq_iff_eq, Bitset.count_eq h, List.count_eq_zero]
  unfold Bitset.abs
  simp only [List.mem_map, List.mem_range, not_exists, not_and, Bool.not_eq_true]
  constructor
  · intro hn n hlt
    rw [Mutex.locked, Bitset.test_refines h n hlt, hn n hlt]
  · intro hn n hlt
    have := hn n hlt
    rw [Mutex.locked, Bitset.test_refines h n hlt] at this
    simpa using this

/-- C62. An unordered container for which `valid()` is true is well-formed: the chains end, are disjoint and contain all
stored values, no key is stored twice, `size()` is the number of stored values, nothing is locked and the list of unused
entries is valid. -/
theorem C62_unordered_valid_sound {K V : Type} {P : Params K V} (hl : KeyLaws P) (t : Tab V) (h0 : 0 < t.bc)
    (h1 : t.bc < 2 ^ 63) (hb : t.bc ≤ t.total) (ord : Nat → List Nat) (ho : ∀ n, (ord n).Perm (List.range n))
    (h : valid P ord t = .ok true) : Wellformed P t := valid_sound hl h0 h1 hb ho h

/-- The hypotheses of `C62_unordered_valid_sound` are met by a container with a chain of three entries. -/
example : valid exC (fun n => List.range n) (exTab exC 1 3 [.insert (1, 10), .insert (2, 20), .insert (3, 30)]) = .ok true := by
  decide +kernel

/-- A key stored twice, a lock left behind, a wrong size: `valid()` is false. -/
example :
    let t := exTab exC 1 3 [.insert (1, 10), .insert (2, 20), .insert (3, 30)]
    valid exC (fun n => List.range n) { t with val := fun p => if p = 2 then some (1, 99) else t.val p } = .ok false ∧
    valid exC (fun n => List.range n) { t with locks := fun p => p == 1 } = .ok false ∧
    valid exC (fun n => List.range n) { t with count := 2 } = .ok false ∧
    valid exC (fun n => List.range n) { t with off := fun p => if p = 2 then -2 else t.off p } = .ok false :=
  ⟨by decide +kernel, by decide +kernel, by decide +kernel, by decide +kernel⟩

example : ∃ v : Vec Nat, Vector.valid v = true ∧ v.ctr = 2 ∧ Vector.valid { v with ctr := 1 } = false := by
  refine ⟨⟨⟨2, fun _ => false, fun _ => true, fun _ => some 5, false⟩, 2⟩, by decide, rfl, by decide⟩

end Stdgpu.Props
