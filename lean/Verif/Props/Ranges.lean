import Verif.Model.Ranges
import Verif.Props.Memory
/-! C49: ranges over arrays. -/
namespace Stdgpu.Props
open Stdgpu.Memory Stdgpu.Spec Stdgpu.Ranges

/-- C49: a range of `n` elements starting at `p` has size `n`, is empty only for `n = 0`, and a loop over it visits
`p, p + s, p + 2 s, …`. -/
theorem C49_range_count (esz : Nat) (he : 0 < esz) (p : Int) (n : Nat) :
    Ranges.size esz (ofCount esz p n) = n ∧ (Ranges.empty esz (ofCount esz p n) = true ↔ n = 0) ∧
    (∀ i : Nat, (addresses esz (ofCount esz p n))[i]? = if i < n then some (p + i * esz) else none) ∧
    ofBounds p (p + (n : Int) * esz) = ofCount esz p n := by
  have hs : Ranges.size esz (ofCount esz p n) = n := by
    unfold Ranges.size ofCount
    rw [show p + (n : Int) * esz - p = n * esz by omega, Int.mul_ediv_cancel _ (by omega)]
  refine ⟨hs, ?_, ?_, rfl⟩
  · unfold Ranges.empty; rw [hs]; simp
  · intro i
    unfold addresses
    rw [hs, Int.toNat_natCast, List.getElem?_map]
    by_cases hi : i < n
    · rw [if_pos hi, List.getElem?_range hi]; rfl
    · rw [if_neg hi, List.getElem?_eq_none (by simpa using hi)]; rfl

/-- C49: the range of a live array visits its elements, each once and in order, and every byte of the array belongs to
exactly one of them; the range of a pointer that is not the beginning of a live array, or of an array that does not
consist of whole elements, is empty. -/
theorem C49_range_array (ops : List AOp) (s : Sys) (h : AfterCalls ops s) (ho : ∀ op ∈ ops, AllocatorCall op) (p esz : Nat)
    (he : 0 < esz) :
    (∀ ty (n : Nat), Live s ty p ((n : Int) * esz) →
      addresses esz (ofArray s esz p) = (List.range n).map (fun (i : Nat) => (p : Int) + i * esz) ∧
      ∀ a : Int, (p ≤ a ∧ a < p + n * esz) ↔ ∃ x ∈ addresses esz (ofArray s esz p), x ≤ a ∧ a < x + esz) ∧
    (((∀ ty n, ¬ Live s ty p n) ∨ ∃ ty n, Live s ty p n ∧ ¬ (esz : Int) ∣ n) →
      Ranges.empty esz (ofArray s esz p) = true ∧ addresses esz (ofArray s esz p) = []) := by
  obtain ⟨g1, g2, g3⟩ := C49_size ops s h ho p esz he
  constructor
  · intro ty n hl
    obtain ⟨e, -⟩ := g1 ty n hl
    have ea : addresses esz (ofArray s esz p) = (List.range n).map (fun (i : Nat) => (p : Int) + i * esz) := by
      unfold ofArray; rw [e]
      apply List.ext_getElem?
      intro i
      rw [(C49_range_count esz he p n).2.2.1 i, List.getElem?_map]
      by_cases hi : i < n
      · rw [if_pos hi, List.getElem?_range hi]; rfl
      · rw [if_neg hi, List.getElem?_eq_none (by simpa using hi)]; rfl
    refine ⟨ea, fun a => ?_⟩
    rw [ea]
    have hz : (0 : Int) < esz := by omega
    constructor
    · rintro ⟨h1, h2⟩
      have hd := Int.mul_ediv_add_emod (a - p) esz
      have hm := Int.emod_nonneg (a - p) (show (esz : Int) ≠ 0 by omega)
      have hm2 := Int.emod_lt_of_pos (a - p) hz
      have hq : 0 ≤ (a - p) / esz := Int.ediv_nonneg (by omega) (by omega)
      have hq2 : (a - p) / esz < n := Int.ediv_lt_of_lt_mul hz (by omega)
      refine ⟨p + ((a - p) / esz).toNat * esz, List.mem_map.2 ⟨((a - p) / esz).toNat, ?_, rfl⟩, ?_, ?_⟩
      · rw [List.mem_range]; omega
      · rw [Int.toNat_of_nonneg hq]
        have : (a - p) / esz * esz = esz * ((a - p) / esz) := Int.mul_comm _ _
        omega
      · rw [Int.toNat_of_nonneg hq]
        have : (a - p) / esz * esz = esz * ((a - p) / esz) := Int.mul_comm _ _
        omega
    · rintro ⟨x, hx, h1, h2⟩
      obtain ⟨i, hi, rfl⟩ := List.mem_map.1 hx
      rw [List.mem_range] at hi
      have h3 : (i : Int) * esz + esz ≤ n * esz := by
        have : ((i : Int) + 1) * esz ≤ n * esz := Int.mul_le_mul_of_nonneg_right (by omega) (by omega)
        rw [Int.add_mul, Int.one_mul] at this; exact this
      have h4 : (0 : Int) ≤ i * esz := by positivity
      omega
  · intro hx
    have e : arraySize s p esz = ((0 : Nat) : Int) := by
      rcases hx with hx | ⟨ty, n, hl, hd⟩
      · exact (g2 hx).1
      · exact (g3 ty n hl hd).1
    unfold ofArray; rw [e]
    obtain ⟨-, k2, k3, -⟩ := C49_range_count esz he p 0
    refine ⟨k2.2 rfl, ?_⟩
    rw [List.eq_nil_iff_forall_not_mem]
    intro x hx
    obtain ⟨i, hi, hx⟩ := List.mem_iff_getElem.1 hx
    have := k3 i
    rw [List.getElem?_eq_getElem hi] at this
    simp at this

/-- C49: a transformed range has the size of its base and its elements are the images; an indexed range of a container
(`device_range()` of deque and unordered containers) consists of the values at the given positions, in their order. -/
theorem C49_transform {A B : Type} (xs : List A) (f : A → B) (d : A) :
    (transform xs.length (fun i => xs.getD i d) f).size = xs.length ∧
    ((transform xs.length (fun i => xs.getD i d) f).empty = true ↔ xs = []) ∧
    (transform xs.length (fun i => xs.getD i d) f).elements = xs.map f ∧
    ∀ (is : List Int) (values : Int → B), (indexed is.length (fun i => is.getD i 0) values).elements = is.map values := by
  have key : ∀ {A B : Type} (xs : List A) (f : A → B) (d : A),
      (transform xs.length (fun i => xs.getD i d) f).elements = xs.map f := by
    intro A B xs f d
    unfold TransformRange.elements transform
    apply List.ext_getElem?
    intro i
    simp only [List.getElem?_map, Nat.sub_zero]
    by_cases hi : i < xs.length
    · rw [List.getElem?_range' hi]; simp [hi]
    · rw [List.getElem?_eq_none (by simpa using hi), List.getElem?_eq_none (by simpa using hi)]; rfl
  refine ⟨by simp [TransformRange.size, transform], ?_, key xs f d, fun is values => key is (select values) 0⟩
  simp [TransformRange.empty, TransformRange.size, transform]

/-- A live array of two elements of eight bytes at 200. -/
example : Live (stateAfter exOps) .host 200 ((2 : Nat) * (8 : Nat)) ∧
    addresses 8 (ofArray (stateAfter exOps) 8 200) = [200, 208] ∧ addresses 8 (ofArray (stateAfter exOps) 8 201) = [] ∧
    addresses 5 (ofArray (stateAfter exOps) 5 200) = [] := by
  have hh : (stateAfter exOps).heap = [⟨300, 10, .device⟩, ⟨200, 16, .host⟩] := by decide +kernel
  refine ⟨?_, by decide +kernel, by decide +kernel, by decide +kernel⟩
  unfold Live; rw [hh]; simp

end Stdgpu.Props
