import Verif.Model.Range32
import Verif.Props.Algorithm32
import Verif.Props.UnorderedBulk
import Verif.Props.Vector
/-! C82: range operations of the containers with a 32 bit `index_t`. -/
namespace Stdgpu.Props
open Stdgpu.Algorithm32 (index32)
open Stdgpu.Vector (Vec Holds Fault)
open Stdgpu.Spec

variable {α : Type}

theorem fits_iff (x : Int) : Range32.fits x = true ↔ -2 ^ 31 ≤ x ∧ x < 2 ^ 31 := by
  simp [Range32.fits]

theorem foldlM_congr_mem {β γ : Type} {f g : β → γ → Except Fault β} (l : List γ) (h : ∀ s, ∀ i ∈ l, f s i = g s i) (s : β) :
    l.foldlM f s = l.foldlM g s := by
  induction l generalizing s with
  | nil => rfl
  | cons a l ih =>
    rw [List.foldlM_cons, List.foldlM_cons, h s a (by simp)]
    congr 1
    funext x
    exact ih (fun s i hi => h s i (List.mem_cons_of_mem _ hi)) x

theorem clampSize_lt (c : Nat) (x y : Int) (h : x < y) (hy : 0 < y) : Vector.clampSize c x < y := by
  unfold Vector.clampSize
  split
  · exact hy
  · split
    · omega
    · exact h

theorem clampSize_ne (c : Nat) (x y : Int) (h0 : 0 ≤ x) (h : x < y) (hy : y ≤ c) : Vector.clampSize c x ≠ y := by
  have := clampSize_lt c x y h (by omega)
  omega

/-- C82. `vector::insert` of a range that, together with the elements, has fewer than 2^31 elements: it appends the range
at the end if it fits, and changes nothing otherwise. -/
theorem C82_vector_insert {v : Vec α} {l : List α} (h : Holds v l) (ord : Nat → List Nat)
    (ho : ∀ n, (ord n).Perm (List.range n)) (pos : Int) (xs : List α) (hn : l.length + xs.length < 2 ^ 31) :
    ∃ v', Range32.vectorInsert ord v pos xs = .ok v' ∧ Vector.valid v' = true ∧ Vector.cap v' = Vector.cap v ∧
      Holds v' (if pos = l.length ∧ l.length + xs.length ≤ Vector.cap v then l ++ xs else l) := by
  have e : Range32.vectorInsert ord v pos xs = Vector.insertRange (ord xs.length) v pos xs := by
    unfold Range32.vectorInsert Vector.insertRange
    rw [index32_eq _ (by omega) (by omega), Vector.size_eq h]
    have : Range32.fits ((l.length : Int) + xs.length) = true := (fits_iff _).2 ⟨by omega, by omega⟩
    simp [this]
  rw [e]
  exact (C17_range_operations_partial h ord ho pos 0 0 (Int.le_refl 0) xs).1

/-- C82. `vector::erase` (the ranges of a vector are shorter than 2^31 when its capacity is). -/
theorem C82_vector_erase {v : Vec α} {l : List α} (h : Holds v l) (ord : Nat → List Nat)
    (ho : ∀ n, (ord n).Perm (List.range n)) (b e : Int) (hbe : b ≤ e) (hn : e - b < 2 ^ 31) (hc : Vector.cap v < 2 ^ 31) :
    ∃ v', Range32.vectorErase ord v b e = .ok v' ∧ Vector.valid v' = true ∧ Vector.cap v' = Vector.cap v ∧
      Holds v' (if e = l.length ∧ 0 ≤ b then l.take b.toNat else l) := by
  have e : Range32.vectorErase ord v b e = Vector.eraseRange (ord (e - b).toNat) v b e := by
    unfold Range32.vectorErase Vector.eraseRange
    rw [index32_eq _ (by omega) (by omega), Vector.size_eq h]
    have := h.len
    have : Range32.fits ((l.length : Int) - (e - b)) = true := (fits_iff _).2 ⟨by omega, by omega⟩
    simp [this]
  rw [e]
  exact (C17_range_operations_partial h ord ho 0 b _ hbe []).2.1

/-- C82 does not hold for longer ranges, 1: when the range has from 2^31 to 2^32 - 1 elements, `vector::insert` at the end,
which should be refused (the range does not fit), inserts nothing and reduces the size: elements are lost, `valid()` is
false. -/
theorem C82_counterexample_insert_shrinks {v : Vec α} {l : List α} (h : Holds v l) (ord : Nat → List Nat)
    (ho : ∀ n, (ord n).Perm (List.range n)) (xs : List α) (h0 : 2 ^ 31 ≤ xs.length) (h1 : xs.length < 2 ^ 32)
    (hc0 : 0 < Vector.cap v) (hc : Vector.cap v < 2 ^ 31) :
    ∃ v', Range32.vectorInsert ord v l.length xs = .ok v' ∧ v'.slots = v.slots ∧ Vector.valid v' = false ∧
      (l ≠ [] → Vector.size v' < l.length) := by
  have hl := h.len
  have e0 : index32 (xs.length : Int) = xs.length - 2 ^ 32 := index32_sub _ (by omega) (by omega)
  have ef : Range32.fits ((l.length : Int) + (xs.length - 2 ^ 32)) = true := (fits_iff _).2 ⟨by omega, by omega⟩
  have ord0 : ord 0 = [] := by have := (ho 0).length_eq; simpa using this
  refine ⟨{ slots := v.slots, ctr := l.length + (xs.length - 2 ^ 32) }, ?_, rfl, ?_, ?_⟩
  · simp only [Range32.vectorInsert, Vector.size_eq h, ne_eq, not_true, if_false, e0, ef, Bool.not_true, Bool.false_eq_true]
    have hz : ((xs.length : Int) - (2 : Int) ^ 32).toNat = 0 := by omega
    rw [if_neg (by omega), hz, ord0]
    rfl
  · unfold Vector.valid
    have hcount := Vector.countBits_lt _ _ h.len _ h.occ
    rw [if_neg (by simp only [Vector.cap] at *; omega)]
    simp only [Vector.cap, Vector.size] at *
    rw [hcount]
    by_cases hneg : (l.length : Int) + (xs.length - 2 ^ 32) < 0
    · simp; omega
    · have := clampSize_ne v.slots.cap ((l.length : Int) + (xs.length - 2 ^ 32)) l.length (by omega) (by omega) (by omega)
      rw [beq_eq_false_iff_ne.2 this]
      simp
  · intro hne
    have : 0 < l.length := List.length_pos_iff.2 hne
    exact clampSize_lt _ _ _ (by show (l.length : Int) + (xs.length - 2 ^ 32) < _; omega) (by omega)

/-- C82 does not hold for longer ranges, 2: of a range of 2^32 + k elements, `vector::insert` inserts the first `k`, without
a message. -/
theorem C82_counterexample_insert_prefix {v : Vec α} {l : List α} (h : Holds v l) (ord : Nat → List Nat)
    (ho : ∀ n, (ord n).Perm (List.range n)) (xs : List α) (k : Nat) (hk : xs.length = 2 ^ 32 + k)
    (hf : l.length + k ≤ Vector.cap v) (hc : Vector.cap v < 2 ^ 31) :
    ∃ v', Range32.vectorInsert ord v l.length xs = .ok v' ∧ Holds v' (l ++ xs.take k) := by
  obtain ⟨v', e1, -, -, e2⟩ := C82_vector_insert h ord ho l.length (xs.take k) (by rw [List.length_take]; omega)
  have hlen : (xs.take k).length = k := by rw [List.length_take]; omega
  rw [if_pos ⟨rfl, by rw [hlen]; exact hf⟩] at e2
  refine ⟨v', ?_, e2⟩
  rw [← e1]
  have i1 : index32 (xs.length : Int) = k := by rw [index32_sub _ (by omega) (by omega)]; omega
  have i2 : index32 ((xs.take k).length : Int) = k := by rw [hlen, index32_eq _ (by omega) (by omega)]
  unfold Range32.vectorInsert
  rw [i1, i2]
  have : (ord (k : Int).toNat).foldlM (fun s i => Vector.insertAt s (Vector.size v) xs i) v.slots =
      (ord (k : Int).toNat).foldlM (fun s i => Vector.insertAt s (Vector.size v) (xs.take k) i) v.slots := by
    refine foldlM_congr_mem _ (fun s i hi => ?_) _
    have : i < k := by
      have := (ho _).mem_iff.1 hi
      simpa using this
    unfold Vector.insertAt
    rw [List.getElem?_take_of_lt this]
  simp only [this]

/-- C82 does not hold for longer ranges, 3: when the range is shorter than 2^31 but the new size is not, the sum overflows,
which is undefined behaviour, before the check whether the range fits. -/
theorem C82_counterexample_insert_overflow {v : Vec α} {l : List α} (h : Holds v l) (ord : Nat → List Nat) (xs : List α)
    (h0 : xs.length < 2 ^ 31) (h1 : 2 ^ 31 ≤ l.length + xs.length) :
    Range32.vectorInsert ord v l.length xs = .error .ub := by
  have ef : Range32.fits ((l.length : Int) + xs.length) = false := by
    rw [Bool.eq_false_iff, ne_eq, fits_iff]; omega
  simp [Range32.vectorInsert, Vector.size_eq h, index32_eq _ (by omega : -2 ^ 31 ≤ (xs.length : Int)) (by omega), ef]

section Unordered
open Stdgpu.Unordered Stdgpu.UnorderedConc Stdgpu.Conc
variable {K V : Type} {P : Params K V} {t : Tab V}

theorem range_filterMap_take {A B : Type} (xs : List A) (f : A → B) (n : Nat) :
    (List.range n).filterMap (fun i => xs[i]?.map f) = (xs.take n).map f := by
  induction n with
  | zero => simp
  | succ n ih =>
    rw [List.range_succ, List.filterMap_append, ih, List.take_add_one, List.map_append]
    congr 1
    cases h : xs[n]? <;> simp only [List.filterMap_cons, h] <;> simp

/-- C82. `insert(begin, end)` and `erase(begin, end)` of an unordered container with a range of fewer than 2^31 elements
handle every element, see C57. -/
theorem C82_bulk (vs : List V) (ks : List K) (hv : vs.length < 2 ^ 31) (hk : ks.length < 2 ^ 31) (sched : List Nat) :
    Range32.bulkInsert P t vs sched = bulkInsert P t vs sched ∧ Range32.bulkErase P t ks sched = bulkErase P t ks sched := by
  constructor
  · unfold Range32.bulkInsert bulkInsert
    rw [index32_eq _ (by omega) (by omega), range_filterMap_take, Int.toNat_natCast, List.take_length]
  · unfold Range32.bulkErase bulkErase
    rw [index32_eq _ (by omega) (by omega), range_filterMap_take, Int.toNat_natCast, List.take_length]

/-- C82 does not hold for longer ranges, 4: from 2^31 to 2^32 - 1 elements nothing is inserted or erased. -/
theorem C82_counterexample_bulk_nothing (vs : List V) (ks : List K) (hv : 2 ^ 31 ≤ vs.length) (hv' : vs.length < 2 ^ 32)
    (hk : 2 ^ 31 ≤ ks.length) (hk' : ks.length < 2 ^ 32) (sched : List Nat) :
    (Range32.bulkInsert P t vs sched).shared.tab = t ∧ (Range32.bulkErase P t ks sched).shared.tab = t ∧
    UFinished (Range32.bulkInsert P t vs sched) ∧ UFinished (Range32.bulkErase P t ks sched) := by
  have key : ∀ sched, run (step P) (init t ([] : List (List (Op K V)))) sched = init t [] := by
    intro sched
    induction sched with
    | nil => rfl
    | cons i s ih => rw [run_cons]; simpa [stepAt, init] using ih
  have e1 : Range32.bulkInsert P t vs sched = init t [] := by
    unfold Range32.bulkInsert
    rw [index32_sub _ (by omega) (by omega), (by omega : ((vs.length : Int) - (2 : Int) ^ 32).toNat = 0)]
    exact key sched
  have e2 : Range32.bulkErase P t ks sched = init t [] := by
    unfold Range32.bulkErase
    rw [index32_sub _ (by omega) (by omega), (by omega : ((ks.length : Int) - (2 : Int) ^ 32).toNat = 0)]
    exact key sched
  rw [e1, e2]
  exact ⟨rfl, rfl, by simp [UFinished, init], by simp [UFinished, init]⟩

/-- C82 does not hold for longer ranges, 5: of 2^32 + k elements the first `k` are handled. -/
theorem C82_counterexample_bulk_prefix (vs : List V) (ks : List K) (n m : Nat) (hn : n < 2 ^ 31) (hm : m < 2 ^ 31)
    (hv : vs.length = 2 ^ 32 + n) (hk : ks.length = 2 ^ 32 + m) (sched : List Nat) :
    Range32.bulkInsert P t vs sched = bulkInsert P t (vs.take n) sched ∧
    Range32.bulkErase P t ks sched = bulkErase P t (ks.take m) sched := by
  constructor
  · unfold Range32.bulkInsert bulkInsert
    rw [index32_sub _ (by omega) (by omega), range_filterMap_take, (by omega : ((vs.length : Int) - (2 : Int) ^ 32).toNat = n)]
  · unfold Range32.bulkErase bulkErase
    rw [index32_sub _ (by omega) (by omega), range_filterMap_take, (by omega : ((ks.length : Int) - (2 : Int) ^ 32).toNat = m)]

end Unordered

/-- The hypotheses of the counterexamples: a vector with one element and ranges of 2^31, 2^32 + 1 and 2^31 - 1 elements. -/
example : ∃ v : Vec Nat, Holds v [4] ∧ Vector.cap v = 3 ∧
    (∃ v', Range32.vectorInsert List.range v 1 (List.replicate (2 ^ 31) 7) = .ok v' ∧ Vector.valid v' = false ∧ Vector.size v' < 1) ∧
    (∃ v', Range32.vectorInsert List.range v 1 (List.replicate (2 ^ 32 + 1) 7) = .ok v' ∧ Holds v' [4, 7]) ∧
    Range32.vectorInsert List.range v 1 (List.replicate (2 ^ 31 - 1) 7) = .error .ub ∧
    (∃ v', Range32.vectorInsert List.range v 1 [7, 8] = .ok v' ∧ Holds v' [4, 7, 8]) := by
  obtain ⟨v, -, h2, h3⟩ := C16_vector_is_bounded_list 3 [.push 4] (fun _ n => List.range n)
    (fun _ n => List.Perm.refl _) [.bool true] [4] (by decide)
  refine ⟨v, h3, h2, ?_, ?_, ?_, ?_⟩
  · obtain ⟨v', e1, -, e2, e3⟩ := C82_counterexample_insert_shrinks h3 List.range (fun _ => List.Perm.refl _)
      (List.replicate (2 ^ 31) 7) (by rw [List.length_replicate]) (by rw [List.length_replicate]; omega) (by omega) (by omega)
    exact ⟨v', e1, e2, by simpa using e3⟩
  · obtain ⟨v', e1, e2⟩ := C82_counterexample_insert_prefix h3 List.range (fun _ => List.Perm.refl _)
      (List.replicate (2 ^ 32 + 1) 7) 1 (by rw [List.length_replicate]) (by rw [h2]; decide) (by omega)
    rw [List.take_replicate] at e2
    exact ⟨v', e1, by simpa using e2⟩
  · exact C82_counterexample_insert_overflow h3 List.range _ (by rw [List.length_replicate]; omega)
      (by rw [List.length_replicate, List.length_singleton]; omega)
  · obtain ⟨v', e1, -, -, e2⟩ := C82_vector_insert h3 List.range (fun _ => List.Perm.refl _) 1 [7, 8] (by decide)
    rw [h2] at e2
    exact ⟨v', e1, by simpa using e2⟩

end Stdgpu.Props
