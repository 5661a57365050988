import Verif.Model.Lifetime
import Verif.Props.Vector
import Verif.Props.Deque
import Verif.Props.Unordered
/-! C50 (lifetimes of stored objects) and C52 (insert iterators). -/
namespace Stdgpu.Props
open Stdgpu.Lifetime
open Stdgpu.Spec
open Stdgpu.Vector (VOp Out Fault)
open Stdgpu.Deque (DOp Side)
open Stdgpu.Unordered (Params Tab UOp UOut)

variable {α K V : Type}

theorem alive_eq_nil {n : Nat} {obj : Nat → Option α} (h : ∀ p, p < n → obj p = none) : alive n obj = [] := by
  rw [alive, List.filterMap_eq_nil_iff]
  exact fun p hp => h p (List.mem_range.1 hp)

/-- C50, vector. A history followed by `destroyDeviceObject` constructs no object over a live one, destroys no object
that is not alive (both would be a fault), and every object has been destroyed when the storage is released. -/
theorem C50_vector_lifetimes (c : Nat) (ops : List (VOp α)) (ords : Nat → Nat → List Nat)
    (ho : ∀ k n, (ords k n).Perm (List.range n)) (outs : List (Out α)) (l : List α)
    (hs : vecExecAll c [] ops = some (outs, l)) (ord : Nat → List Nat) (ho' : ∀ n, (ord n).Perm (List.range n)) :
    ∃ v, Vector.execAll ords (Vector.create c) ops = .ok (outs, v) ∧ destroyVector false ord v = .ok [] := by
  obtain ⟨v, e, -, h⟩ := C16_vector_is_bounded_list c ops ords ho outs l hs
  refine ⟨v, e, ?_⟩
  obtain ⟨v', e', -, h'⟩ := Vector.clear_holds h ho'
  simp only [destroyVector, Bool.not_false, if_true]
  rw [e']
  show Except.ok _ = _
  rw [alive_eq_nil]
  intro p hp
  rw [h'.data p hp]; simp

/-- C50, deque. -/
theorem C50_deque_lifetimes (c : Nat) (hc : 0 < c) (ops : List (DOp α)) (ords : Nat → Nat → Nat → List Nat)
    (ho : ∀ j k n, (ords j k n).Perm (List.range n)) (outs : List (Out α)) (l : List α)
    (hs : deqExecAll c [] ops = some (outs, l)) (ord : Nat → Nat → List Nat)
    (ho' : ∀ k n, (ord k n).Perm (List.range n)) :
    ∃ d, Deque.execAll ords (Deque.create c) ops = .ok (outs, d) ∧ destroyDeque false ord d = .ok [] := by
  obtain ⟨d, e, -, h⟩ := C23_deque_is_bounded_deque c hc ops ords ho outs l hs
  refine ⟨d, e, ?_⟩
  obtain ⟨d', e', hc', -, h'⟩ := Deque.clear_holds h ho'
  simp only [destroyDeque, Bool.not_false, if_true]
  rw [e']
  show Except.ok _ = _
  rw [alive_eq_nil]
  intro p hp
  exact h' p (by rwa [← hc'])

/-- C50, unordered containers. -/
theorem C50_unordered_lifetimes [DecidableEq V] {P : Params K V} {bc ec : Nat} (hl : KeyLaws P) (h0 : 0 < bc)
    (h1 : bc < 2 ^ 63) (ops : List (UOp K V)) (ords : Nat → Nat → List Nat)
    (ho : ∀ j n, (ords j n).Perm (List.range n)) (ord : Nat → List Nat) (ho' : ∀ n, (ord n).Perm (List.range n)) :
    ∃ outs t, Unordered.execAll P ords (Unordered.create bc ec) ops = .ok (outs, t) ∧
      destroyUnordered false ord t = .ok [] := by
  obtain ⟨outs, t, m, e, -, -⟩ := C29_map_refinement (ec := ec) hl h0 h1 ops ords ho
  refine ⟨outs, t, e, ?_⟩
  obtain ⟨⟨chain, free, h⟩, -, -⟩ := Unordered.reachable_rep hl h0 h1 ⟨ops, ords, outs, ho, e⟩
  obtain ⟨t', e', -, -, -, ht, hd, -⟩ := Unordered.clear_eq h ho'
  simp only [destroyUnordered, Bool.not_false, if_true]
  rw [e']
  show Except.ok _ = _
  rw [alive_eq_nil]
  intro p hp
  rw [hd p (by rwa [← ht])]; rfl

/-- The faults which the previous theorems exclude: constructing over a live object and destroying raw storage. -/
theorem C50_violations_are_faults (m : SlotConc.Slots α) (t : Tab V) (p i : Nat) (x : α) (v : V) :
    ((m.data p).isSome = true → Vector.slotPush m p x = .error .ub ∨ Vector.slotPush m p x = .error .hang) ∧
    (m.data p = none → Vector.slotPop m p = .error .ub ∨ Vector.slotPop m p = .error .hang) ∧
    (m.data i = none → Vector.destroyAt m 0 i = .error .ub ∧ Vector.eraseAt m 0 i = .error .ub) ∧
    ((m.data i).isSome = true → ∀ xs, Vector.insertAt m 0 xs i = .error .ub) ∧
    (t.live p = true → Unordered.construct t p v = .error .ub) ∧
    (t.live p = false → Unordered.destroy t p = .error .ub) := by
  refine ⟨?_, ?_, ?_, ?_, ?_, ?_⟩
  · intro h; unfold Vector.slotPush; split
    · exact .inl rfl
    · split
      · exact .inr rfl
      · split
        · exact .inr rfl
        · exact .inl rfl
  · intro h; unfold Vector.slotPop; split
    · exact .inl rfl
    · split
      · exact .inr rfl
      · split
        · exact .inr rfl
        · rw [h]; exact .inl rfl
  · intro h
    constructor
    · unfold Vector.destroyAt; simp [h]
    · unfold Vector.eraseAt; simp [h]
  · intro h xs; unfold Vector.insertAt
    simp only [h, zero_add, Int.toNat_natCast]
    cases xs[i]? with
    | none => rfl
    | some y => simp
  · intro h; unfold Unordered.construct; simp [h]
  · intro h; unfold Unordered.destroy; simp [h]

example : (do
    let (_, v) ← Vector.execAll (fun _ => List.range) (Vector.create 4)
      [.push 1, .push 2, .pop, .insert 1 [7, 8], .erase 2 3, .clear, .push 5, .push 6]
    let before := alive 4 v.slots.data
    let after ← destroyVector false List.range v
    return (before, after)) = (.ok ([5, 6], []) : Except Fault _) := by decide

example : (do
    let (_, d) ← Deque.execAll (fun _ _ => List.range) (Deque.create 3)
      [.push .back 1, .push .front 2, .push .front 3, .pop .back]
    let before := alive 3 d.slots.data
    let after ← destroyDeque false (fun _ => List.range) d
    return (before, after)) = (.ok ([3, 2], []) : Except Fault _) := by decide

/-! ### C52 -/

/-- C52: `back_inserter` on a vector. The values are appended in order, as many as fit. -/
theorem C52_back_inserter_vector {v : Vector.Vec α} {l : List α} (h : Vector.Holds v l) (xs : List α) :
    ∃ v', writeAll backInsertVector v xs = .ok v' ∧ Vector.cap v' = Vector.cap v ∧
      Vector.Holds v' (l ++ xs.take (Vector.cap v - l.length)) := by
  induction xs generalizing v l with
  | nil => exact ⟨v, rfl, rfl, by simpa using h⟩
  | cons x xs ih =>
    obtain ⟨v1, e1, e2, e3⟩ := Vector.push_holds h x
    obtain ⟨v2, f1, f2, f3⟩ := ih e3
    refine ⟨v2, ?_, by rw [f2, e2], ?_⟩
    · simp only [writeAll, List.foldlM_cons, backInsertVector, e1]
      exact f1
    · have hle := h.len
      rw [e2] at f3
      by_cases hlt : l.length < Vector.cap v
      · simp only [hlt, if_true, List.length_append, List.length_cons, List.length_nil] at f3
        obtain ⟨k, hk⟩ : ∃ k, Vector.cap v - l.length = k + 1 := ⟨Vector.cap v - l.length - 1, by omega⟩
        rw [hk, List.take_succ_cons]
        have : Vector.cap v - (l.length + (0 + 1)) = k := by omega
        rw [this] at f3
        simpa using f3
      · simp only [hlt, if_false] at f3
        have : Vector.cap v - l.length = 0 := by omega
        rw [this] at f3 ⊢
        simpa using f3

/-- C52: `back_inserter` and `front_inserter` on a deque; `front_inserter` leaves the values in reverse order. -/
theorem C52_inserters_deque {d : Deque.Deq α} {l : List α} (h : Deque.Holds d l) (xs : List α) :
    (∃ d', writeAll backInsertDeque d xs = .ok d' ∧ Deque.cap d' = Deque.cap d ∧
      Deque.Holds d' (l ++ xs.take (Deque.cap d - l.length))) ∧
    (∃ d', writeAll frontInsertDeque d xs = .ok d' ∧ Deque.cap d' = Deque.cap d ∧
      Deque.Holds d' ((xs.take (Deque.cap d - l.length)).reverse ++ l)) := by
  constructor
  · induction xs generalizing d l with
    | nil => exact ⟨d, rfl, rfl, by simpa using h⟩
    | cons x xs ih =>
      obtain ⟨v1, e1, e2, e3⟩ := Deque.push_holds h .back x
      obtain ⟨v2, f1, f2, f3⟩ := ih e3
      refine ⟨v2, ?_, by rw [f2, e2], ?_⟩
      · simp only [writeAll, List.foldlM_cons, backInsertDeque, e1]
        exact f1
      · have hle := h.len
        rw [e2] at f3
        by_cases hlt : l.length < Deque.cap d
        · simp only [hlt, if_true, List.length_append, List.length_cons, List.length_nil] at f3
          obtain ⟨k, hk⟩ : ∃ k, Deque.cap d - l.length = k + 1 := ⟨Deque.cap d - l.length - 1, by omega⟩
          rw [hk, List.take_succ_cons]
          have : Deque.cap d - (l.length + (0 + 1)) = k := by omega
          rw [this] at f3
          simpa using f3
        · simp only [hlt, if_false] at f3
          have : Deque.cap d - l.length = 0 := by omega
          rw [this] at f3 ⊢
          simpa using f3
  · induction xs generalizing d l with
    | nil => exact ⟨d, rfl, rfl, by simpa using h⟩
    | cons x xs ih =>
      obtain ⟨v1, e1, e2, e3⟩ := Deque.push_holds h .front x
      obtain ⟨v2, f1, f2, f3⟩ := ih e3
      refine ⟨v2, ?_, by rw [f2, e2], ?_⟩
      · simp only [writeAll, List.foldlM_cons, frontInsertDeque, e1]
        exact f1
      · have hle := h.len
        rw [e2] at f3
        by_cases hlt : l.length < Deque.cap d
        · simp only [hlt, if_true, List.length_cons] at f3
          obtain ⟨k, hk⟩ : ∃ k, Deque.cap d - l.length = k + 1 := ⟨Deque.cap d - l.length - 1, by omega⟩
          rw [hk, List.take_succ_cons]
          have : Deque.cap d - (l.length + 1) = k := by omega
          rw [this] at f3
          simpa using f3
        · simp only [hlt, if_false] at f3
          have : Deque.cap d - l.length = 0 := by omega
          rw [this] at f3 ⊢
          simpa using f3

/-- What inserting the values one after the other into a map gives: a value is added unless its key is present. -/
def insertDistinct (P : Params K V) (m : List V) : List V → List V
  | [] => m
  | v :: vs => insertDistinct P (if (lookup P m (P.keyOf v)).isSome then m else v :: m) vs

/-- C52: `inserter` on an unordered container inserts the values whose keys are not present yet, the first one of each
key, as long as the free list cannot be exhausted. -/
theorem C52_inserter_unordered {P : Params K V} {bc ec : Nat} {t : Tab V} (hl : KeyLaws P) (h0 : 0 < bc)
    (h1 : bc < 2 ^ 63) (hr : Reachable P bc ec t) (vs : List V) (hfit : (contents t).length + vs.length ≤ ec) :
    ∃ t', writeAll (insertUnordered P) t vs = .ok t' ∧ (contents t').Perm (insertDistinct P (contents t) vs) := by
  obtain ⟨⟨chain, free, h⟩, hb, ht⟩ := Unordered.reachable_rep hl h0 h1 hr
  have key : ∀ (vs : List V) (t : Tab V) (m : List V) (chain : Nat → List Nat) (free : List Nat),
      Unordered.Rep P t chain free → m.Perm (contents t) → t.total - t.bc = ec → m.length + vs.length ≤ ec →
      ∃ t', writeAll (insertUnordered P) t vs = .ok t' ∧ (contents t').Perm (insertDistinct P m vs) := by
    intro vs
    induction vs with
    | nil => intro t m _ _ _ hm _ _; exact ⟨t, rfl, hm.symm⟩
    | cons v vs ih =>
      intro t m chain free h hm hec hfit
      simp only [List.length_cons] at hfit
      have hlk := Unordered.lookup_isSome h hl hm (P.keyOf v)
      obtain ⟨i1, i2⟩ := Unordered.insert_eq h v
      have hfree : free ≠ [] := by
        rintro rfl
        have h1 := Unordered.excess_used h
        have h2 := Unordered.length_contents h
        have h3 := hm.length_eq
        simp only [List.length_nil] at h1
        omega
      simp only [insertDistinct]
      by_cases hp : Unordered.Rep.pos P t chain (P.keyOf v) = none
      · obtain ⟨p, t1, e1, -, -, -, ⟨chain', free', h'⟩, hperm, hb', ht'⟩ := i1 ⟨hp, hfree⟩
        have hls : (lookup P m (P.keyOf v)).isSome = false := by rw [hlk, hp]; rfl
        simp only [hls, Bool.false_eq_true, if_false]
        obtain ⟨t2, e2, e3⟩ := ih t1 (v :: m) chain' free' h' ((hm.cons v).trans hperm.symm)
          (by rw [hb', ht']; exact hec) (by simp only [List.length_cons]; clear i1 i2; omega)
        refine ⟨t2, ?_, e3⟩
        simp only [writeAll, List.foldlM_cons, insertUnordered, e1]
        exact e2
      · have e1 := i2 (fun hc => hp hc.1)
        have hls : (lookup P m (P.keyOf v)).isSome = true := by
          rw [hlk]; exact Option.isSome_iff_ne_none.2 hp
        simp only [hls, if_true]
        obtain ⟨t2, e2, e3⟩ := ih t m chain free h hm hec (by omega)
        refine ⟨t2, ?_, e3⟩
        simp only [writeAll, List.foldlM_cons, insertUnordered, e1]
        exact e2
  exact key vs t (contents t) chain free h (List.Perm.refl _) (by omega) hfit

example : (do
    let v ← writeAll backInsertVector (Vector.create 3) [1, 2, 3, 4]
    let d ← writeAll frontInsertDeque (Deque.create 3) [1, 2, 3, 4]
    return (Vector.deviceRange v, Deque.get d 0, Deque.get d 2)) =
    (.ok ([some 1, some 2, some 3], some 3, some 1) : Except Fault _) := by decide

example : Reachable exP 4 3 (Unordered.create 4 3) ∧ (contents (Unordered.create 4 3 : Tab (Nat × Nat))).length + 3 ≤ 3 ∧
    insertDistinct exP [] [(1, 10), (2, 20), (1, 30)] = [(2, 20), (1, 10)] :=
  ⟨⟨[], fun _ => List.range, [], fun _ _ => List.Perm.refl _, rfl⟩, by decide, by decide⟩

example : Vector.Holds (Vector.create 3 : Vector.Vec Nat) [] ∧ Deque.Holds (Deque.create 3 : Deque.Deq Nat) [] :=
  ⟨Vector.create_holds 3, Deque.create_holds 3 (by decide)⟩

end Stdgpu.Props
