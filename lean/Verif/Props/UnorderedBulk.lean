import Verif.Props.UnorderedConc
import Verif.Model.UnorderedBulk
/-
Bulk insertion and erasure (C57): `insert(begin, end)` and `erase(begin, end)` are parallel loops over the single element
operations, so their effect follows from the theorems about concurrent insertions (C38) and erasures (C39).
-/
namespace Stdgpu.UnorderedConc
open Stdgpu.Conc Stdgpu.Unordered Stdgpu.Spec

variable {K V : Type} {P : Params K V}

theorem step_ops (m : Shared V) (t : Thread K V) :
    (step P m t).2.done.map (·.1) ++ (step P m t).2.cur.ops ++ (step P m t).2.todo =
      t.done.map (·.1) ++ t.cur.ops ++ t.todo := by
  unfold step
  split
  · next h =>
    split
    · next h2 => rw [h]
    · next op rest h2 => rw [h, h2]; cases op <;> simp [begin, Cur.ops]
  · next h => split <;> simp [Cur.ops, h]
  · next h => split <;> simp [Cur.ops, h]
  · next h => split <;> simp [Cur.ops, h]

theorem run_ops (t : Tab V) (progs : List (List (Op K V))) (sched : List Nat) :
    (uexec P t progs sched).threads.map (fun th => th.done.map (·.1) ++ th.cur.ops ++ th.todo) = progs := by
  refine run_inv (f := step P) (fun s => s.threads.map (fun th => th.done.map (·.1) ++ th.cur.ops ++ th.todo) = progs)
    ?_ _ ?_ sched
  · intro s i th hs ht
    show ((s.threads.set i (step P s.shared th).2).map _) = progs
    rw [List.map_set, step_ops, ← hs]
    exact set_self _ _ _ (by simp [ht])
  · simp only [init, List.map_map]
    conv_rhs => rw [← List.map_id progs]
    apply List.map_congr_left
    intro p _
    simp [Cur.ops]

/-- When all threads have finished, the operations that have returned are those of the programs. -/
theorem finished_ops {t : Tab V} {progs : List (List (Op K V))} {sched : List Nat} (hf : UFinished (uexec P t progs sched)) :
    (uresults (uexec P t progs sched)).map (·.1) = progs.flatten := by
  conv_rhs => rw [← run_ops (P := P) t progs sched]
  unfold uresults
  rw [List.map_flatMap, List.flatMap_def]
  congr 1
  apply List.map_congr_left
  intro th hth
  obtain ⟨h1, h2⟩ := hf th hth
  simp [h1, h2, Cur.ops]

theorem insertedVal_sublist (l : List (Op K V × Res)) (vs : List V) (h : l.map (·.1) = vs.map Op.insert) :
    (l.filterMap insertedVal).Sublist vs := by
  induction l generalizing vs with
  | nil => cases vs <;> simp_all
  | cons a l ih =>
    cases vs with
    | nil => simp at h
    | cons v vs =>
      simp only [List.map_cons, List.cons.injEq] at h
      obtain ⟨op, r⟩ := a
      obtain ⟨rfl, h2⟩ := h
      cases r <;> simp only [List.filterMap_cons, insertedVal] <;>
        first | exact (ih vs h2).cons₂ _ | exact (ih vs h2).cons _

theorem flatten_singletons {α β : Type} (f : α → β) (l : List α) : (l.map (fun a => [f a])).flatten = l.map f := by
  induction l with
  | nil => rfl
  | cons a l ih => simp [ih]

/-- A list of values with pairwise different keys that all occur as keys of another list is not longer. -/
theorem length_le_of_keys (hl : KeyLaws P) : ∀ (A B : List V),
    A.Pairwise (fun v w => P.keyEq (P.keyOf v) (P.keyOf w) = false) →
    (∀ a ∈ A, ∃ b ∈ B, P.keyEq (P.keyOf b) (P.keyOf a) = true) → A.length ≤ B.length
  | [], _, _, _ => by simp
  | a :: A, B, hA, h => by
    classical
    obtain ⟨b, hb, hba⟩ := h a (by simp)
    rw [List.pairwise_cons] at hA
    have := length_le_of_keys hl A (B.erase b) hA.2 (by
      intro x hx
      obtain ⟨c, hc, hcx⟩ := h x (by simp [hx])
      refine ⟨c, ?_, hcx⟩
      have hne : c ≠ b := by
        rintro rfl
        have h2 := hA.1 x hx
        rw [hl.trans _ _ _ (hl.symm _ _ hba) hcx] at h2
        simp at h2
      exact (List.mem_erase_of_ne hne).2 hc)
    rw [List.length_erase_of_mem hb] at this
    have := List.length_pos_of_mem hb
    simp only [List.length_cons]
    omega

end Stdgpu.UnorderedConc

namespace Stdgpu.Props
open Stdgpu.Unordered Stdgpu.UnorderedConc Stdgpu.Spec Stdgpu.Conc

variable {K V : Type} {P : Params K V} {bc ec : Nat} {t : Tab V}

theorem lookup_isSome_iff (l : List V) (k : K) :
    (lookup P l k).isSome = true ↔ ∃ v ∈ l, P.keyEq (P.keyOf v) k = true := by
  simp [lookup, List.find?_isSome]

section
variable (hl : KeyLaws P) (h0 : 0 < bc) (h1 : bc < 2 ^ 63) (hr : PReachable P bc ec t)
include hl h0 h1 hr

theorem bulk_noErase (vs : List V) : NoErase (vs.map (fun v => [Op.insert (K := K) v])) := by
  intro p hp k hk
  obtain ⟨v, -, rfl⟩ := List.mem_map.1 hp
  simp at hk

theorem bulk_noInsert (ks : List K) : NoInsert (ks.map (fun k => [Op.erase (V := V) k])) := by
  intro p hp k hk
  obtain ⟨v, -, rfl⟩ := List.mem_map.1 hp
  simp at hk

theorem bulk_numInserts (vs : List V) : numInserts (vs.map (fun v => [Op.insert (K := K) v])) = vs.length := by
  unfold numInserts
  rw [flatten_singletons, List.countP_map, List.countP_eq_length.2]
  intro v _
  rfl

/-- C57. `insert(begin, end)` with a range of at most as many values as there are unused excess entries: the container
keeps its elements and gets, for every key of the range that was not there, exactly one value of the range with this
key; no other key appears, no key is stored twice, `size()` is the number of elements and `valid()` holds. -/
theorem C57_bulk_insert (vs : List V) (hroom : vs.length ≤ (freeList t).length) (sched : List Nat)
    (hf : UFinished (bulkInsert P t vs sched)) :
    (∃ added, added.Sublist vs ∧ (contents (bulkInsert P t vs sched).shared.tab).Perm (contents t ++ added)) ∧
    (contents (bulkInsert P t vs sched).shared.tab).Pairwise (fun v w => P.keyEq (P.keyOf v) (P.keyOf w) = false) ∧
    (∀ k, (lookup P (contents (bulkInsert P t vs sched).shared.tab) k).isSome =
      ((lookup P (contents t) k).isSome || vs.any (fun v => P.keyEq (P.keyOf v) k))) ∧
    size (bulkInsert P t vs sched).shared.tab = (contents (bulkInsert P t vs sched).shared.tab).length ∧
    (∀ ord : Nat → List Nat, (∀ n, (ord n).Perm (List.range n)) →
      valid P ord (bulkInsert P t vs sched).shared.tab = .ok true) := by
  have hp := bulk_noErase hl h0 h1 hr (vs := vs)
  change UFinished (uexec P t _ sched) at hf
  unfold bulkInsert
  change (∃ added : List V, added.Sublist vs ∧ (contents (uexec P t (vs.map (fun v => [Op.insert v])) sched).shared.tab).Perm _) ∧
    (contents (uexec P t (vs.map (fun v => [Op.insert v])) sched).shared.tab).Pairwise _ ∧
    (∀ k, (lookup P (contents (uexec P t (vs.map (fun v => [Op.insert v])) sched).shared.tab) k).isSome = _) ∧
    size (uexec P t (vs.map (fun v => [Op.insert v])) sched).shared.tab =
      (contents (uexec P t (vs.map (fun v => [Op.insert v])) sched).shared.tab).length ∧ _
  obtain ⟨f1, f2, -⟩ := C38_final hl h0 h1 hr hp sched hf
  obtain ⟨n1, n2⟩ := C38_no_exhaustion hl h0 h1 hr hp sched (by rw [bulk_numInserts hl h0 h1 hr]; exact hroom) hf
  have hops := finished_ops hf
  rw [flatten_singletons] at hops
  have hsub : (insertedVals (uexec P t (vs.map (fun v => [Op.insert v])) sched)).Sublist vs := insertedVal_sublist _ _ hops
  refine ⟨⟨_, hsub, f1⟩, C38_keys_distinct hl h0 h1 hr hp sched, ?_, f2, n2⟩
  intro k
  rw [Bool.eq_iff_iff, Bool.or_eq_true, lookup_isSome_iff, lookup_isSome_iff, List.any_eq_true]
  constructor
  · rintro ⟨v, hv, hk⟩
    rcases List.mem_append.1 (f1.mem_iff.1 hv) with h | h
    · exact .inl ⟨v, h, hk⟩
    · exact .inr ⟨v, hsub.subset h, hk⟩
  · rintro (⟨v, hv, hk⟩ | ⟨v, hv, hk⟩)
    · exact ⟨v, f1.mem_iff.2 (List.mem_append_left _ hv), hk⟩
    · have hin : Op.insert v ∈ (uresults (uexec P t (vs.map (fun v => [Op.insert v])) sched)).map (·.1) := by
        rw [hops]; exact List.mem_map_of_mem hv
      obtain ⟨⟨op, r⟩, hmem, he⟩ := List.mem_map.1 hin
      obtain rfl : op = .insert v := he
      obtain ⟨I, c, x, -, -, -, hI⟩ := ins_inv hl h0 h1 hr hp sched
      have hres := hI.res_mem hmem
      cases r with
      | inserted p =>
        refine ⟨v, f1.mem_iff.2 (List.mem_append_right _ (List.mem_filterMap.2 ⟨_, hmem, rfl⟩)), hk⟩
      | notInserted =>
        obtain ⟨w, hw, hwk⟩ := n1 v hmem
        exact ⟨w, hw, hl.trans _ _ _ hwk hk⟩
      | erased => exact absurd hres id
      | notErased => exact absurd hres id
      | found p => exact absurd hres id
      | notFound => exact absurd hres id

/-- C57. The size after `insert(begin, end)` does not depend on the schedule. -/
theorem C57_bulk_insert_size (vs : List V) (hroom : vs.length ≤ (freeList t).length) (s1 s2 : List Nat)
    (hf1 : UFinished (bulkInsert P t vs s1)) (hf2 : UFinished (bulkInsert P t vs s2)) :
    size (bulkInsert P t vs s1).shared.tab = size (bulkInsert P t vs s2).shared.tab := by
  obtain ⟨-, d1, k1, z1, -⟩ := C57_bulk_insert hl h0 h1 hr vs hroom s1 hf1
  obtain ⟨-, d2, k2, z2, -⟩ := C57_bulk_insert hl h0 h1 hr vs hroom s2 hf2
  have key : ∀ (A B : List V), A.Pairwise (fun v w => P.keyEq (P.keyOf v) (P.keyOf w) = false) →
      (∀ k, (lookup P A k).isSome = (lookup P B k).isSome) → A.length ≤ B.length := by
    intro A B hA hAB
    refine length_le_of_keys hl A B hA ?_
    intro a ha
    have : (lookup P A (P.keyOf a)).isSome = true := (lookup_isSome_iff _ _).2 ⟨a, ha, hl.refl _⟩
    rw [hAB] at this
    exact (lookup_isSome_iff _ _).1 this
  have e1 := key _ _ d1 (fun k => (k1 k).trans (k2 k).symm)
  have e2 := key _ _ d2 (fun k => (k2 k).trans (k1 k).symm)
  rw [z1, z2]
  omega

/-- C57. `insert(begin, end)` can always be completed. -/
theorem C57_bulk_insert_completes (vs : List V) (sched : List Nat) :
    ∃ sched', UFinished (bulkInsert P t vs (sched ++ sched')) :=
  C56_inserts_no_deadlock hl h0 h1 hr (bulk_noErase hl h0 h1 hr (vs := vs)) sched

/-- C57. `erase(begin, end)` removes exactly the elements whose key is in the range, whatever the schedule (and however
often a key occurs in the range); `size()` is right and `valid()` holds. -/
theorem C57_bulk_erase (ks : List K) (sched : List Nat) (hf : UFinished (bulkErase P t ks sched)) :
    contents (bulkErase P t ks sched).shared.tab = (contents t).filter (fun v => !ks.any (fun k => P.keyEq (P.keyOf v) k)) ∧
    size (bulkErase P t ks sched).shared.tab = (contents (bulkErase P t ks sched).shared.tab).length ∧
    (∀ ord : Nat → List Nat, (∀ n, (ord n).Perm (List.range n)) →
      valid P ord (bulkErase P t ks sched).shared.tab = .ok true) := by
  classical
  have hp := bulk_noInsert hl h0 h1 hr (ks := ks)
  change UFinished (uexec P t _ sched) at hf
  obtain ⟨f1, f2, -⟩ := C39_final hl h0 h1 hr hp sched hf
  refine ⟨f1.trans ?_, f2, (C39_usable_afterwards hl h0 h1 hr hp sched hf).1⟩
  congr 1
  funext v
  unfold erases
  rw [flatten_singletons, List.any_map]
  rfl

/-- C57. `erase(begin, end)` can always be completed. -/
theorem C57_bulk_erase_completes (ks : List K) (sched : List Nat) :
    ∃ sched', UFinished (bulkErase P t ks (sched ++ sched')) :=
  C56_erases_no_deadlock hl h0 h1 hr (bulk_noInsert hl h0 h1 hr (ks := ks)) sched
end

/-- A range with a repeated key and a key that is already there, inserted by three threads into a map whose keys collide. -/
example : UFinished (bulkInsert exC (exTab exC 1 3 [.insert (1, 10)]) [(2, 20), (2, 21), (1, 11)]
      (List.replicate 18 0 ++ List.replicate 18 1 ++ List.replicate 18 2 ++ List.replicate 60 1 ++ List.replicate 60 0 ++ List.replicate 60 1)) ∧
    contents (bulkInsert exC (exTab exC 1 3 [.insert (1, 10)]) [(2, 20), (2, 21), (1, 11)]
      (List.replicate 18 0 ++ List.replicate 18 1 ++ List.replicate 18 2 ++ List.replicate 60 1 ++ List.replicate 60 0 ++ List.replicate 60 1)).shared.tab
      = [(1, 10), (2, 20)] ∧
    3 ≤ (freeList (exTab exC 1 3 [.insert (1, 10)])).length := by
  refine ⟨?_, by decide +kernel, by decide +kernel⟩
  unfold UFinished; decide +kernel

example : UFinished (bulkErase exC (exTab exC 1 3 [.insert (1, 10), .insert (2, 20)]) [2, 5, 2]
      (List.replicate 12 0 ++ List.replicate 12 2 ++ List.replicate 40 1 ++ List.replicate 90 2 ++ List.replicate 90 0 ++ List.replicate 90 2)) ∧
    contents (bulkErase exC (exTab exC 1 3 [.insert (1, 10), .insert (2, 20)]) [2, 5, 2]
      (List.replicate 12 0 ++ List.replicate 12 2 ++ List.replicate 40 1 ++ List.replicate 90 2 ++ List.replicate 90 0 ++ List.replicate 90 2)).shared.tab
      = [(1, 10)] := by
  refine ⟨?_, by decide +kernel⟩
  unfold UFinished; decide +kernel

end Stdgpu.Props
