import Verif.Props.UnorderedConc
import Verif.Proof.UAccess
/-
C61: plain accesses to the entries of an unordered map or set that several threads use at the same time.

`uaccess` is the next plain access of a thread: to a stored value, to the offset that links an entry to the next one of its
bucket, or to an element of the list of unused entries. `Spec.Race` is as for C60.
-/
namespace Stdgpu.Props
open Stdgpu.Unordered Stdgpu.UnorderedConc Stdgpu.Spec Stdgpu.Conc

variable {K V : Type} {P : Params K V} {bc ec : Nat} {t : Tab V} {progs : List (List (Op K V))}

section
variable (hl : KeyLaws P) (h0 : 0 < bc) (h1 : bc < 2 ^ 63) (hr : PReachable P bc ec t)
include hl h0 h1 hr

/-- C61. Concurrent insertions and lookups: if a thread is about to write to a location that another one is about to
access, then it is linking a new entry, and the other one is only reading the offset in a walk along the entries of a
bucket. Stored values and the list of unused entries are never accessed in a conflicting way, and there are no conflicting
writes. -/
theorem C61_insert_races (hp : NoErase progs) (sched : List Nat) (i j : Nat) (ti tj : Thread K V) (l : Loc) (w : Bool)
    (hij : i ≠ j) (hi : (uexec P t progs sched).threads[i]? = some ti) (hj : (uexec P t progs sched).threads[j]? = some tj)
    (ha : uaccess P t ti = some (l, true)) (hb : uaccess P t tj = some (l, w)) :
    (∃ e, l = .off e) ∧ w = false ∧ walking tj = true := by
  obtain ⟨I, c, x, rfl, -, -, h⟩ := ins_inv hl h0 h1 hr hp sched
  obtain ⟨v, e, n, -, rfl, h3, h4⟩ := h.conflict hij hi hj ha hb
  exact ⟨⟨e, rfl⟩, h3, h4⟩

/-- C61. Concurrent lookups alone have no data race. -/
theorem C61_lookups_no_race (hp : ∀ p ∈ progs, ∀ op ∈ p, ∃ k, op = Op.find k) (sched : List Nat) :
    ¬ Race (uaccess P t) (uexec P t progs sched) := by
  rintro ⟨i, j, ti, tj, l, w, w', hij, hi, hj, ha, hb, hw⟩
  have hne : NoErase progs := by
    intro p hp' k hk
    obtain ⟨k', e⟩ := hp p hp' _ hk
    simp at e
  have hni : NoInsert progs := by
    intro p hp' v hk
    obtain ⟨k', e⟩ := hp p hp' _ hk
    simp at e
  obtain ⟨I, c, x, e1, -, -, h⟩ := ins_inv hl h0 h1 hr hne sched
  obtain ⟨E, c', x', e2, -, h', -⟩ := era_inv hl h0 h1 hr hni sched
  have key : ∀ th ∈ (uexec P t progs sched).threads, ∀ l u, uaccess P t th = some (l, u) → u = false := by
    intro th hth l u hu
    have k1 := h.knows th hth
    have k2 := h'.knows th hth
    obtain ⟨todo, cur, ex, done⟩ := th
    cases cur with
    | idle => simp [uaccess] at hu
    | ins v pc => exact k2.elim
    | era k pc => exact k1.elim
    | fnd k w => exact walk_access hu
  have q1 := key _ (List.mem_of_getElem? hi) _ _ ha
  have q2 := key _ (List.mem_of_getElem? hj) _ _ hb
  rcases hw with rfl | rfl
  · exact absurd q1 (by decide)
  · exact absurd q2 (by decide)

/-- C61. Concurrent erasures and lookups: if a thread is about to write to a location that another one is about to access,
then the other one is only reading it in a walk along the entries of a bucket, and the location is not in the list of unused
entries. In particular there are no conflicting writes. -/
theorem C61_erase_races (hp : NoInsert progs) (sched : List Nat) (i j : Nat) (ti tj : Thread K V) (l : Loc) (w : Bool)
    (hij : i ≠ j) (hi : (uexec P t progs sched).threads[i]? = some ti) (hj : (uexec P t progs sched).threads[j]? = some tj)
    (ha : uaccess P t ti = some (l, true)) (hb : uaccess P t tj = some (l, w)) :
    (∃ p, l = .val p ∨ l = .off p) ∧ w = false ∧ walking tj = true := by
  obtain ⟨E, c, x, rfl, -, h, -⟩ := era_inv hl h0 h1 hr hp sched
  obtain ⟨h3, h4, -, p, h5, -⟩ := h.conflict hij hi hj ha hb
  exact ⟨⟨p, h5⟩, h3, h4⟩

end

/-- C61: two threads that insert different keys of the same bucket do have a data race: the first one is about to link its
entry behind the last one of the bucket while the second one reads the same offset in its first lookup. -/
theorem C61_counterexample_insert_race : ∃ (t : Tab (Nat × Nat)) (sched : List Nat), PReachable exC 1 3 t ∧
    Race (uaccess exC t) (uexec exC t [[.insert (3, 30)], [.insert (4, 40)]] sched) := by
  refine ⟨exTab exC 1 3 [.insert (1, 10), .insert (2, 20)], List.replicate 37 0 ++ List.replicate 9 1, exTab_reachable _ _ _ _,
    0, 1, ((uexec exC (exTab exC 1 3 [.insert (1, 10), .insert (2, 20)]) [[.insert (3, 30)], [.insert (4, 40)]]
      (List.replicate 37 0 ++ List.replicate 9 1)).threads[0]?).get (by decide +kernel),
    ((uexec exC (exTab exC 1 3 [.insert (1, 10), .insert (2, 20)]) [[.insert (3, 30)], [.insert (4, 40)]]
      (List.replicate 37 0 ++ List.replicate 9 1)).threads[1]?).get (by decide +kernel),
    .off 3, true, false, by decide, by simp, by simp, by decide +kernel, by decide +kernel, .inl rfl⟩

/-- C61: an erasure and a lookup of the same key have a data race on the stored value: the lookup is about to compare the
key that the erasure is about to destroy. -/
theorem C61_counterexample_erase_race : ∃ (t : Tab (Nat × Nat)) (sched : List Nat), PReachable exC 1 3 t ∧
    Race (uaccess exC t) (uexec exC t [[.erase 2], [.find 2]] sched) := by
  refine ⟨exTab exC 1 3 [.insert (1, 10), .insert (2, 20)], List.replicate 6 1 ++ List.replicate 23 0, exTab_reachable _ _ _ _,
    0, 1, ((uexec exC (exTab exC 1 3 [.insert (1, 10), .insert (2, 20)]) [[.erase 2], [.find 2]]
      (List.replicate 6 1 ++ List.replicate 23 0)).threads[0]?).get (by decide +kernel),
    ((uexec exC (exTab exC 1 3 [.insert (1, 10), .insert (2, 20)]) [[.erase 2], [.find 2]]
      (List.replicate 6 1 ++ List.replicate 23 0)).threads[1]?).get (by decide +kernel),
    .val 3, true, false, by decide, by simp, by simp, by decide +kernel, by decide +kernel, .inl rfl⟩

/-- The states of the counterexamples meet the hypotheses of `C61_insert_races` and `C61_erase_races`. -/
example : NoErase [[Op.insert (3, 30)], [.insert (K := Nat) (4, 40)]] ∧ NoInsert [[Op.erase 2], [.find (V := Nat × Nat) 2]] := by
  constructor <;> intro p hp k hk <;> simp only [List.mem_cons, List.not_mem_nil, or_false] at hp <;>
    rcases hp with rfl | rfl <;> simp at hk

end Stdgpu.Props
