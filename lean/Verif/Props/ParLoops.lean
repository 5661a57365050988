import Verif.Proof.ParLoops2
import Verif.Props.Packed
import Mathlib.Tactic.IntervalCases
/-!
C83: the host operations that run parallel loops, with one thread per index, the single memory accesses of the loop bodies
interleaved in any way and the flags packed in words (Model/ParLoops.lean). The result of an operation is `none` as long as
one of its loops has not finished; the theorems are about every schedule after which the loops have finished.
-/
namespace Stdgpu.Props
open Stdgpu.ParLoops Stdgpu.Packed Stdgpu.Spec Stdgpu.Algorithm
open Stdgpu.Bitset (Bitset)

variable {w : Nat} {α V K M R : Type}

/-- C83. Whatever has happened so far, every loop can be finished. -/
theorem C83_completes (n : Int) (body : Nat → Body M R) (mem : M) (r : R) (sched : List Nat) :
    ∃ more m, parLoop n body mem r (sched ++ more) = some m := by
  obtain ⟨more, h⟩ := C45_loop_completes n body mem r sched
  exact ⟨more, _, parLoop_of_complete h⟩

/-! ### bitset -/

/-- C83. `set()`: all bits are one. -/
theorem C83_bitset_set {b b' : Bitset w} {n : Nat} {f : Nat → Bool} (h : Bits b n f) (sched : List Nat)
    (e : setWords b sched = some b') : Bits b' n (fun _ => true) := setWords_bits h e

/-- C83. `reset()`: all bits are zero. -/
theorem C83_bitset_reset {b b' : Bitset w} {n : Nat} {f : Nat → Bool} (h : Bits b n f) (sched : List Nat)
    (e : resetWords b sched = some b') : Bits b' n (fun _ => false) := resetWords_bits h e

/-- C83. `flip()`: every bit is inverted. -/
theorem C83_bitset_flip {b b' : Bitset w} {n : Nat} {f : Nat → Bool} (h : Bits b n f) (sched : List Nat)
    (e : flipWords b sched = some b') : Bits b' n (fun i => !f i) := by
  rw [flipWords_eq b h.len sched b' e]
  have hw := h.wf
  refine Bits.of_wf (Bitset.map_blocks_wf hw _) h.size ?_
  intro i hi
  unfold Bitset.flipAll
  rw [Bitset.bitAt_map hw _ i (by rw [h.size]; exact hi) (fun x => !x) (by intro blk m hm; simp [hm]), h.at i hi]

/-! ### vector -/

/-- C83. `insert(device_end(), begin, end)` appends the range if there is room for all of it and otherwise changes nothing;
no constructor runs on an element that is there already. -/
theorem C83_vector_insert {m m' : PMem w Int α} {v : Vector.Vec α} {l : List α} (h : Packs m v) (hl : Vector.Holds v l)
    (position : Int) (xs : List α) (sched : List Nat) (e : vinsert m position xs sched = some m') :
    ∃ v', Packs m' v' ∧ Vector.cap v' = Vector.cap v ∧
      Vector.Holds v' (if position = l.length ∧ l.length + xs.length ≤ Vector.cap v then l ++ xs else l) :=
  vinsert_holds h hl position xs sched e

/-- C83. `erase(begin, device_end())` removes the elements from `begin` on, each destroyed once. -/
theorem C83_vector_erase {m m' : PMem w Int α} {v : Vector.Vec α} {l : List α} (h : Packs m v) (hl : Vector.Holds v l)
    (b e : Int) (hbe : b ≤ e) (sched : List Nat) (hm : verase m b e sched = some m') :
    ∃ v', Packs m' v' ∧ Vector.cap v' = Vector.cap v ∧
      Vector.Holds v' (if e = l.length ∧ 0 ≤ b then l.take b.toNat else l) := verase_holds h hl b e hbe sched hm

/-- C83. `clear()` destroys every element once and leaves an empty vector. -/
theorem C83_vector_clear {m m' : PMem w Int α} {v : Vector.Vec α} {l : List α} (h : Packs m v) (hl : Vector.Holds v l)
    (sched sched' : List Nat) (e : vclear m sched sched' = some m') :
    ∃ v', Packs m' v' ∧ Vector.cap v' = Vector.cap v ∧ Vector.Holds v' [] := vclear_holds h hl sched sched' e

/-! ### deque -/

/-- C83. `clear()` destroys every element once, also when they wrap around, and leaves an empty deque. -/
theorem C83_deque_clear {m m' : PMem w Deque.Ctr α} {d : Deque.Deq α} {l : List α} (h : Packs m d) (hl : Deque.Holds d l)
    (scheds : List (List Nat)) (sched' : List Nat) (e : dclear m scheds sched' = some m') :
    ∃ d', Packs m' d' ∧ Deque.cap d' = Deque.cap d ∧ Deque.Holds d' [] := dclear_holds h hl scheds sched' e

/-- C83. `device_range()`, whatever was in the array of positions before: the elements seen through its first `size()`
positions are the elements of the deque, each once; in order when they do not wrap around. -/
theorem C83_deque_device_range {m : PMem w Deque.Ctr α} {d : Deque.Deq α} {l : List α} (h : Packs m d) (hl : Deque.Holds d l)
    (scheds : List (List Nat)) (old idx : Nat → Nat) (e : drange m scheds old = some idx) :
    ((List.range l.length).map idx).Nodup ∧
    ((List.range l.length).map (fun k => m.slots.data (idx k))).Perm (l.map some) ∧
    (d.ctr.begin + l.length < Deque.cap d → (List.range l.length).map (fun k => m.slots.data (idx k)) = l.map some) := by
  have hp := Deque.rangeIndices_perm hl
  have hn : l.length = (Deque.rangeIndices d).length := by rw [hp.length_eq]; simp
  have he := drange_eq h scheds old e l.length hn
  have hd : (List.range l.length).map (fun k => m.slots.data (idx k)) = Deque.deviceRange d := by
    rw [Deque.deviceRange_eq hl, ← he, List.map_map, h.data]; rfl
  refine ⟨?_, hd ▸ Deque.deviceRange_perm hl, fun hu => hd ▸ Deque.deviceRange_unwrapped hl hu⟩
  rw [he, hp.nodup_iff, List.nodup_map_iff_inj_on List.nodup_range]
  intro x hx y hy exy
  have h1 := List.mem_range.1 hx
  have h2 := List.mem_range.1 hy
  have h3 := hl.begin
  have h4 := hl.len
  rw [Deque.wrap_eq _ _ _ h3 (by omega), Deque.wrap_eq _ _ _ h3 (by omega)] at exy
  split at exy <;> split at exy <;> omega

/-! ### unordered containers -/

section
variable {P : Unordered.Params K V} {bc ec : Nat} {t : Unordered.Tab V}

/-- C83. `clear()` destroys every stored value once (nothing else, so nothing undefined happens), and leaves an empty
container with all excess entries unused, in a state for which the other properties hold. -/
theorem C83_unordered_clear (hl : KeyLaws P) (h0 : 0 < bc) (h1 : bc < 2 ^ 63) (hr : PReachable P bc ec t) {m m' : PShared w V}
    (h : PacksT m.tab t) (s1 s2 s3 s4 s5 : List Nat) (e : uclear m s1 s2 s3 s4 s5 = some m') :
    m'.ub = m.ub ∧ ∃ t', PReachable P bc ec t' ∧ PacksT m'.tab t' ∧ contents t' = [] ∧ Unordered.size t' = 0 ∧
      (∀ p, p < bc + ec → m'.tab.live p = false) ∧ (freeList t').Perm (List.range' bc ec) := by
  obtain ⟨⟨chain, free, hR⟩, hb, ht⟩ := UnorderedConc.preachable_rep hl h0 h1 hr
  obtain ⟨t', e1, e2, e3, e4⟩ := uclear_packs h hR s1 s2 s3 s4 s5 e
  have ho : Vector.OrdOK List.range := fun n => List.Perm.refl _
  obtain ⟨t2, f1, ⟨chain', free', h'⟩, hc, hb', ht', hlive, -⟩ := Unordered.clear_eq hR ho
  have : t' = t2 := by rw [e1] at f1; exact Except.ok.inj f1
  subst this
  have hlen : Vector.countBits t'.total t'.occ = 0 := by rw [← Unordered.length_contents h', hc]; rfl
  refine ⟨e3, t', ?_, e2, hc, by rw [Unordered.size, h'.count, hlen]; rfl, ?_, ?_⟩
  · exact .op (o := .clear) (out := .unit) hr (fun n => List.Perm.refl (List.range n)) (by
      simp only [Unordered.exec, e1]; rfl)
  · intro p hp; rw [e2.live]; exact hlive p (by omega)
  · rw [Unordered.freeList_eq h']
    refine (List.perm_ext_iff_of_nodup h'.free_nodup List.nodup_range').2 (fun p => ?_)
    rw [List.mem_range'_1]
    constructor
    · intro hp
      have := h'.free_rng p hp
      omega
    · intro hp
      by_contra hx
      have := mt (h'.cover p (by omega) (by omega)).2 hx
      push Not at this
      obtain ⟨b, hbb, hm⟩ := this
      have ho := h'.occC b hbb p hm
      obtain ⟨v, hv⟩ := Option.isSome_iff_exists.1 (h'.val p (by omega) ho)
      have : v ∈ contents t' := Unordered.mem_contents.2 ⟨p, by omega, ho, hv⟩
      rw [hc] at this; simp at this

/-- C83. `device_range()`, whatever was in the array of positions before: it names every occupied entry exactly once, so
the values seen through it are the stored values; it writes only inside the array and does not change the container. -/
theorem C83_unordered_device_range (hl : KeyLaws P) (h0 : 0 < bc) (h1 : bc < 2 ^ 63) (hr : PReachable P bc ec t)
    {m : PTab w V} (h : PacksT m t) (old : Nat → Nat) (sched : List Nat) {c : Collect w V} (e : urange m old sched = some c) :
    c.ub = false ∧ c.tab = m ∧ c.positions.Nodup ∧ (∀ p ∈ c.positions, p < bc + ec ∧ m.live p = true) ∧
    (c.positions.filterMap m.val).Perm (contents t) ∧ (c.cnt : Int) = Unordered.size t := by
  obtain ⟨⟨chain, free, hR⟩, hb, ht⟩ := UnorderedConc.preachable_rep hl h0 h1 hr
  obtain ⟨k1, k2, k3, k4⟩ := urange_positions h old sched e
  have hp : c.positions.Perm (Unordered.deviceRange List.range t) := by
    refine (List.perm_ext_iff_of_nodup k1 (List.nodup_range.filter _)).2 fun p => ?_
    rw [k2 p]
    simp [Unordered.deviceRange]
  refine ⟨k4, k3, k1, fun p hpp => ?_, ?_, ?_⟩
  · obtain ⟨a1, a2⟩ := (k2 p).1 hpp
    exact ⟨by omega, by rw [h.live]; exact (hR.stored_ok a1 a2).1⟩
  · rw [h.val]
    exact (hp.filterMap _).trans (Unordered.deviceRange_perm (fun n => List.Perm.refl _) t)
  · have e1 := hp.length_eq
    have e2 : c.positions.length = c.cnt := by simp [Collect.positions]
    rw [Unordered.size, hR.count, Vector.countBits, ← e2, e1, Unordered.deviceRange, List.countP_eq_length_filter]

end

/-! ### Examples -/

/-- `flip()` and `set()` on 20 bits in words of 8 bits, the threads of the three words interleaved; after the first five
accesses `flip()` has not finished. The last four bits do not belong to the bitset. -/
example : Bits (Bitset.create (2 ^ 3) 20) 20 (fun _ => false) ∧
    (flipWords (Bitset.create (2 ^ 3) 20) [2, 0, 1, 1, 0]).isNone ∧
    (flipWords (Bitset.create (2 ^ 3) 20) [2, 0, 1, 1, 0, 2]).map (·.blocks) = some [255#8, 255#8, 255#8] ∧
    (flipWords ⟨[1#8, 2#8, 4#8], 20⟩ [2, 0, 1, 1, 0, 2]).map (·.blocks) = some [254#8, 253#8, 251#8] ∧
    (resetWords ⟨[1#8, 2#8, 4#8], 20⟩ [2, 0, 1]).map (·.blocks) = some [0#8, 0#8, 0#8] :=
  ⟨Bits.create 3 20 (by decide) (by decide), by decide +kernel, by decide +kernel, by decide +kernel, by decide +kernel⟩

/-- Three elements are inserted into a vector of capacity 4, both accesses of the threads interleaved; then the last two are
erased; then the vector is cleared. -/
example : Packs (create (2 ^ 5) 4 0 : PMem (2 ^ 5) Int Nat) (Vector.create 4) ∧ Vector.Holds (Vector.create 4 : Vector.Vec Nat) [] ∧
    ((vinsert (create (2 ^ 5) 4 0 : PMem (2 ^ 5) Int Nat) 0 [7, 8, 9] [2, 1, 0, 1, 0, 2]).map
      (fun m => (m.slots.occ.blocks, (List.range 4).map m.slots.data, m.ctr, m.slots.err))) =
        some ([7#32], [some 7, some 8, some 9, none], 3, false) ∧
    (((vinsert (create (2 ^ 5) 4 0 : PMem (2 ^ 5) Int Nat) 0 [7, 8, 9] [2, 1, 0, 1, 0, 2]).bind (fun m => verase m 1 3 [0, 1, 0, 1])).map
      (fun m => (m.slots.occ.blocks, (List.range 4).map m.slots.data, m.ctr, m.slots.err))) =
        some ([1#32], [some 7, none, none, none], 1, false) ∧
    (((vinsert (create (2 ^ 5) 4 0 : PMem (2 ^ 5) Int Nat) 0 [7, 8, 9] [2, 1, 0, 1, 0, 2]).bind (fun m => vclear m [2, 0, 1] [0])).map
      (fun m => (m.slots.occ.blocks, (List.range 4).map m.slots.data, m.ctr, m.slots.err))) =
        some ([0#32], [none, none, none, none], 0, false) :=
  ⟨C81_vector_create 5 4 (by decide) (by decide), Vector.create_holds 4, by decide +kernel, by decide +kernel, by decide +kernel⟩

/-- A deque whose two elements wrap around. -/
def exWrapped : Deque.Deq Nat :=
  { slots := { cap := 3, locks := fun _ => false, occ := fun p => p != 1,
               data := fun p => if p = 2 then some 5 else if p = 0 then some 6 else none, err := false },
    ctr := ⟨2, 2, 1⟩ }

theorem exWrapped_holds : Deque.Holds exWrapped [5, 6] where
  pos := by decide
  len := by decide
  size := by decide
  begin := by decide
  endd := by decide
  locks := fun _ _ => rfl
  occ := by
    intro q hq
    have : q < 3 := hq
    interval_cases q <;> decide
  err := rfl
  data := by
    intro q hq
    have : q < 3 := hq
    interval_cases q <;> decide

example : ∃ m : PMem (2 ^ 5) Deque.Ctr Nat, Packs m exWrapped ∧ Deque.Holds exWrapped [5, 6] ∧
    (∃ scheds idx, drange m scheds (fun _ => 77) = some idx ∧ (List.range 3).map idx = [0, 2, 77]) ∧
    (∃ scheds sched' m', dclear m scheds sched' = some m' ∧ (List.range 3).map m'.slots.data = [none, none, none] ∧
      m'.slots.occ.blocks = [0#32] ∧ m'.ctr = ⟨0, 0, 0⟩ ∧ m'.slots.err = false) := by
  obtain ⟨b, hb⟩ : ∃ b : Bitset (2 ^ 5), b.blocks = [5#32] ∧ Bits b 3 exWrapped.slots.occ := by
    refine ⟨⟨[5#32], 3⟩, rfl, ⟨5, by decide, rfl⟩, rfl, by decide, by decide, ?_⟩
    intro i hi
    interval_cases i <;> decide
  refine ⟨⟨⟨3, Bitset.create (2 ^ 5) 3, ⟨[5#32], 3⟩, exWrapped.slots.data, false⟩, ⟨2, 2, 1⟩⟩,
    ⟨rfl, rfl, rfl, rfl, Bits.create 5 3 (by decide) (by decide), ⟨5, by decide, rfl⟩, rfl, by decide, by decide, ?_⟩, exWrapped_holds,
    ⟨[[0], [0]], _, rfl, by decide⟩, ⟨[[0], [0]], [0], _, rfl, by decide, by decide, rfl, by decide⟩⟩
  intro i hi
  have : i < 3 := hi
  interval_cases i <;> decide

/-- Two colliding elements in an unordered map; the collection of the positions with all threads interleaved, so that the
entry with the larger number comes first; then `clear()`. -/
example : PReachable exC 1 3 (Unordered.create 1 3) ∧
    ((urange (puexec exC (pcreate (2 ^ 5) 1 3 : PTab (2 ^ 5) (Nat × Nat)) [[.insert (1, 10), .insert (2, 20)]]
        (List.replicate 90 0)).shared.tab (fun _ => 77) [3, 0, 1, 2, 3, 0, 1, 2, 0, 1, 2, 3]).map
      (fun c => (c.cnt, c.positions, c.idx 2, c.ub))) = some (2, [3, 0], 77, false) ∧
    ((uclear (puexec exC (pcreate (2 ^ 5) 1 3 : PTab (2 ^ 5) (Nat × Nat)) [[.insert (1, 10), .insert (2, 20)]]
        (List.replicate 90 0)).shared [3, 0, 1, 2, 3, 0, 1, 2] [3, 2, 1, 0] [0] [1, 0, 2] [0]).map
      (fun m => (m.tab.occ.blocks, m.tab.count, (List.range 4).map m.tab.off))) = some ([0#32], 0, [0, 0, 0, 0]) ∧
    ((uclear (puexec exC (pcreate (2 ^ 5) 1 3 : PTab (2 ^ 5) (Nat × Nat)) [[.insert (1, 10), .insert (2, 20)]]
        (List.replicate 90 0)).shared [3, 0, 1, 2, 3, 0, 1, 2] [3, 2, 1, 0] [0] [1, 0, 2] [0]).map
      (fun m => ((List.range 4).map m.tab.live, (List.range 3).map m.tab.excess.slots.data, m.tab.excess.ctr, m.ub))) =
      some ([false, false, false, false], [some 1, some 2, some 3], 3, false) :=
  ⟨.create, by decide +kernel, by decide +kernel, by decide +kernel⟩

end Stdgpu.Props
