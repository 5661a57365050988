import Verif.Proof.LoopFree3
import Verif.Props.Valid
/-!
C98: `valid()` of an unordered container whose memory has any contents, with the threads of its chain check interleaved access by
access (Model/LoopFree.lean). `t` is an arbitrary table: nothing is assumed about its offsets, counters, locks or free list.
`Spec/LoopFree.lean` says what the chain check is to find out, `Spec/Valid.lean` what `valid()` is to find out.
-/
namespace Stdgpu.Props
open Stdgpu.Unordered Stdgpu.Spec Stdgpu.Conc

variable {K V : Type} {t : Tab V}

/-- C98. `valid()` returns, also if offsets form loops: once the thread of every bucket has made `4 * total + 2` steps, there
is a result. -/
theorem C98_returns (P : Params K V) (h0 : 0 < t.bc) (h1 : t.bc < 2 ^ 63) (hb : t.bc ≤ t.total) (hr : Readable t) (sched : List Nat)
    (hs : ∀ i, i < t.bc → 4 * t.total + 2 ≤ sched.count i) : ∃ b, LoopFree.valid P t sched = some (.ok b) := by
  obtain ⟨r, e⟩ := LoopFree.valid_some P hb hs
  obtain ⟨b, h, -⟩ := LoopFree.valid_det P h0 h1 hb hr
  exact ⟨b, by rw [e, h sched r e]⟩

/-- C98. The answer is the same under every schedule, and it is the one that the walks one after the other (in any order)
give. -/
theorem C98_schedule_independent (P : Params K V) (h0 : 0 < t.bc) (h1 : t.bc < 2 ^ 63) (hb : t.bc ≤ t.total) (hr : Readable t) :
    ∃ b, (∀ sched r, LoopFree.valid P t sched = some r → r = .ok b) ∧
      ∀ ord : Nat → List Nat, (∀ n, (ord n).Perm (List.range n)) → Unordered.valid P ord t = .ok b := by
  obtain ⟨b, h, h', -⟩ := LoopFree.valid_det P h0 h1 hb hr
  exact ⟨b, h, h'⟩

/-- C98. The answer is right: true exactly if the container is well-formed. -/
theorem C98_valid_iff {P : Params K V} (hl : KeyLaws P) (h0 : 0 < t.bc) (h1 : t.bc < 2 ^ 63) (hb : t.bc ≤ t.total) (hr : Readable t)
    (sched : List Nat) (b : Bool) (h : LoopFree.valid P t sched = some (.ok b)) : b = true ↔ Wellformed P t := by
  obtain ⟨b', h', -, hiff⟩ := LoopFree.valid_det P h0 h1 hb hr
  have := h' sched _ h
  cases this
  exact hiff hl

/-- C98. The check of the chains by itself: true exactly if no entry is met twice when the offsets are followed from the buckets. -/
theorem C98_chain_check (hin : OffsetsInside t) (hb : t.bc ≤ t.total) (sched : List Nat) (b : Bool)
    (h : LoopFree.loopFree t sched = some b) : b = true ↔ ChainsApart t := LoopFree.loopFree_iff hin hb h

/-- C98. At every moment: no thread of the check leaves the table, and a thread that has made `4 * total + 2` steps has
finished, whatever the others do. -/
theorem C98_threads (hin : OffsetsInside t) (hb : t.bc ≤ t.total) (sched : List Nat) :
    (LoopFree.visits t sched).shared.oob = false ∧
    ∀ i, i < t.bc → 4 * t.total + 2 ≤ sched.count i → (LoopFree.visits t sched).threads[i]? = some .done := by
  obtain ⟨vs, h, h2⟩ := LoopFree.visits_inv hin hb sched
  refine ⟨h.oob, fun i hi hc => ?_⟩
  have hlt : i < (LoopFree.visits t sched).threads.length := by rw [h.bc]; exact hi
  obtain ⟨x, hv⟩ : ∃ x, vs[i]? = some x := ⟨_, List.getElem?_eq_getElem (by rw [h.len]; exact hlt)⟩
  obtain ⟨pc, hp⟩ : ∃ pc, (LoopFree.visits t sched).threads[i]? = some pc := ⟨_, List.getElem?_eq_getElem hlt⟩
  rcases h2 i pc x hp hv with rfl | h3
  · exact hp
  · have hz : LoopFree.mu t x pc = 0 := by omega
    cases pc <;> simp [LoopFree.mu] at hz
    exact hp

/-- The buckets 0 and 1 lead to the entry 3, and the entries 3 and 4 form a loop. -/
def badTab : Tab (Nat × Nat) :=
  { (create 3 2 : Tab (Nat × Nat)) with off := fun p => [3, 2, 0, 1, -1].getD p 0 }

/-- Hypotheses of C98 for broken tables: all schedules end with `false`. Here the threads take turns, or run one after the
other. -/
example : OffsetsInside badTab ∧ badTab.bc ≤ badTab.total ∧ Readable badTab ∧
    LoopFree.loopFree badTab ((List.range 66).map (· % 3)) = some false ∧
    LoopFree.loopFree badTab (List.replicate 22 2 ++ List.replicate 22 1 ++ List.replicate 22 0) = some false := by
  refine ⟨by unfold OffsetsInside; decide, by decide, ?_, by decide +kernel, by decide +kernel⟩
  intro p _ h
  simp [badTab, create] at h

/-- A container with a chain of three entries: the check ends with `true`. -/
example :
    let t := exTab exC 1 3 [.insert (1, 10), .insert (2, 20), .insert (3, 30)]
    OffsetsInside t ∧ LoopFree.loopFree t (List.replicate 18 0) = some true ∧
    ((LoopFree.valid exC t (List.replicate 18 0)).map (·.toOption)) = some (some true) := by
  refine ⟨?_, by decide +kernel, by decide +kernel⟩
  have h : ∀ i : Nat, i < 4 → 0 ≤ (i : Int) + (exTab exC 1 3 [.insert (1, 10), .insert (2, 20), .insert (3, 30)]).off i ∧
      (i : Int) + (exTab exC 1 3 [.insert (1, 10), .insert (2, 20), .insert (3, 30)]).off i < 4 := by decide +kernel
  have e : (exTab exC 1 3 [.insert (1, 10), .insert (2, 20), .insert (3, 30)]).total = 4 := by decide +kernel
  intro i hi
  rw [e] at hi ⊢
  exact h i hi

end Stdgpu.Props
