import Verif.Spec.LiveSize
import Verif.Proof.DequeConc3
import Verif.Proof.VectorConc3
import Verif.Props.Deque
import Verif.Props.Vector
/-!
C22 and C26, for all programs and schedules, also those in which racing operations cross the full or the empty boundary:
exactly what is left behind. In a deque everything but the size counter is right, and the counter is wrong by at most the
number of operations that returned false; in a vector even `size()` is right. If no operation returned false, the
container is valid.

`{ s.shared with ctr := … }` is the container with its size counter replaced; `Holds` (Spec/Vectors.lean, Spec/Deques.lean)
is the proper state with given contents.
-/
namespace Stdgpu.Props
open Stdgpu.SlotConc Stdgpu.Conc Stdgpu.Spec

variable {α : Type}

theorem sum_countP_flatMap {T E : Type} (ts : List T) (f : T → List E) (q : E → Bool) :
    (ts.map (fun t => (f t).countP q)).sum = (ts.flatMap f).countP q := by
  induction ts with
  | nil => rfl
  | cons t ts ih => simp [List.flatMap_cons, List.countP_append, ih]

section
open Stdgpu.Deque

theorem sum_failN_push (s : DSys α) : (s.threads.map (Deque.failC true)).sum = failedPushes s := by
  unfold failedPushes results
  rw [← sum_countP_flatMap]
  congr 1
  refine List.map_congr_left fun t _ => ?_
  refine List.countP_congr fun e _ => ?_
  cases e.2 <;> simp [Deque.failR]

theorem sum_failN_pop (s : DSys α) : (s.threads.map (Deque.failC false)).sum = failedPops s := by
  unfold failedPops results
  rw [← sum_countP_flatMap]
  congr 1
  refine List.map_congr_left fun t _ => ?_
  refine List.countP_congr fun e _ => ?_
  cases e.2 <;> simp [Deque.failR]

/-- C26 (partial, for all programs and schedules). When all operations have finished, there is a list `stored` of initial
plus pushed minus popped elements such that the deque is a proper deque with these contents (front to back) but for its
size counter; the counter, and `size()`, exceed the number of elements by at most the number of failed pushes, and fall
below it by at most the number of failed pops; and `valid()` is true exactly when the counter is right. -/
theorem C26_all_programs_partial {d : Deq α} {l : List α} (h : Deque.Holds d l) (programs : List (List (Op Side α)))
    (sched : List Nat) :
    let s := drun d programs sched
    Finished s → ∃ stored : List α,
      Deque.Holds { s.shared with ctr := { s.shared.ctr with size := stored.length } } stored ∧
      (l ++ pushedVals s).Perm (stored ++ poppedVals s) ∧
      s.shared.ctr.size ≤ stored.length + failedPushes s ∧ stored.length ≤ s.shared.ctr.size + failedPops s ∧
      Deque.size s.shared ≤ stored.length + failedPushes s ∧ stored.length ≤ Deque.size s.shared + failedPops s ∧
      (Deque.valid s.shared = true ↔ s.shared.ctr.size = stored.length) := by
  intro s hf
  obtain ⟨w, hw⟩ := winv_run h programs sched
  have hq := quiet_of_finished hw.v hf
  obtain ⟨n, hr, hn⟩ := winv_ring hw hq
  obtain ⟨stored, h1, h2, h3, h4, h5⟩ := dring_final hr hq
  have hz : ∀ b, (s.threads.map (midN b)).sum = 0 := by
    intro b; rw [sum_map_eq_zero]; intro t ht; simp [midN, hf t ht]
  have hi := hw.hi
  have lo := hw.lo
  rw [show ((run (step (dfront (cap d))) (init (dfront (cap d)) d programs) sched).threads.map (midN true)).sum = 0 from hz true,
    show ((run (step (dfront (cap d))) (init (dfront (cap d)) d programs) sched).threads.map (midN false)).sum = 0 from hz false,
    ← hn] at hi lo
  rw [sum_failN_push] at hi
  rw [sum_failN_pop] at lo
  have hc : cap s.shared = cap d := hr.v.hcap
  have hb : s.shared.ctr.begin < cap d := hr.begin
  have hle := hr.le
  have he : s.shared.ctr.endd = (s.shared.ctr.begin + n) % cap d := hr.endd
  have hi' : s.shared.ctr.size ≤ stored.length + failedPushes s := by
    show (drun d programs sched).shared.ctr.size ≤ stored.length + failedPushes (drun d programs sched)
    unfold drun; omega
  have lo' : stored.length ≤ s.shared.ctr.size + failedPops s := by
    show (stored.length : Int) ≤ (drun d programs sched).shared.ctr.size + failedPops (drun d programs sched)
    unfold drun; omega
  have hsize : Deque.size s.shared = if s.shared.ctr.size < 0 then 0 else if s.shared.ctr.size > cap d then (cap d : Int) else s.shared.ctr.size := by
    unfold Deque.size; rw [hc]; rfl
  refine ⟨stored, ?_, ?_, hi', lo', ?_, ?_, ?_⟩
  · constructor
    · show 0 < cap s.shared; omega
    · show _ ≤ cap s.shared; omega
    · rfl
    · show s.shared.ctr.begin < cap s.shared; omega
    · show s.shared.ctr.endd = (s.shared.ctr.begin + stored.length) % cap s.shared; rw [hc, h1]; exact he
    · show ∀ q, q < cap s.shared → _; rw [hc]; exact h4
    · show ∀ q, q < cap s.shared → s.shared.slots.occ q = decide (ringIdx (cap s.shared) s.shared.ctr.begin q < stored.length)
      rw [hc, h1]; exact h3
    · exact hr.v.err
    · show ∀ q, q < cap s.shared → s.shared.slots.data q = stored[ringIdx (cap s.shared) s.shared.ctr.begin q]?
      rw [hc]; exact h2
  · rw [Multiset.coe_add, Multiset.coe_add] at h5
    exact Multiset.coe_eq_coe.1 h5
  · rw [hsize]; split
    · omega
    · split <;> omega
  · rw [hsize]; split
    · omega
    · split <;> omega
  · unfold Deque.valid
    rw [hc, if_neg (by omega), countBits_ring (cap d) s.shared.ctr.begin n hb hle _ h3, Vector.countBits_zero _ _ h4, hsize]
    constructor
    · intro hv
      simp only [Bool.and_eq_true, decide_eq_true_eq, beq_iff_eq] at hv
      obtain ⟨⟨⟨a, b⟩, c⟩, -⟩ := hv
      rw [if_neg (by omega), if_neg (by omega)] at c
      omega
    · intro hv
      simp only [Bool.and_eq_true, decide_eq_true_eq, beq_iff_eq]
      rw [if_neg (by omega), if_neg (by omega)]
      exact ⟨⟨⟨by omega, by omega⟩, by omega⟩, trivial⟩

/-- C26 (partial): if no operation failed, then the deque is valid and usable, whatever the programs and the schedule. -/
theorem C26_no_failure_partial {d : Deq α} {l : List α} (h : Deque.Holds d l) (programs : List (List (Op Side α)))
    (sched : List Nat) :
    let s := drun d programs sched
    Finished s → (∀ e ∈ results s, e.2 ≠ .pushFailed ∧ e.2 ≠ .popFailed) →
    Deque.valid s.shared = true ∧ ∃ l', Deque.Holds s.shared l' ∧ (l ++ pushedVals s).Perm (l' ++ poppedVals s) := by
  intro s hf hn
  obtain ⟨stored, h1, h2, h3, h4, -, -, h5⟩ := C26_all_programs_partial h programs sched hf
  have z1 : failedPushes s = 0 := by
    unfold failedPushes; rw [List.countP_eq_zero]; intro e he
    have := (hn e he).1
    cases hr : e.2 <;> simp_all
  have z2 : failedPops s = 0 := by
    unfold failedPops; rw [List.countP_eq_zero]; intro e he
    have := (hn e he).2
    cases hr : e.2 <;> simp_all
  have hs : s.shared.ctr.size = stored.length := by
    have a : s.shared.ctr.size ≤ stored.length + failedPushes s := h3
    have b : (stored.length : Int) ≤ s.shared.ctr.size + failedPops s := h4
    omega
  have e : ({ s.shared with ctr := { s.shared.ctr with size := stored.length } } : Deq α) = s.shared := by
    rw [← hs]
  refine ⟨h5.2 hs, stored, ?_, h2⟩
  rw [← e]; exact h1

/-- C26 is false in general: three threads push into a deque with two free slots; all see it non-full. Afterwards a pop
returns an element, but now the deque reports to be full although only one element is left: `device_range()` names a slot
without an element, and `clear()` destroys an object that does not exist. -/
theorem C26_counterexample_clear :
    ∃ sched, let s := drun (create 2 : Deq Nat) [[.push .back 3], [.push .back 4], [.push .back 5]] sched
      Finished s ∧ ∃ d1, pop .back s.shared = .ok (some 4, d1) ∧ full d1 = true ∧ Deque.size d1 = 2 ∧
        deviceRange d1 = [some 3, none] ∧ clear (fun _ => List.range) d1 = .error .ub := by
  refine ⟨[0, 1, 2] ++ List.replicate 12 0 ++ List.replicate 12 1 ++ List.replicate 12 2, ?_, ?_⟩
  · unfold Finished; decide
  · exact ⟨_, rfl, by decide, by decide, by decide, rfl⟩

def busyDeque : List (List (Op Side Nat)) := [[.push .back 1, .pop .front, .push .back 2],
  [.push .front 3, .pop .back, .push .back 4, .pop .front], [.push .front 5, .pop .front]]

def busySched : List Nat := (List.range 120).map (· % 2) ++ List.replicate 60 2

/-- The hypotheses of `C26_no_failure_partial` are met by an execution of more operations than there is room for: three
threads, five pushes and four pops in a deque of capacity 2. -/
example : let s := drun (create 2 : Deq Nat) busyDeque busySched
    Deque.valid s.shared = true ∧ ∃ l', Deque.Holds s.shared l' ∧ ([] ++ pushedVals s).Perm (l' ++ poppedVals s) :=
  C26_no_failure_partial (create_holds 2 (by decide)) _ _ (by unfold Finished; decide +kernel) (by decide +kernel)

def raceSched : List Nat := [0, 1, 2] ++ List.replicate 12 0 ++ List.replicate 12 1 ++ List.replicate 12 2

/-- The bounds of `C26_all_programs_partial` are reached: one of three racing pushes fails, and the counter is one too
large. -/
example : let s := drun (create 2 : Deq Nat) [[.push .back 3], [.push .back 4], [.push .back 5]] raceSched
    s.shared.ctr.size = 3 ∧ failedPushes s = 1 ∧ pushedVals s = [3, 4] ∧ Deque.size s.shared = 2 ∧ Deque.valid s.shared = false := by
  decide +kernel

end

section
open Stdgpu.Vector

theorem sum_vfail_push (s : VSys α) : (s.threads.map (Vector.failC true)).sum = failedPushes s := by
  unfold failedPushes results
  rw [← sum_countP_flatMap]
  congr 1
  refine List.map_congr_left fun t _ => ?_
  refine List.countP_congr fun e _ => ?_
  cases e.2 <;> simp [Vector.failR]

theorem sum_vfail_pop (s : VSys α) : (s.threads.map (Vector.failC false)).sum = failedPops s := by
  unfold failedPops results
  rw [← sum_countP_flatMap]
  congr 1
  refine List.map_congr_left fun t _ => ?_
  refine List.countP_congr fun e _ => ?_
  cases e.2 <;> simp [Vector.failR]

theorem sum_got_push {cap : Nat} {c₀ : Multiset α} {programs : List (List (Op Unit α))} {s : VSys α}
    (h : VInv cap c₀ programs s) (hf : Finished s) : (s.threads.map (gotN true)).sum = (pushedVals s).length := by
  unfold pushedVals results
  rw [List.length_filterMap_eq_countP, ← sum_countP_flatMap]
  congr 1
  refine List.map_congr_left fun t ht => ?_
  have e0 : gotN true t = t.done.countP (fun e => okB true e.2) := by simp [gotN, hf t ht]
  rw [e0]
  refine List.countP_congr fun e he => ?_
  have := (h.shape t ht).2.2 e he
  obtain ⟨o, r⟩ := e
  cases o <;> cases r <;> simp_all [okB, pushVal, resFits]

theorem sum_got_pop {cap : Nat} {c₀ : Multiset α} {programs : List (List (Op Unit α))} {s : VSys α}
    (h : VInv cap c₀ programs s) (hf : Finished s) : (s.threads.map (gotN false)).sum = (poppedVals s).length := by
  unfold poppedVals results
  rw [List.length_filterMap_eq_countP, ← sum_countP_flatMap]
  congr 1
  refine List.map_congr_left fun t ht => ?_
  have e0 : gotN false t = t.done.countP (fun e => okB false e.2) := by simp [gotN, hf t ht]
  rw [e0]
  refine List.countP_congr fun e he => ?_
  have := (h.shape t ht).2.2 e he
  obtain ⟨o, r⟩ := e
  cases o <;> cases r <;> simp_all [okB, popVal, resFits]

/-- C22 (partial, for all programs and schedules). When all operations have finished, there is a list `stored` of initial
plus pushed minus popped elements such that the vector is a proper vector with these contents but for its counter;
`size()` is the number of elements (the counter is clamped); the counter exceeds it by at most the number of failed pushes
and falls below it by at most the number of failed pops; and `valid()` is true exactly when the counter is right. -/
theorem C22_all_programs_partial {v : Vec α} {l : List α} (h : Vector.Holds v l) (programs : List (List (Op Unit α)))
    (sched : List Nat) :
    let s := vrun v programs sched
    Finished s → ∃ stored : List α,
      Vector.Holds { s.shared with ctr := (stored.length : Int) } stored ∧
      (l ++ pushedVals s).Perm (stored ++ poppedVals s) ∧
      Vector.size s.shared = stored.length ∧
      s.shared.ctr ≤ stored.length + failedPushes s ∧ stored.length ≤ s.shared.ctr + failedPops s ∧
      (0 < cap v → (Vector.valid s.shared = true ↔ s.shared.ctr = stored.length)) := by
  intro s hf
  have hci := cinv_run h programs sched
  have hv : VInv (cap v) (l : Multiset α) programs s := hci.v
  have hq := quiet_of_finished hv hf
  have hc := (C20_conservation h programs sched).2.2 hq
  obtain ⟨c, hcc⟩ : ∃ c, c = (clampSize (cap v) s.shared.ctr).toNat := ⟨_, rfl⟩
  have hcl : clampSize (cap v) s.shared.ctr = c ∧ c ≤ cap v := by
    unfold clampSize at hcc ⊢
    split at hcc
    · rw [if_pos (by assumption)]; omega
    · rw [if_neg (by assumption)]; split at hcc
      · rw [if_pos (by assumption)]; omega
      · rw [if_neg (by assumption)]; omega
  have hcap : cap s.shared = cap v := hv.hcap
  have hlt : ∀ p, p < cap v → ((p : Int) < s.shared.ctr ↔ p < c) := by
    intro p hp
    have := hcl.1
    unfold clampSize at this
    split at this
    · omega
    · split at this <;> omega
  have hocc' : ∀ p, p < cap v → s.shared.slots.occ p = decide (p < c) := by
    intro p hp
    have : _ = vtick s.shared.ctr p := quiet_occ hv hq p hp
    unfold vtick at this
    have := hlt p hp
    cases hb : s.shared.slots.occ p <;> simp_all
  have hsome : ∀ p, 0 ≤ p → p < c → (s.shared.slots.data p).isSome := by
    intro p _ hp
    have := hc.2.1 p (by omega)
    have e := hocc' p (by omega)
    rw [show decide (p < c) = true by simpa using hp] at e
    rw [show (vrun v programs sched).shared.slots.occ p = true from e] at this
    exact this
  have hnone : ∀ p, c ≤ p → p < cap v → s.shared.slots.data p = none := by
    intro p h1 h2
    have := hc.2.1 p h2
    have e := hocc' p h2
    rw [show decide (p < c) = false by simp; omega] at e
    rw [show (vrun v programs sched).shared.slots.occ p = false from e] at this
    simpa using this
  have hlen := liveIn_length _ 0 c hsome
  have hperm : (l ++ pushedVals s).Perm (liveIn s.shared.slots.data 0 c ++ poppedVals s) := by
    have : (l ++ pushedVals s).Perm (liveIn s.shared.slots.data 0 (cap v) ++ poppedVals s) := hc.1
    rw [liveIn_split _ 0 c (cap v) (by omega) (by omega), liveIn_none _ c (cap v) hnone] at this
    simpa using this
  have hl2 := hperm.length_eq
  simp only [List.length_append] at hl2
  have hi : s.shared.ctr ≤ _ := hci.hi
  have lo : _ ≤ s.shared.ctr := hci.lo
  rw [sum_got_push hci.v hf, sum_got_pop hci.v hf, sum_vfail_push] at hi
  rw [sum_got_push hci.v hf, sum_got_pop hci.v hf, sum_vfail_pop] at lo
  have hi' : s.shared.ctr ≤ (l.length : Int) + (pushedVals s).length - (poppedVals s).length + failedPushes s := hi
  have lo' : (l.length : Int) + (pushedVals s).length - (poppedVals s).length - failedPops s ≤ s.shared.ctr := lo
  refine ⟨liveIn s.shared.slots.data 0 c, ?_, hperm, ?_, ?_, ?_, ?_⟩
  · constructor
    · rw [hlen]; show _ ≤ cap s.shared; omega
    · rfl
    · show ∀ p, p < cap s.shared → _; rw [hcap]; exact hc.2.2
    · show ∀ p, p < cap s.shared → s.shared.slots.occ p = _; rw [hcap, hlen]; intro p hp; rw [hocc' p hp]; simp
    · exact hv.err
    · show ∀ p, p < cap s.shared → s.shared.slots.data p = _
      rw [hcap]
      intro p hp
      by_cases hpc : p < c
      · rw [liveIn_get _ _ _ hsome _ (by omega)]; simp
      · rw [List.getElem?_eq_none (by omega)]; exact hnone p (by omega) hp
  · unfold Vector.size; rw [hcap, hlen, hcl.1]; simp
  · omega
  · omega
  · intro hc0
    have hx := (C22_valid_iff_counter_in_range_partial h programs sched hc0 hf).1
    have hx : Vector.valid s.shared = true ↔ 0 ≤ s.shared.ctr ∧ s.shared.ctr ≤ cap v := hx
    rw [hx, hlen]
    have h1 := hcl.1
    have h2 := hcl.2
    unfold clampSize at h1
    split at h1
    · omega
    · split at h1 <;> omega

/-- C22 (partial): if no operation failed, then the vector is valid and usable, whatever the programs and the schedule. -/
theorem C22_no_failure_partial {v : Vec α} {l : List α} (h : Vector.Holds v l) (programs : List (List (Op Unit α)))
    (sched : List Nat) :
    let s := vrun v programs sched
    Finished s → (∀ e ∈ results s, e.2 ≠ .pushFailed ∧ e.2 ≠ .popFailed) →
    Vector.valid s.shared = true ∧ ∃ l', Vector.Holds s.shared l' ∧ (l ++ pushedVals s).Perm (l' ++ poppedVals s) := by
  intro s hf hn
  obtain ⟨stored, h1, h2, h6, h3, h4, h5⟩ := C22_all_programs_partial h programs sched hf
  have z1 : failedPushes s = 0 := by
    unfold failedPushes; rw [List.countP_eq_zero]; intro e he
    have := (hn e he).1
    cases hr : e.2 <;> simp_all
  have z2 : failedPops s = 0 := by
    unfold failedPops; rw [List.countP_eq_zero]; intro e he
    have := (hn e he).2
    cases hr : e.2 <;> simp_all
  have hs : s.shared.ctr = stored.length := by
    have a : s.shared.ctr ≤ stored.length + failedPushes s := h3
    have b : (stored.length : Int) ≤ s.shared.ctr + failedPops s := h4
    omega
  have e : ({ s.shared with ctr := (stored.length : Int) } : Vec α) = s.shared := by
    rw [← hs]
  have hh : Vector.Holds s.shared stored := by rw [← e]; exact h1
  exact ⟨valid_of_holds hh, stored, hh, h2⟩

def busyVector : List (List (Op Unit Nat)) := [[.push () 1, .pop (), .push () 2],
  [.push () 3, .pop (), .push () 4, .pop ()], [.push () 5, .pop ()]]

/-- The hypotheses of `C22_no_failure_partial` are met by an execution of more operations than there is room for. -/
example : let s := vrun (create 2 : Vec Nat) busyVector busySched
    Vector.valid s.shared = true ∧ ∃ l', Vector.Holds s.shared l' ∧ ([] ++ pushedVals s).Perm (l' ++ poppedVals s) :=
  C22_no_failure_partial (create_holds 2) _ _ (by unfold Finished; decide +kernel) (by decide +kernel)

/-- The bounds of `C22_all_programs_partial` are reached. -/
example : let s := vrun (create 2 : Vec Nat) [[.push () 3], [.push () 4], [.push () 5]] raceSched
    s.shared.ctr = 3 ∧ failedPushes s = 1 ∧ pushedVals s = [3, 4] ∧ Vector.size s.shared = 2 ∧ Vector.valid s.shared = false := by
  decide +kernel

end

end Stdgpu.Props
