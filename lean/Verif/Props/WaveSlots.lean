import Verif.Proof.WaveSRun
import Verif.Props.Progress
/-!
C73: `push_*` and `pop_*` of vector and deque on wavefronts with election (HIP backend).
-/
namespace Stdgpu.Props
open Stdgpu.Execution Stdgpu.Spec Stdgpu.Conc
open Stdgpu.SlotConc (Mem Thread Op Res Front)

variable {C K F α : Type}

/-- What the lanes of all wavefronts have returned. -/
def allReturned (s : Waves (Mem C α) (Op K α) (Res α) (Thread K F α)) : List (Op K α × Res α) := s.waves.flatMap returned

/-- The number of operations. -/
def numOps (progs : List (List (List (Option (Op K α))))) : Nat := (progs.map (fun p => (p.map activeLanes).sum)).sum

theorem blocks {β γ : Type} (f : β → Nat → γ) (d : γ) (l : List β) :
    (List.range (64 * l.length)).map (fun j => match l[j / 64]? with | some x => f x (j % 64) | none => d) =
      l.flatMap (fun x => (List.range 64).map (f x)) := by
  induction l with
  | nil => rfl
  | cons x l ih =>
    have e : 64 * (x :: l).length = 64 + 64 * l.length := by rw [List.length_cons]; omega
    rw [e, List.range_add, List.map_append, List.map_map, List.flatMap_cons, ← ih]
    refine congrArg₂ (· ++ ·) ?_ ?_
    · refine List.map_congr_left fun j hj => ?_
      have hj := List.mem_range.1 hj
      rw [Nat.div_eq_of_lt hj, Nat.mod_eq_of_lt hj]; rfl
    · refine List.map_congr_left fun j _ => ?_
      simp only [Function.comp]
      rw [show (64 + j) / 64 = j / 64 + 1 by omega, show (64 + j) % 64 = j % 64 by omega, List.getElem?_cons_succ]

theorem laneProgs_eq {O : Type} (progs : List (List (List (Option O)))) :
    laneProgs progs = progs.flatMap (fun p => (List.range 64).map (laneOps p)) := by
  refine Eq.trans ?_ (blocks laneOps [] progs)
  unfold laneProgs
  refine List.map_congr_left fun j _ => ?_
  cases progs[j / 64]? <;> rfl

theorem threadsOf_eq (fr : Front C K F) (ws : List (SWave K F α)) :
    threadsOf fr ws = ws.flatMap (fun w => (List.range 64).map (thr fr w)) := by
  refine Eq.trans ?_ (blocks (thr fr) ⟨[], .front fr.start, []⟩ ws)
  unfold threadsOf
  refine List.map_congr_left fun j _ => ?_
  cases ws[j / 64]? <;> rfl

theorem numOps_eq (progs : List (List (List (Option (Op K α))))) (hp : ∀ p ∈ progs, ∀ c ∈ p, c.length ≤ 64) :
    (laneProgs progs).flatten.length = numOps progs := by
  unfold numOps
  rw [laneProgs_eq, List.length_flatten, List.map_flatMap]
  induction progs with
  | nil => rfl
  | cons p progs ih =>
    rw [List.flatMap_cons, List.sum_append, ih (fun q hq => hp q (by simp [hq])), List.map_cons, List.sum_cons,
      ← laneOps_sum p (hp p (by simp)), List.map_map]
    rfl

theorem split_perm {β : Type} (d : List (Nat × β)) (n : Nat) :
    ((List.range n).flatMap (fun i => (d.filter (fun x => x.1 == i)).map (·.2))).Perm ((d.filter (fun x => decide (x.1 < n))).map (·.2)) := by
  induction n with
  | zero => simp
  | succ n ih =>
    rw [List.range_succ, List.flatMap_append, List.flatMap_singleton]
    refine (ih.append_right _).trans ?_
    rw [← List.map_append]
    apply List.Perm.map
    have h := List.filter_append_perm (fun x : Nat × β => decide (x.1 < n)) (d.filter (fun x => decide (x.1 < n + 1)))
    rw [List.filter_filter, List.filter_filter] at h
    have e1 : d.filter (fun x => decide (x.1 < n) && decide (x.1 < n + 1)) = d.filter (fun x => decide (x.1 < n)) := by
      apply List.filter_congr; intro x _
      rw [Bool.eq_iff_iff]
      simp only [Bool.and_eq_true, decide_eq_true_eq]; omega
    have e2 : d.filter (fun x => (!decide (x.1 < n)) && decide (x.1 < n + 1)) = d.filter (fun x => x.1 == n) := by
      apply List.filter_congr; intro x _
      rw [Bool.eq_iff_iff]
      simp only [Bool.and_eq_true, decide_eq_true_eq, Bool.not_eq_true', decide_eq_false_iff_not, beq_iff_eq]; omega
    rw [e1, e2] at h
    exact h

/-- C73. In every execution of wavefronts with election (any number of them, any operations, any schedule and any choice
between divergent lanes) the lanes behave as independent threads: an interleaving of the lanes as threads has the same
effect on memory and the same results for every lane. So what C18–C20, C25, C53, C54, C60 say about threads holds for lanes. -/
theorem C73_lanes_are_threads (fr : Front C K F) (m : Mem C α) {progs : List (List (List (Option (Op K α))))}
    (hp : ∀ p ∈ progs, ∀ c ∈ p, c.length ≤ 64) (sched : List (Nat × Nat)) :
    ∃ τ, (execWaves true (sLane fr) m progs sched).shared =
        (run (SlotConc.step fr) (SlotConc.init fr m (laneProgs progs)) τ).shared ∧
      ∀ k w i, (execWaves true (sLane fr) m progs sched).waves[k]? = some w → i < 64 →
        ∃ t, (run (SlotConc.step fr) (SlotConc.init fr m (laneProgs progs)) τ).threads[64 * k + i]? = some t ∧
          t.done = (w.done.filter (fun x => x.1 == i)).map (·.2) := by
  obtain ⟨τ, h⟩ := ssim_run fr m hp sched
  refine ⟨τ, by rw [h.sim], fun k w i hw hi => ?_⟩
  rw [h.sim]
  refine ⟨_, threadsOf_get hw hi, ?_⟩
  unfold thr
  split
  · split <;> rfl
  · rfl

theorem finished_waves (fr : Front C K F) (m : Mem C α) {progs : List (List (List (Option (Op K α))))}
    (hp : ∀ p ∈ progs, ∀ c ∈ p, c.length ≤ 64) (sched : List (Nat × Nat))
    (ha : AllReturned (execWaves true (sLane fr) m progs sched)) :
    ∃ τ, (execWaves true (sLane fr) m progs sched).shared =
        (run (SlotConc.step fr) (SlotConc.init fr m (laneProgs progs)) τ).shared ∧
      Finished (run (SlotConc.step fr) (SlotConc.init fr m (laneProgs progs)) τ) ∧
      (results (run (SlotConc.step fr) (SlotConc.init fr m (laneProgs progs)) τ)).Perm
        (allReturned (execWaves true (sLane fr) m progs sched)) := by
  obtain ⟨τ, h⟩ := ssim_run fr m hp sched
  refine ⟨τ, by rw [h.sim], ?_, ?_⟩
  · rw [h.sim]
    intro t ht
    dsimp only at ht
    rw [threadsOf_eq] at ht
    simp only [List.mem_flatMap, List.mem_map] at ht
    obtain ⟨w, hw, i, -, rfl⟩ := ht
    obtain ⟨A, he⟩ := (h.inv w hw).1
    exact over_todo he (ha w hw) i
  · rw [h.sim]
    unfold results allReturned
    dsimp only
    rw [threadsOf_eq, List.flatMap_assoc]
    refine List.Perm.flatMap_left _ fun w hw => ?_
    rw [List.flatMap_map]
    have e : (List.range 64).flatMap (fun i => (thr fr w i).done) =
        (List.range 64).flatMap (fun i => (w.done.filter (fun x => x.1 == i)).map (·.2)) := by
      congr 1; funext i
      unfold thr
      split
      · split <;> rfl
      · rfl
    rw [e]
    refine (split_perm w.done 64).trans ?_
    have := (h.inv w hw).2.2
    rw [List.filter_eq_self.2 (fun x hx => by simpa using this x hx)]
    exact List.Perm.refl _

/-- All lanes push in all calls (`b`: true), or all lanes pop (`b`: false). -/
def OnlyKind (b : Bool) (progs : List (List (List (Option (Op K α))))) : Prop :=
  ∀ p ∈ progs, ∀ c ∈ p, ∀ op, some op ∈ c → op.isPush = b

theorem onlyKind_lanes {b : Bool} {progs : List (List (List (Option (Op K α))))} (h : OnlyKind b progs) :
    ∀ p ∈ laneProgs progs, ∀ op ∈ p, op.isPush = b := by
  intro p hp op ho
  rw [laneProgs_eq] at hp
  simp only [List.mem_flatMap, List.mem_map] at hp
  obtain ⟨q, hq, i, -, rfl⟩ := hp
  unfold laneOps at ho
  obtain ⟨c, hc, e⟩ := List.mem_filterMap.1 ho
  refine h q hq c hc op ?_
  cases hci : c[i]? with
  | none => rw [hci] at e; cases e
  | some o =>
    rw [hci] at e
    cases o with
    | none => cases e
    | some op' => cases e; exact List.mem_of_getElem? hci

/-- C73. vector: if all lanes of all wavefronts push, or all pop, a wavefront has returned from all its calls after a number of
its own steps that depends only on its calls (2 for a call and 10 for each active lane), whatever the other wavefronts do and
whatever the hardware chooses between divergent lanes. -/
theorem C73_vector_wave_wait_free {v : Vector.Vec α} {l : List α} (h : Vector.Holds v l)
    {progs : List (List (List (Option (Op Unit α))))} (hp : ∀ p ∈ progs, ∀ c ∈ p, c.length ≤ 64) (b : Bool)
    (hk : OnlyKind b progs) (sched : List (Nat × Nat)) (k : Nat) (p : List (List (Option (Op Unit α)))) (hpk : progs[k]? = some p)
    (hs : (p.map (fun c => 2 + 10 * activeLanes c)).sum ≤ waveSteps sched k) :
    ∃ w, (execWaves true (sLane (Vector.vfront (Vector.cap v))) v progs sched).waves[k]? = some w ∧ WaveOver w :=
  wave_bound (c := 8) (by omega) (fun τ i p hp => C68_vector_wait_free h (laneProgs progs) b (onlyKind_lanes hk) τ i p hp) hp sched
    k p hpk hs

/-- C73. deque: the same with 11 steps for each active lane. -/
theorem C73_deque_wave_wait_free {d : Deque.Deq α} {l : List α} (h : Deque.Holds d l)
    {progs : List (List (List (Option (Op Deque.Side α))))} (hp : ∀ p ∈ progs, ∀ c ∈ p, c.length ≤ 64) (b : Bool)
    (hk : OnlyKind b progs) (sched : List (Nat × Nat)) (k : Nat) (p : List (List (Option (Op Deque.Side α)))) (hpk : progs[k]? = some p)
    (hs : (p.map (fun c => 2 + 11 * activeLanes c)).sum ≤ waveSteps sched k) :
    ∃ w, (execWaves true (sLane (Deque.dfront (Deque.cap d))) d progs sched).waves[k]? = some w ∧ WaveOver w :=
  wave_bound (c := 9) (by omega) (fun τ i p hp => C68_deque_wait_free h (laneProgs progs) b (onlyKind_lanes hk) τ i p hp) hp sched
    k p hpk hs

/-- C73, together with C18: when every wavefront has been given these steps, all pushes have returned; as many have succeeded as
there was room for, and the vector holds the old elements followed by the pushed ones in some order. -/
theorem C73_vector_pushes {v : Vector.Vec α} {l : List α} (h : Vector.Holds v l)
    {progs : List (List (List (Option (Op Unit α))))} (hp : ∀ p ∈ progs, ∀ c ∈ p, c.length ≤ 64) (hk : OnlyKind true progs)
    (sched : List (Nat × Nat))
    (hs : ∀ k p, progs[k]? = some p → (p.map (fun c => 2 + 10 * activeLanes c)).sum ≤ waveSteps sched k) :
    ∀ e, e = execWaves true (sLane (Vector.vfront (Vector.cap v))) v progs sched →
      AllReturned e ∧ ((allReturned e).filterMap pushVal).length = min (numOps progs) (Vector.cap v - l.length) ∧
      e.shared.slots.err = false ∧ ∃ l', l'.Perm ((allReturned e).filterMap pushVal) ∧
        (∀ p, p < Vector.cap v → e.shared.slots.data p = (l ++ l')[p]?) ∧
        (∀ p, p < Vector.cap v → e.shared.slots.occ p = decide (p < (l ++ l').length)) ∧
        Vector.size e.shared = (l ++ l').length := by
  intro e he
  have ha : AllReturned e := by
    intro w hw
    obtain ⟨k, hk'⟩ := List.mem_iff_getElem?.1 hw
    obtain ⟨τ, hsim⟩ := ssim_run (Vector.vfront (Vector.cap v)) v hp sched
    have hlt : k < progs.length := by
      rw [← hsim.len, ← he]; exact (List.getElem?_eq_some_iff.1 hk').1
    obtain ⟨w', h1, h2⟩ := C73_vector_wave_wait_free h hp true hk sched k _ (List.getElem?_eq_getElem hlt)
      (hs k _ (List.getElem?_eq_getElem hlt))
    rw [← he, hk'] at h1
    cases h1; exact h2
  refine ⟨ha, ?_⟩
  rw [he] at ha
  obtain ⟨τ, h1, h2, h3⟩ := finished_waves _ _ hp sched ha
  rw [← he] at h1 h3
  obtain ⟨h4, h5, l', h6, h7, h8, h9⟩ := C18_concurrent_push h (laneProgs progs) (onlyKind_lanes hk) τ h2
  have h10 : (pushedVals (vrun v (laneProgs progs) τ)).Perm ((allReturned e).filterMap pushVal) := h3.filterMap _
  rw [h1]
  refine ⟨?_, h5, l', h6.trans h10, h7, h8, h9⟩
  rw [← h10.length_eq, h4, numOps_eq progs hp]

/-- C73, together with C19: pops take the last elements. -/
theorem C73_vector_pops {v : Vector.Vec α} {l : List α} (h : Vector.Holds v l)
    {progs : List (List (List (Option (Op Unit α))))} (hp : ∀ p ∈ progs, ∀ c ∈ p, c.length ≤ 64) (hk : OnlyKind false progs)
    (sched : List (Nat × Nat))
    (hs : ∀ k p, progs[k]? = some p → (p.map (fun c => 2 + 10 * activeLanes c)).sum ≤ waveSteps sched k) :
    ∀ e n, e = execWaves true (sLane (Vector.vfront (Vector.cap v))) v progs sched → n = min (numOps progs) l.length →
      AllReturned e ∧ ((allReturned e).filterMap popVal).Perm (l.drop (l.length - n)) ∧
      e.shared.slots.err = false ∧
        (∀ p, p < Vector.cap v → e.shared.slots.data p = (l.take (l.length - n))[p]?) ∧
        (∀ p, p < Vector.cap v → e.shared.slots.occ p = decide (p < l.length - n)) ∧
        Vector.size e.shared = ((l.length - n : Nat) : Int) := by
  intro e n he hn
  have ha : AllReturned e := by
    intro w hw
    obtain ⟨k, hk'⟩ := List.mem_iff_getElem?.1 hw
    obtain ⟨τ, hsim⟩ := ssim_run (Vector.vfront (Vector.cap v)) v hp sched
    have hlt : k < progs.length := by
      rw [← hsim.len, ← he]; exact (List.getElem?_eq_some_iff.1 hk').1
    obtain ⟨w', h1, h2⟩ := C73_vector_wave_wait_free h hp false hk sched k _ (List.getElem?_eq_getElem hlt)
      (hs k _ (List.getElem?_eq_getElem hlt))
    rw [← he, hk'] at h1
    cases h1; exact h2
  refine ⟨ha, ?_⟩
  rw [he] at ha
  obtain ⟨τ, h1, h2, h3⟩ := finished_waves _ _ hp sched ha
  rw [← he] at h1 h3
  obtain ⟨h4, -, h5, h7, h8, h9⟩ := C19_concurrent_pop h (laneProgs progs) (onlyKind_lanes hk) τ h2
  have h10 : (poppedVals (vrun v (laneProgs progs) τ)).Perm ((allReturned e).filterMap popVal) := h3.filterMap _
  rw [numOps_eq progs hp, ← hn] at h4 h7 h8 h9
  rw [h1]
  exact ⟨h10.symm.trans h4, h5, h7, h8, h9⟩

/-- C73, together with C53, for the deque: pushes at both ends. -/
theorem C73_deque_pushes {d : Deque.Deq α} {l : List α} (h : Deque.Holds d l)
    {progs : List (List (List (Option (Op Deque.Side α))))} (hp : ∀ p ∈ progs, ∀ c ∈ p, c.length ≤ 64) (hk : OnlyKind true progs)
    (sched : List (Nat × Nat))
    (hs : ∀ k p, progs[k]? = some p → (p.map (fun c => 2 + 11 * activeLanes c)).sum ≤ waveSteps sched k) :
    ∀ e, e = execWaves true (sLane (Deque.dfront (Deque.cap d))) d progs sched →
      AllReturned e ∧ ((allReturned e).filterMap pushVal).length = min (numOps progs) (Deque.cap d - l.length) ∧
      e.shared.slots.err = false ∧
      ∃ lf lb, lf.Perm ((allReturned e).filterMap (fun x => if x.1.kind = .front then pushVal x else none)) ∧
        lb.Perm ((allReturned e).filterMap (fun x => if x.1.kind = .back then pushVal x else none)) ∧
        (∀ q, q < Deque.cap d → e.shared.slots.data q = (lf ++ l ++ lb)[Deque.ringIdx (Deque.cap d) e.shared.ctr.begin q]?) ∧
        Deque.size e.shared = (lf ++ l ++ lb).length := by
  intro e he
  have ha : AllReturned e := by
    intro w hw
    obtain ⟨k, hk'⟩ := List.mem_iff_getElem?.1 hw
    obtain ⟨τ, hsim⟩ := ssim_run (Deque.dfront (Deque.cap d)) d hp sched
    have hlt : k < progs.length := by
      rw [← hsim.len, ← he]; exact (List.getElem?_eq_some_iff.1 hk').1
    obtain ⟨w', h1, h2⟩ := C73_deque_wave_wait_free h hp true hk sched k _ (List.getElem?_eq_getElem hlt)
      (hs k _ (List.getElem?_eq_getElem hlt))
    rw [← he, hk'] at h1
    cases h1; exact h2
  refine ⟨ha, ?_⟩
  rw [he] at ha
  obtain ⟨τ, h1, h2, h3⟩ := finished_waves _ _ hp sched ha
  rw [← he] at h1 h3
  obtain ⟨h4, h5, lf, lb, h6, h6', h7, -, h9⟩ := C53_concurrent_push h (laneProgs progs) (onlyKind_lanes hk) τ h2
  have h10 : (pushedVals (drun d (laneProgs progs) τ)).Perm ((allReturned e).filterMap pushVal) := h3.filterMap _
  rw [h1]
  refine ⟨?_, h5, lf, lb, h6.trans (h3.filterMap _), h6'.trans (h3.filterMap _), h7, h9⟩
  rw [← h10.length_eq, h4, numOps_eq progs hp]

/-- C73, together with C54: pops at both ends take the outer elements. -/
theorem C73_deque_pops {d : Deque.Deq α} {l : List α} (h : Deque.Holds d l)
    {progs : List (List (List (Option (Op Deque.Side α))))} (hp : ∀ p ∈ progs, ∀ c ∈ p, c.length ≤ 64) (hk : OnlyKind false progs)
    (sched : List (Nat × Nat))
    (hs : ∀ k p, progs[k]? = some p → (p.map (fun c => 2 + 11 * activeLanes c)).sum ≤ waveSteps sched k) :
    ∀ e, e = execWaves true (sLane (Deque.dfront (Deque.cap d))) d progs sched →
      AllReturned e ∧ ((allReturned e).filterMap popVal).length = min (numOps progs) l.length ∧
      e.shared.slots.err = false ∧
      ∃ lf l' lb, l = lf ++ l' ++ lb ∧
        lf.Perm ((allReturned e).filterMap (fun x => if x.1.kind = .front then popVal x else none)) ∧
        lb.Perm ((allReturned e).filterMap (fun x => if x.1.kind = .back then popVal x else none)) ∧
        (∀ q, q < Deque.cap d → e.shared.slots.data q = l'[Deque.ringIdx (Deque.cap d) e.shared.ctr.begin q]?) ∧
        Deque.size e.shared = l'.length := by
  intro e he
  have ha : AllReturned e := by
    intro w hw
    obtain ⟨k, hk'⟩ := List.mem_iff_getElem?.1 hw
    obtain ⟨τ, hsim⟩ := ssim_run (Deque.dfront (Deque.cap d)) d hp sched
    have hlt : k < progs.length := by
      rw [← hsim.len, ← he]; exact (List.getElem?_eq_some_iff.1 hk').1
    obtain ⟨w', h1, h2⟩ := C73_deque_wave_wait_free h hp false hk sched k _ (List.getElem?_eq_getElem hlt)
      (hs k _ (List.getElem?_eq_getElem hlt))
    rw [← he, hk'] at h1
    cases h1; exact h2
  refine ⟨ha, ?_⟩
  rw [he] at ha
  obtain ⟨τ, h1, h2, h3⟩ := finished_waves _ _ hp sched ha
  rw [← he] at h1 h3
  obtain ⟨h4, h5, lf, l', lb, h0, h6, h6', h7, -, h9⟩ := C54_concurrent_pop h (laneProgs progs) (onlyKind_lanes hk) τ h2
  have h10 : (poppedVals (drun d (laneProgs progs) τ)).Perm ((allReturned e).filterMap popVal) := h3.filterMap _
  rw [h1]
  refine ⟨?_, h5, lf, l', lb, h0, h6.trans (h3.filterMap _), h6'.trans (h3.filterMap _), h7, h9⟩
  rw [← h10.length_eq, h4, numOps_eq progs hp]

/-! ### Pushes and pops at the same time: the election makes a deadlock possible -/

/-- Program points of a lane that looks again and again whether its slot is ready. -/
def Spins {α : Type} (s : SlotConc.SPC α) : Prop := s = .tryLock ∨ s = .check ∨ s = .unlockRetry

/-- Lane 0 of wavefront 0 waits to push to slot 0, which is occupied, lane 0 of wavefront 1 waits to pop from slot 1, which is not
occupied. The other lanes have not been elected. -/
def Deadlock (s : Waves (Mem C α) (Op K α) (Res α) (Thread K F α)) : Prop :=
  (s.shared.slots.cap = 2 ∧ s.shared.slots.occ 0 = true ∧ s.shared.slots.occ 1 = false) ∧
  ∃ (k k' : K) (x : α) (a b : SlotConc.SPC α) (l0 l1 m0 m1 : SLane K F α), Spins a ∧ Spins b ∧
    l0.st = ⟨[.push k x], .slot 0 a, []⟩ ∧ m0.st = ⟨[.pop k'], .slot 1 b, []⟩ ∧
    l0.inside = true ∧ l1.inside = false ∧ m0.inside = true ∧ m1.inside = false ∧
    s.waves = [⟨[], [some l0, some l1], .branch, []⟩, ⟨[], [some m0, some m1], .branch, []⟩]

theorem choose_zero (c : Nat) : choose [0] c = some 0 := by
  unfold choose; rw [List.length_singleton, Nat.mod_one]; rfl

theorem inside_lanes {l0 l1 : SLane K F α} (h0 : l0.inside = true) (h1 : l1.inside = false) :
    lanesWith [some l0, some l1] (fun l => l.inside) = [0] := by
  have h01 : List.range 2 = [0, 1] := rfl
  simp [lanesWith, h01, laneAt, List.filter, h0, h1]

theorem spin_lane {fr : Front C K F} {m : Mem C α} {w0 w1 : SLane K F α} {op : Op K α} {p : Nat} {a : SlotConc.SPC α} (c : Nat)
    (hcap : p < m.slots.cap) (ha : Spins a) (ho : m.slots.occ p = op.isPush)
    (h0 : w0.st = ⟨[op], .slot p a, []⟩) (i0 : w0.inside = true) (i1 : w1.inside = false) :
    ∃ (locks : Nat → Bool) (a' : SlotConc.SPC α), Spins a' ∧
      waveStep true (sLane fr) m ⟨[], [some w0, some w1], .branch, []⟩ c =
        (⟨{ m.slots with locks := locks }, m.ctr⟩,
          ⟨[], [some { w0 with st := ⟨[op], .slot p a', []⟩ }, some w1], .branch, []⟩) := by
  have key : ∃ (locks : Nat → Bool) (a' : SlotConc.SPC α), Spins a' ∧
      SlotConc.slotStep m.slots op p a = ({ m.slots with locks := locks }, .inl a') := by
    rcases ha with rfl | rfl | rfl
    · cases hl : m.slots.locks p with
      | true => exact ⟨m.slots.locks, .tryLock, .inl rfl, by simp [SlotConc.slotStep, hl]; omega⟩
      | false => exact ⟨_, .check, .inr (.inl rfl), by
          simp only [SlotConc.slotStep, hl]; rw [if_neg (by omega), if_neg (by simp)]⟩
    · refine ⟨m.slots.locks, .unlockRetry, .inr (.inr rfl), ?_⟩
      cases op <;> simp only [Op.isPush] at ho <;> simp [SlotConc.slotStep, ho]
    · exact ⟨_, .tryLock, .inl rfl, rfl⟩
  obtain ⟨locks, a', h1, h2⟩ := key
  refine ⟨locks, a', h1, ?_⟩
  have hst : (sLane fr).step m w0.st = (⟨{ m.slots with locks := locks }, m.ctr⟩, ⟨[op], .slot p a', []⟩) := by
    show SlotConc.step fr m w0.st = _
    rw [h0]
    simp only [SlotConc.step, h2]
  have hkind : (sLane (α := α) fr).kind ⟨[op], .slot p a', []⟩ = .crit := rfl
  simp only [waveStep, inside_lanes i0 i1, choose_zero, stepLane]
  have hl : laneAt [some w0, some w1] 0 = some w0 := rfl
  rw [hl]
  simp only [hst, hkind]
  rfl

theorem deadlock_step {fr : Front C K F} {s : Waves (Mem C α) (Op K α) (Res α) (Thread K F α)} (h : Deadlock s) (a : Nat × Nat) :
    Deadlock (wavesStep true (sLane fr) s a) := by
  obtain ⟨⟨h1, h2, h3⟩, k, k', x, pa, pb, l0, l1, m0, m1, ha, hb, e0, e1, i0, i1, j0, j1, hw⟩ := h
  unfold wavesStep
  obtain ⟨n, c⟩ := a
  have hn : n = 0 ∨ n = 1 ∨ 2 ≤ n := by omega
  rcases hn with rfl | rfl | hn
  · obtain ⟨locks, a', h4, h5⟩ := spin_lane (fr := fr) c (by omega) ha h2 e0 i0 i1
    rw [hw]
    simp only [List.getElem?_cons_zero, h5]
    exact ⟨⟨h1, h2, h3⟩, k, k', x, a', pb, { l0 with st := ⟨[.push k x], .slot 0 a', []⟩ }, l1, m0, m1, h4, hb, rfl, e1, i0, i1, j0, j1, rfl⟩
  · obtain ⟨locks, a', h4, h5⟩ := spin_lane (fr := fr) c (by omega) hb h3 e1 j0 j1
    rw [hw]
    simp only [List.getElem?_cons_succ, List.getElem?_cons_zero, h5]
    exact ⟨⟨h1, h2, h3⟩, k, k', x, pa, a', l0, l1, { m0 with st := ⟨[.pop k'], .slot 1 a', []⟩ }, m1, ha, h4, e0, rfl, i0, i1, j0, j1, rfl⟩
  · rw [hw, List.getElem?_eq_none (by simpa using hn)]
    exact ⟨⟨h1, h2, h3⟩, k, k', x, pa, pb, l0, l1, m0, m1, ha, hb, e0, e1, i0, i1, j0, j1, hw⟩

theorem deadlock_forever {fr : Front C K F} {m : Mem C α} {progs : List (List (List (Option (Op K α))))} {sched : List (Nat × Nat)}
    (h : Deadlock (execWaves true (sLane fr) m progs sched)) (sched' : List (Nat × Nat)) :
    allReturned (execWaves true (sLane fr) m progs (sched ++ sched')) = [] := by
  have key : Deadlock (execWaves true (sLane fr) m progs (sched ++ sched')) := by
    unfold execWaves at h ⊢
    rw [List.foldl_append]
    generalize sched.foldl (wavesStep true (sLane fr)) (initWaves m progs) = s at h
    induction sched' generalizing s with
    | nil => exact h
    | cons a l ih => exact ih _ (deadlock_step h a)
  obtain ⟨-, k, k', x, pa, pb, l0, l1, m0, m1, -, -, -, -, -, -, -, -, hw⟩ := key
  unfold allReturned
  rw [hw]; rfl

/-- A vector of capacity 2 with one element. -/
def exWVec : Vector.Vec Nat := ⟨⟨2, fun _ => false, fun p => p == 0, fun p => if p = 0 then some 7 else none, false⟩, 1⟩

theorem exWVec_holds : Vector.Holds exWVec [7] := by
  refine ⟨by decide, rfl, fun p _ => rfl, ?_, rfl, ?_⟩
  · intro p hp
    have hp : p < 2 := hp
    have : p = 0 ∨ p = 1 := by omega
    rcases this with rfl | rfl <;> rfl
  · intro p hp
    have hp : p < 2 := hp
    have : p = 0 ∨ p = 1 := by omega
    rcases this with rfl | rfl <;> rfl

/-- C73: with election, one wavefront of two lanes that push and one of two lanes that pop can deadlock: after the given steps no
continuation of the schedule and no choice between lanes lets any call return. (As independent threads they could always
finish, C21.) The vector has capacity 2 and holds one element, so it is neither full nor empty, and no boundary is exceeded.
Lane 1 of the popping wavefront and lane 0 of the pushing one have obtained slot 0, the other two lanes slot 1. The elected lane 0 of
the pushing wavefront waits until slot 0 is emptied by a lane that is not elected because the elected lane 0 of its wavefront
waits until slot 1 is filled by lane 1 of the pushing wavefront. -/
theorem C73_counterexample_vector_deadlock :
    ∃ (v : Vector.Vec Nat) (sched : List (Nat × Nat)), Vector.Holds v [7] ∧ ∀ sched',
      allReturned (execWaves true (sLane (Vector.vfront (Vector.cap v))) v
        [[[some (.push () 8), some (.push () 9)]], [[some (.pop ()), some (.pop ())]]] (sched ++ sched')) = [] := by
  refine ⟨exWVec, [(0, 0), (1, 0), (1, 1), (1, 1), (0, 0), (0, 0), (0, 0), (0, 0), (1, 0), (1, 0), (0, 0), (1, 0), (0, 0), (1, 0)],
    exWVec_holds, fun sched' => deadlock_forever ?_ sched'⟩
  exact ⟨⟨rfl, rfl, rfl⟩, (), (), 8, .tryLock, .tryLock, _, _, _, _, .inl rfl, .inl rfl, rfl, rfl, rfl, rfl, rfl, rfl, rfl⟩

/-- A deque of capacity 2 with one element. -/
def exWDeq : Deque.Deq Nat :=
  ⟨⟨2, fun _ => false, fun p => p == 0, fun p => if p = 0 then some 7 else none, false⟩, { size := 1, begin := 0, endd := 1 }⟩

theorem exWDeq_holds : Deque.Holds exWDeq [7] := by
  refine ⟨by decide, by decide, rfl, by decide, rfl, fun p _ => rfl, ?_, rfl, ?_⟩
  · intro p hp
    have hp : p < 2 := hp
    have : p = 0 ∨ p = 1 := by omega
    rcases this with rfl | rfl <;> rfl
  · intro p hp
    have hp : p < 2 := hp
    have : p = 0 ∨ p = 1 := by omega
    rcases this with rfl | rfl <;> rfl

/-- C73: the same for the deque used as a queue (pushes at the back, pops at the front), which for independent threads is even
linearizable (C71). -/
theorem C73_counterexample_queue_deadlock :
    ∃ (d : Deque.Deq Nat) (sched : List (Nat × Nat)), Deque.Holds d [7] ∧ ∀ sched',
      allReturned (execWaves true (sLane (Deque.dfront (Deque.cap d))) d
        [[[some (.push .back 8), some (.push .back 9)]], [[some (.pop .front), some (.pop .front)]]] (sched ++ sched')) = [] := by
  refine ⟨exWDeq, [(0, 0), (1, 0), (1, 1), (1, 1), (1, 1), (0, 1), (0, 1), (0, 1), (0, 0), (0, 0), (0, 0), (1, 0), (1, 0), (1, 0),
    (0, 0), (1, 0), (0, 0), (1, 0)], exWDeq_holds, fun sched' => deadlock_forever ?_ sched'⟩
  exact ⟨⟨rfl, rfl, rfl⟩, .back, .front, 8, .tryLock, .tryLock, _, _, _, _, .inl rfl, .inl rfl, rfl, rfl, rfl, rfl, rfl, rfl, rfl⟩

/-! ### The hypotheses are met -/

/-- Two wavefronts: three lanes push, with one inactive lane in between, then one lane pushes; two lanes push. -/
def exWPushes : List (List (List (Option (Op Unit Nat)))) :=
  [[[some (.push () 1), none, some (.push () 2), some (.push () 3)], [none, some (.push () 4)]],
   [[some (.push () 5), some (.push () 6)]]]

example : (∀ p ∈ exWPushes, ∀ c ∈ p, c.length ≤ 64) ∧ numOps exWPushes = 6 ∧
    exWPushes.map (fun p => (p.map (fun c => 2 + 10 * activeLanes c)).sum) = [44, 22] := by decide +kernel

example : OnlyKind true exWPushes := by
  intro p hp c hc op ho
  have key : ∀ p ∈ exWPushes, ∀ c ∈ p, ∀ o ∈ c, o.all (fun op => op.isPush) = true := by decide +kernel
  exact key p hp c hc _ ho

/-- An execution in turn with changing choices: the one free slot is taken by one of the pushes. -/
example : ((allReturned (execWaves true (sLane (Vector.vfront (Vector.cap exWVec))) exWVec exWPushes
    ((List.range 90).map (fun j => (j % 2, j))))).filterMap pushVal).length = 1 ∧
    Vector.size (execWaves true (sLane (Vector.vfront (Vector.cap exWVec))) exWVec exWPushes
    ((List.range 90).map (fun j => (j % 2, j)))).shared = 2 := by decide +kernel

example : waveSteps ((List.range 90).map (fun j => (j % 2, j))) 0 = 45 ∧
    waveSteps ((List.range 90).map (fun j => (j % 2, j))) 1 = 45 := by decide +kernel

/-- Pops at both ends of the deque by two lanes of a wavefront. -/
example : OnlyKind false [[[some (Op.pop (α := Nat) Deque.Side.front), some (.pop .back)]]] ∧
    (allReturned (execWaves true (sLane (Deque.dfront 2)) exWDeq [[[some (.pop .front), some (.pop .back)]]]
      ((List.range 24).map (fun j => (0, j / 2))))).filterMap popVal = [7] := by
  refine ⟨?_, by decide +kernel⟩
  intro p hp c hc op ho
  simp only [List.mem_singleton] at hp hc
  subst hp
  simp only [List.mem_singleton] at hc
  subst hc
  simp only [List.mem_cons, Option.some.injEq, List.not_mem_nil, or_false] at ho
  rcases ho with rfl | rfl <;> rfl

end Stdgpu.Props
