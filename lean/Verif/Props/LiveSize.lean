import Verif.Proof.LiveSize
import Verif.Props.RandomSched
import Verif.Props.UMixed
import Verif.Props.UConserve
/-
C94: `size()`, `empty()` and `full()` while other threads operate.

`size()` is one atomic load (and clamping), so what a thread may observe is `size` of the state at any moment of the
execution: after any schedule.
-/
namespace Stdgpu.Props
open Stdgpu.Spec Stdgpu.Conc

section Slots
open Stdgpu.SlotConc Stdgpu.LiveSize
variable {C K F α : Type}

theorem length_filterMap_results {β : Type} (s : Sys (Mem C α) (Thread K F α)) (f : Op K α × Res α → Option β) :
    (((results s).filterMap f).length : Int) = (s.threads.map (fun t => ((t.done.filterMap f).length : Int))).sum := by
  unfold results
  induction s.threads with
  | nil => rfl
  | cons a l ih => simp [List.filterMap_append, ih]

theorem countP_results (s : Sys (Mem C α) (Thread K F α)) (f : Op K α × Res α → Bool) :
    ((results s).countP f : Int) = (s.threads.map (fun t => (t.done.countP f : Int))).sum := by
  unfold results
  induction s.threads with
  | nil => rfl
  | cons a l ih => simp [List.countP_append, ih]

theorem sum_cur [DecidableEq F] {start : F} {past : F → Bool} (hs : past start = false) (l : List (Thread K F α)) :
    -(l.countP (inCall start false) : Int) ≤ (l.map (cur past)).sum ∧ (l.map (cur past)).sum ≤ l.countP (inCall start true) := by
  induction l with
  | nil => simp
  | cons t l ih =>
    have key : -bit (inCall start false t) ≤ cur past t ∧ cur past t ≤ bit (inCall start true t) := by
      obtain ⟨todo, pc, done⟩ := t
      cases todo with
      | nil => simp [cur, inCall, bit]
      | cons op rest =>
        cases pc with
        | slot p sp => cases h : op.isPush <;> simp [cur, inCall, pcPast, bit, sgn, h]
        | front f =>
          by_cases hf : f = start
          · subst hf; simp [cur, inCall, pcPast, hs, bit]
          · cases h : op.isPush <;> cases hb : past f <;> simp [cur, inCall, pcPast, sgn, bit, h, hf, hb]
    simp only [List.map_cons, List.sum_cons, List.countP_cons]
    unfold bit at key
    push_cast
    omega

theorem counter_bounds [DecidableEq F] {fr : Front C K F} {g : C → Int} {past : F → Bool} (ho : Once fr g past) (m : Mem C α)
    (progs : List (List (Op K α))) (sched : List Nat) :
    let s := run (step fr) (init fr m progs) sched
    g m.ctr + (pushedVals s).length - (poppedVals s).length - failedPops s - running fr.start false s ≤ g s.shared.ctr ∧
    g s.shared.ctr ≤ g m.ctr + (pushedVals s).length - (poppedVals s).length + failedPushes s + running fr.start true s := by
  intro s
  have h := linv_run ho m progs sched
  change LInv g past (g m.ctr) s at h
  have h1 := h.lo
  have h2 := h.hi
  have h3 := sum_cur ho.start s.threads
  have e1 : (s.threads.map (acc past)).sum = (pushedVals s).length - (poppedVals s).length + (s.threads.map (cur past)).sum := by
    unfold pushedVals poppedVals
    rw [length_filterMap_results, length_filterMap_results]
    have : ∀ l : List (Thread K F α), (l.map (acc past)).sum =
        (l.map (fun t => ((t.done.filterMap pushVal).length : Int))).sum -
        (l.map (fun t => ((t.done.filterMap popVal).length : Int))).sum + (l.map (cur past)).sum := by
      intro l
      induction l with
      | nil => rfl
      | cons a l ih => simp only [List.map_cons, List.sum_cons, ih, acc]; omega
    exact this _
  have e2 : (s.threads.map (fails true)).sum = failedPushes s := by
    unfold failedPushes
    rw [countP_results]
    refine congrArg List.sum (List.map_congr_left fun t _ => ?_)
    unfold fails
    congr 2
    funext ⟨o, r⟩
    cases r <;> rfl
  have e3 : (s.threads.map (fails false)).sum = failedPops s := by
    unfold failedPops
    rw [countP_results]
    refine congrArg List.sum (List.map_congr_left fun t _ => ?_)
    unfold fails
    congr 2
    funext ⟨o, r⟩
    cases r <;> rfl
  unfold running
  omega

theorem clamp_bounds (cap : Nat) (c lo hi : Int) (h1 : lo ≤ c) (h2 : c ≤ hi) :
    0 ≤ Vector.clampSize cap c ∧ Vector.clampSize cap c ≤ cap ∧ min (cap : Int) lo ≤ Vector.clampSize cap c ∧
    Vector.clampSize cap c ≤ max 0 hi := by
  unfold Vector.clampSize
  split
  · omega
  · split <;> omega

theorem clamp_mono (cap : Nat) {c c' : Int} (h : c ≤ c') : Vector.clampSize cap c ≤ Vector.clampSize cap c' := by
  unfold Vector.clampSize
  repeat' split
  all_goals omega

end Slots

section Vector
open Stdgpu.SlotConc Stdgpu.Vector
variable {α : Type} {v : Vec α} {l : List α}

/-- C94. What any thread observes as `size()` of a vector at any moment while threads push and pop in any mix: between 0 and the
capacity; at least the initial elements and the successful pushes so far, minus one for every pop that has been called so far
(successful, failed, or going on); at most the initial elements minus the successful pops so far, plus one for every push that has
been called so far. -/
theorem C94_vector_size (h : Holds v l) (progs : List (List (Op Unit α))) (sched : List Nat) :
    let s := vrun v progs sched
    0 ≤ size s.shared ∧ size s.shared ≤ cap v ∧
    min (cap v : Int) (l.length + (pushedVals s).length - ((poppedVals s).length + failedPops s + running FPC.check false s)) ≤
      size s.shared ∧
    size s.shared ≤
      max (0 : Int) (l.length + (pushedVals s).length + failedPushes s + running FPC.check true s - (poppedVals s).length) := by
  intro s
  have hc : cap s.shared = cap v := (vinv_run h progs sched).hcap
  obtain ⟨h1, h2⟩ := counter_bounds (LiveSize.once_vfront (cap v)) v progs sched
  rw [id_eq, id_eq, h.ctr] at h1 h2
  change _ + ((pushedVals s).length : Int) - (poppedVals s).length - failedPops s - running FPC.check false s ≤ s.shared.ctr at h1
  change s.shared.ctr ≤ _ + ((pushedVals s).length : Int) - (poppedVals s).length + failedPushes s + running FPC.check true s at h2
  unfold size
  rw [hc]
  refine clamp_bounds _ _ _ _ ?_ ?_ <;> omega

/-- C94. If a thread observes `empty()`, then as many pops have been called as there were elements and successful pushes. -/
theorem C94_vector_empty (h : Holds v l) (hc : 0 < cap v) (progs : List (List (Op Unit α))) (sched : List Nat)
    (he : empty (vrun v progs sched).shared = true) :
    l.length + (pushedVals (vrun v progs sched)).length ≤ (poppedVals (vrun v progs sched)).length +
      failedPops (vrun v progs sched) + running FPC.check false (vrun v progs sched) := by
  have := C94_vector_size h progs sched
  have he' : size (vrun v progs sched).shared = 0 := by simpa [empty] using he
  omega

/-- C94. If a thread observes `full()`, then as many pushes have been called as there was room and successful pops. -/
theorem C94_vector_full (h : Holds v l) (hc : 0 < cap v) (progs : List (List (Op Unit α))) (sched : List Nat)
    (hf : full (vrun v progs sched).shared = true) :
    cap v + (poppedVals (vrun v progs sched)).length ≤ l.length + (pushedVals (vrun v progs sched)).length +
      failedPushes (vrun v progs sched) + running FPC.check true (vrun v progs sched) := by
  have := C94_vector_size h progs sched
  have hc' : cap (vrun v progs sched).shared = cap v := (vinv_run h progs sched).hcap
  have hf' : size (vrun v progs sched).shared = cap v := by
    have : size (vrun v progs sched).shared = cap (vrun v progs sched).shared := by simpa [full] using hf
    omega
  omega

/-- C94. While threads only push, a later `size()` is never smaller than an earlier one; while they only pop, never larger. -/
theorem C94_vector_monotone (h : Holds v l) (b : Bool) (progs : List (List (Op Unit α)))
    (hp : ∀ p ∈ progs, ∀ op ∈ p, op.isPush = b) (sched later : List Nat) :
    if b then size (vrun v progs sched).shared ≤ size (vrun v progs (sched ++ later)).shared
    else size (vrun v progs (sched ++ later)).shared ≤ size (vrun v progs sched).shared := by
  have h0 : ∀ t ∈ (init (vfront (cap v)) v progs).threads, ∀ op ∈ t.todo, op.isPush = b := by
    intro t ht
    obtain ⟨p, hq, rfl⟩ := List.mem_map.1 ht
    exact hp p hq
  have h1 := (LiveSize.mono_run (Counter32.counted_vfront (cap v)) b _ h0 sched).1
  have h2 := (LiveSize.mono_run (Counter32.counted_vfront (cap v)) b _ h1 later).2
  have hc : cap (vrun v progs sched).shared = cap v := (vinv_run h progs sched).hcap
  have hc' : cap (vrun v progs (sched ++ later)).shared = cap v := (vinv_run h progs (sched ++ later)).hcap
  unfold size
  rw [hc, hc', vrun, vrun, run_append]
  cases b <;> simp at h2 ⊢ <;> exact clamp_mono _ h2

end Vector

section Deque
open Stdgpu.SlotConc Stdgpu.Deque
variable {α : Type} {d : Deq α} {l : List α}

theorem drun_cap (h : Holds d l) (progs : List (List (Op Side α))) (sched : List Nat) :
    cap (drun d progs sched).shared = cap d := by
  obtain ⟨_, hi⟩ := (dinv_run h progs sched).inv
  exact hi.hcap

/-- C94. The same for a deque, with pushes and pops at both ends. -/
theorem C94_deque_size (h : Holds d l) (progs : List (List (Op Side α))) (sched : List Nat) :
    let s := drun d progs sched
    0 ≤ size s.shared ∧ size s.shared ≤ cap d ∧
    min (cap d : Int) (l.length + (pushedVals s).length - ((poppedVals s).length + failedPops s + running FPC.check false s)) ≤
      size s.shared ∧
    size s.shared ≤
      max (0 : Int) (l.length + (pushedVals s).length + failedPushes s + running FPC.check true s - (poppedVals s).length) := by
  intro s
  have hc : cap s.shared = cap d := drun_cap h progs sched
  obtain ⟨h1, h2⟩ := counter_bounds (LiveSize.once_dfront (cap d)) d progs sched
  simp only [h.size] at h1 h2
  change _ + ((pushedVals s).length : Int) - (poppedVals s).length - failedPops s - running FPC.check false s ≤ s.shared.ctr.size at h1
  change s.shared.ctr.size ≤ _ + ((pushedVals s).length : Int) - (poppedVals s).length + failedPushes s + running FPC.check true s at h2
  unfold size
  rw [hc]
  refine clamp_bounds _ _ _ _ ?_ ?_ <;> omega

theorem C94_deque_empty (h : Holds d l) (progs : List (List (Op Side α))) (sched : List Nat)
    (he : empty (drun d progs sched).shared = true) :
    l.length + (pushedVals (drun d progs sched)).length ≤ (poppedVals (drun d progs sched)).length +
      failedPops (drun d progs sched) + running FPC.check false (drun d progs sched) := by
  have := C94_deque_size h progs sched
  have hp := h.pos
  have he' : size (drun d progs sched).shared = 0 := by simpa [empty] using he
  omega

theorem C94_deque_full (h : Holds d l) (progs : List (List (Op Side α))) (sched : List Nat)
    (hf : full (drun d progs sched).shared = true) :
    cap d + (poppedVals (drun d progs sched)).length ≤ l.length + (pushedVals (drun d progs sched)).length +
      failedPushes (drun d progs sched) + running FPC.check true (drun d progs sched) := by
  have := C94_deque_size h progs sched
  have hp := h.pos
  have hc' := drun_cap h progs sched
  have hf' : size (drun d progs sched).shared = cap d := by
    have : size (drun d progs sched).shared = cap (drun d progs sched).shared := by simpa [full] using hf
    omega
  omega

theorem C94_deque_monotone (h : Holds d l) (b : Bool) (progs : List (List (Op Side α)))
    (hp : ∀ p ∈ progs, ∀ op ∈ p, op.isPush = b) (sched later : List Nat) :
    if b then size (drun d progs sched).shared ≤ size (drun d progs (sched ++ later)).shared
    else size (drun d progs (sched ++ later)).shared ≤ size (drun d progs sched).shared := by
  have h0 : ∀ t ∈ (init (dfront (cap d)) d progs).threads, ∀ op ∈ t.todo, op.isPush = b := by
    intro t ht
    obtain ⟨p, hq, rfl⟩ := List.mem_map.1 ht
    exact hp p hq
  have h1 := (LiveSize.mono_run (Counter32.counted_dfront (cap d)) b _ h0 sched).1
  have h2 := (LiveSize.mono_run (Counter32.counted_dfront (cap d)) b _ h1 later).2
  have hc := drun_cap h progs sched
  have hc' := drun_cap h progs (sched ++ later)
  unfold size
  rw [hc, hc', drun, drun, run_append]
  cases b <;> simp at h2 ⊢ <;> exact clamp_mono _ h2

end Deque

section Unordered
open Stdgpu.Unordered Stdgpu.UnorderedConc Stdgpu.LiveSize
variable {K V : Type} {P : Params K V} {bc ec : Nat} {t : Tab V}

theorem size_of_reachable (hl : KeyLaws P) (h0 : 0 < bc) (h1 : bc < 2 ^ 63) (hr : PReachable P bc ec t) :
    t.count = (Spec.contents t).length := by
  have := (C80_size (progs := []) hl h0 h1 hr [] (by intro u hu; cases hu) rfl).1
  exact this

theorem sum_curI (l : List (Thread K V)) :
    0 ≤ (l.map (fun t => curI t.cur)).sum ∧
    (l.map (fun t => curI t.cur)).sum ≤ l.countP (fun t => match t.cur with | .ins _ _ => true | _ => false) := by
  induction l with
  | nil => simp
  | cons t l ih =>
    have key : ∀ c : Cur K V, 0 ≤ curI c ∧ curI c ≤ if (match c with | .ins _ _ => true | _ => false) = true then 1 else 0 := by
      intro c
      cases c with
      | ins v pc => simp only [curI, if_true]; unfold insC; split <;> omega
      | _ => simp [curI]
    have key := key t.cur
    simp only [List.map_cons, List.sum_cons, List.countP_cons]
    push_cast
    omega

theorem sum_curE (l : List (Thread K V)) :
    0 ≤ (l.map (fun t => curE t.cur)).sum ∧
    (l.map (fun t => curE t.cur)).sum ≤ l.countP (fun t => match t.cur with | .era _ _ => true | _ => false) := by
  induction l with
  | nil => simp
  | cons t l ih =>
    have key : ∀ c : Cur K V, 0 ≤ curE c ∧ curE c ≤ if (match c with | .era _ _ => true | _ => false) = true then 1 else 0 := by
      intro c
      cases c with
      | era v pc => simp only [curE, if_true]; unfold eraC; split <;> omega
      | _ => simp [curE]
    have key := key t.cur
    simp only [List.map_cons, List.sum_cons, List.countP_cons]
    push_cast
    omega

/-- C94. What any thread observes as `size()` of an unordered container at any moment while threads insert, erase and look up in
any mix (also where C40 shows that the mix goes wrong): the initial elements plus the successful insertions minus the successful
erasures so far, up to the insertions and erasures that are going on. -/
theorem C94_unordered_size (hl : KeyLaws P) (h0 : 0 < bc) (h1 : bc < 2 ^ 63) (hr : PReachable P bc ec t)
    (progs : List (List (Op K V))) (sched : List Nat) :
    let s := uexec P t progs sched
    ((Spec.contents t).length + (insertedVals s).length - (erasedKeys s).length - runningErases s : Int) ≤ size s.shared.tab ∧
    size s.shared.tab ≤ (Spec.contents t).length + (insertedVals s).length + runningInserts s - (erasedKeys s).length := by
  intro s
  have hs := size_of_reachable hl h0 h1 hr
  have hu := u_run P t progs sched
  change s.shared.tab.count = _ + (s.threads.map accI).sum - (s.threads.map accE).sum at hu
  have e1 : (s.threads.map accI).sum = (insertedVals s).length + (s.threads.map (fun t => curI t.cur)).sum := by
    rw [insertedVals_eq]
    induction s.threads with
    | nil => rfl
    | cons a l ih => simp only [List.map_cons, List.sum_cons, ih, accI, List.flatMap_cons, List.length_append]; push_cast; omega
  have e2 : (s.threads.map accE).sum = (erasedKeys s).length + (s.threads.map (fun t => curE t.cur)).sum := by
    rw [erasedKeys_eq]
    induction s.threads with
    | nil => rfl
    | cons a l ih => simp only [List.map_cons, List.sum_cons, ih, accE, List.flatMap_cons, List.length_append]; push_cast; omega
  have c1 : _ ∧ _ ≤ (runningInserts s : Int) := sum_curI s.threads
  have c2 : _ ∧ _ ≤ (runningErases s : Int) := sum_curE s.threads
  unfold size
  omega

/-- C94. If a thread observes `empty()`, then as many erasures have succeeded or are going on as there were elements and successful
insertions. -/
theorem C94_unordered_empty (hl : KeyLaws P) (h0 : 0 < bc) (h1 : bc < 2 ^ 63) (hr : PReachable P bc ec t)
    (progs : List (List (Op K V))) (sched : List Nat) (he : empty (uexec P t progs sched).shared.tab = true) :
    (Spec.contents t).length + (insertedVals (uexec P t progs sched)).length ≤
      (erasedKeys (uexec P t progs sched)).length + runningErases (uexec P t progs sched) := by
  have := (C94_unordered_size hl h0 h1 hr progs sched).1
  have he' : size (uexec P t progs sched).shared.tab = 0 := by simpa [empty] using he
  omega

/-- C94. While threads only insert and look up, a later `size()` is never smaller than an earlier one. -/
theorem C94_unordered_monotone_inserts (P : Params K V) (t : Tab V) (progs : List (List (Op K V))) (hp : NoErase progs)
    (sched later : List Nat) :
    size (uexec P t progs sched).shared.tab ≤ size (uexec P t progs (sched ++ later)).shared.tab := by
  have h0 : ∀ u ∈ (init t progs).threads, Only true u := by
    intro u hu
    obtain ⟨p, hq, rfl⟩ := List.mem_map.1 hu
    refine ⟨fun op ho => ?_, trivial⟩
    cases op with
    | erase k => exact absurd ho (hp p hq k)
    | _ => trivial
  have h1 := (only_run P true _ h0 sched).1
  have h2 := (only_run P true _ h1 later).2
  unfold uexec
  rw [run_append]
  exact h2

/-- C94. While threads only erase and look up, a later `size()` is never larger than an earlier one. -/
theorem C94_unordered_monotone_erases (P : Params K V) (t : Tab V) (progs : List (List (Op K V))) (hp : NoInsert progs)
    (sched later : List Nat) :
    size (uexec P t progs (sched ++ later)).shared.tab ≤ size (uexec P t progs sched).shared.tab := by
  have h0 : ∀ u ∈ (init t progs).threads, Only false u := by
    intro u hu
    obtain ⟨p, hq, rfl⟩ := List.mem_map.1 hu
    refine ⟨fun op ho => ?_, trivial⟩
    cases op with
    | insert k => exact absurd ho (hp p hq k)
    | _ => trivial
  have h1 := (only_run P false _ h0 sched).1
  have h2 := (only_run P false _ h1 later).2
  unfold uexec size
  rw [run_append]
  simpa using h2

end Unordered

section Examples
open Stdgpu.SlotConc

theorem oneVec_holds : Vector.Holds oneVec [7] := by
  refine ⟨by decide, rfl, by decide, by decide, rfl, ?_⟩
  intro p hp
  have : p = 0 := by simp [Vector.cap, oneVec] at hp; exact hp
  subst this; rfl

/-- A pop has taken the position of the only element and has not read it yet: `empty()` is observed, and one pop is going on. -/
example : Vector.empty (vrun oneVec [[.pop ()], [.push () 8]] [0, 0]).shared = true ∧
    running Vector.FPC.check false (vrun oneVec [[.pop ()], [.push () 8]] [0, 0]) = 1 ∧
    1 ≤ running Vector.FPC.check false (vrun oneVec [[.pop ()], [.push () 8]] [0, 0]) := by
  refine ⟨by decide, by decide, ?_⟩
  have := C94_vector_empty oneVec_holds (by decide) [[.pop ()], [.push () 8]] [0, 0] (by decide)
  have h2 : (poppedVals (vrun oneVec [[.pop ()], [.push () 8]] [0, 0])).length = 0 := by decide
  have h3 : failedPops (vrun oneVec [[.pop ()], [.push () 8]] [0, 0]) = 0 := by decide
  simp only [List.length_cons, List.length_nil] at this
  omega

/-- In the middle of the example of C75: `empty()` is observed, where one of the two initial elements has been erased and the erasure of
the other has not returned yet (and an insertion is going on). -/
example : (erasedKeys (uexec exP mixTab mixProgs (mixSched.take 64))).length = 1 ∧
    runningErases (uexec exP mixTab mixProgs (mixSched.take 64)) = 1 ∧
    (Spec.contents mixTab).length + (insertedVals (uexec exP mixTab mixProgs (mixSched.take 64))).length ≤
      (erasedKeys (uexec exP mixTab mixProgs (mixSched.take 64))).length +
        runningErases (uexec exP mixTab mixProgs (mixSched.take 64)) :=
  ⟨by decide +kernel, by decide +kernel, C94_unordered_empty (t := mixTab) (bc := 4) (ec := 4) exP_laws (by decide)
    (by decide) (exTab_reachable _ _ _ _) mixProgs (mixSched.take 64) (by decide +kernel)⟩

/-- Pushes at both ends of a deque: the bounds of `size()` while two of them are going on. -/
example : Deque.size (drun twoDeq [[.push .back 3], [.push .front 4]] [0, 1, 0, 1]).shared = 4 ∧
    running Deque.FPC.check true (drun twoDeq [[.push .back 3], [.push .front 4]] [0, 1, 0, 1]) = 2 := by
  decide +kernel

end Examples

end Stdgpu.Props
