import Verif.Proof.DequeConc2
import Verif.Proof.DequeSides
/-!
C23–C26, C51, C53, C54: `stdgpu::deque`.

`Spec.deqExec` (Spec/Deques.lean) is the bounded double-ended list; `Deque.Holds d l` says that the deque `d` is in a
proper state with contents `l` (front to back). Executions of the concurrent machine are observed as in Props/Vector.
-/
namespace Stdgpu.Props
open Stdgpu.Deque Stdgpu.SlotConc Stdgpu.Conc Stdgpu.Spec
open Stdgpu.Vector (Out clampSize Fault step_cont step_fail step_go slotPush slotPop)

variable {α : Type}

theorem deq_history (c : Nat) (ops : List (DOp α)) : ∀ (ords : Nat → Nat → Nat → List Nat)
    (_ : ∀ j k n, (ords j k n).Perm (List.range n)) (d : Deq α) (l : List α) (_ : Holds d l) (_ : cap d = c)
    (outs : List (Out α)) (l' : List α) (_ : deqExecAll c l ops = some (outs, l')),
    ∃ d', execAll ords d ops = .ok (outs, d') ∧ cap d' = c ∧ Holds d' l' := by
  induction ops with
  | nil =>
    intro ords ho d l h hc outs l' hs
    simp [deqExecAll] at hs
    obtain ⟨rfl, rfl⟩ := hs
    exact ⟨d, rfl, hc, h⟩
  | cons op ops ih =>
    intro ords ho d l h hc outs l' hs
    simp only [deqExecAll, Option.bind_eq_bind, Option.bind_eq_some_iff] at hs
    obtain ⟨⟨o, l1⟩, h1, ⟨os, l2⟩, h2, h3⟩ := hs
    simp at h3
    obtain ⟨rfl, rfl⟩ := h3
    subst hc
    obtain ⟨d1, e1, e2, e3⟩ := exec_refines h (ho 0) op o l1 h1
    obtain ⟨d2, f1, f2, f3⟩ := ih (fun k => ords (k + 1)) (fun k => ho (k + 1)) d1 l1 e3 e2 os l2 h2
    refine ⟨d2, ?_, f2, f3⟩
    simp only [execAll, e1, f1, bind, Except.bind, pure, Except.pure]

/-- C23. Every history of operations (element access only to existing elements) on a newly created deque of any
capacity ≥ 1 runs without undefined behaviour and without hanging and gives exactly the results of the bounded
double-ended list, across any number of wrap-arounds. `valid()` is one of the operations; it is always true. -/
theorem C23_deque_is_bounded_deque (c : Nat) (hc : 0 < c) (ops : List (DOp α)) (ords : Nat → Nat → Nat → List Nat)
    (ho : ∀ j k n, (ords j k n).Perm (List.range n)) (outs : List (Out α)) (l : List α)
    (hs : deqExecAll c [] ops = some (outs, l)) :
    ∃ d, execAll ords (create c) ops = .ok (outs, d) ∧ cap d = c ∧ Holds d l :=
  deq_history c ops ords ho (create c) [] (create_holds c hc) rfl outs l hs

/-- C23: the specification is total apart from element accesses outside the contents. -/
theorem C23_spec_total (c : Nat) (l : List α) (op : DOp α) :
    deqExec c l op = none → (op = .front ∧ l = []) ∨ (op = .back ∧ l = []) ∨
      (∃ n, op = .get n ∧ (n < 0 ∨ (l.length : Int) ≤ n)) := by
  cases op with
  | push side x => cases side <;> simp only [deqExec] <;> split <;> simp
  | pop side => cases side <;> simp [deqExec]
  | get n =>
    simp [deqExec]
    intro h
    by_cases hn : n < 0
    · exact Or.inl hn
    · right; have := h (by omega); omega
  | _ => simp [deqExec]

/-- C23, from any proper state: the four operations at the two ends. -/
theorem C23_push_pop {d : Deq α} {l : List α} (h : Holds d l) (x : α) :
    (∃ d', push .back d x = .ok (decide (l.length < cap d), d') ∧
      Holds d' (if l.length < cap d then l ++ [x] else l)) ∧
    (∃ d', push .front d x = .ok (decide (l.length < cap d), d') ∧
      Holds d' (if l.length < cap d then x :: l else l)) ∧
    (∃ d', pop .back d = .ok (l.getLast?, d') ∧ Holds d' l.dropLast) ∧
    (∃ d', pop .front d = .ok (l.head?, d') ∧ Holds d' l.tail) := by
  refine ⟨?_, ?_, ?_, ?_⟩
  · obtain ⟨d', e1, -, e3⟩ := push_holds h .back x; exact ⟨d', e1, e3⟩
  · obtain ⟨d', e1, -, e3⟩ := push_holds h .front x; exact ⟨d', e1, e3⟩
  · obtain ⟨d', e1, -, e3⟩ := pop_holds h .back; exact ⟨d', e1, e3⟩
  · obtain ⟨d', e1, -, e3⟩ := pop_holds h .front; exact ⟨d', e1, e3⟩

/-- C23: a deque of capacity 0 is empty and full at once; pushes and pops fail and change nothing. -/
theorem C23_capacity_zero (d : Deq α) (h : cap d = 0) (side : Side) (x : α) :
    empty d = true ∧ full d = true ∧ valid d = true ∧ push side d x = .ok (false, d) ∧ pop side d = .ok (none, d) := by
  have hs : size d = 0 := by simp only [size, h, clampSize]; split <;> [rfl; (split <;> simp at * <;> omega)]
  have h1 : empty d = true := by simp [empty, hs]
  have h2 : full d = true := by simp [full, hs, h]
  exact ⟨h1, h2, by simp [valid, h], by simp [push, h2], by simp [pop, h1]⟩

example : deqExecAll 3 [] [.push .back 1, .push .back 2, .pop .front, .push .back 3, .push .back 4, .push .front 5, .full,
      .front, .get 2, .valid] =
    some ([.bool true, .bool true, .pop (some 1), .bool true, .bool true, .bool false, .bool true, .val 2, .val 4,
      .bool true], [2, 3, 4]) := by decide

/-- C23: the sequential push is what the concurrent machine does when one thread runs alone. -/
theorem C23_machine_agrees_push (d d' : Deq α) (side : Side) (x : α) (b : Bool) (h : push side d x = .ok (b, d')) :
    ∃ n t, run (step (dfront (cap d))) (init (dfront (cap d)) d [[.push side x]]) (List.replicate n 0) =
      ⟨d', [t]⟩ ∧ t.todo = [] ∧ t.done = [(.push side x, if b then .pushed else .pushFailed)] := by
  unfold push at h
  by_cases hf : full d = true
  · simp only [hf, if_true, Except.ok.injEq, Prod.mk.injEq] at h
    obtain ⟨rfl, rfl⟩ := h
    have hf' : clampSize (cap d) d.ctr.size = cap d := by simpa [full, size] using hf
    refine ⟨1, ⟨[], .front .check, [(.push side x, .pushFailed)]⟩, ?_, rfl, rfl⟩
    simp [List.replicate, run, stepAt, init, step, dfront, Op.isPush, hf', failRes]
  · simp only [Bool.not_eq_true] at hf
    simp only [hf, Bool.false_eq_true, if_false] at h
    have hf' : ¬ clampSize (cap d) d.ctr.size = cap d := by simpa [full, size] using hf
    by_cases hp : d.ctr.size < cap d
    · obtain ⟨r, hr⟩ : ∃ r, r = position (cap d) { d.ctr with size := d.ctr.size + 1 } true side := ⟨_, rfl⟩
      simp only [if_pos hp, slotPush, ← hr] at h
      by_cases h1 : d.slots.cap ≤ r.1
      · simp [h1, bind, Except.bind] at h
      · by_cases h2 : d.slots.locks r.1 = true
        · simp [h1, h2, bind, Except.bind] at h
        · by_cases h3 : d.slots.occ r.1 = true
          · simp [h1, h2, h3, bind, Except.bind] at h
          · by_cases h4 : (d.slots.data r.1).isSome = true
            · simp [h1, h2, h3, h4, bind, Except.bind] at h
            · simp [h1, h2, h3, h4, bind, Except.bind, pure, Except.pure] at h
              obtain ⟨rfl, rfl⟩ := h
              have hl : upd (upd d.slots.locks r.1 true) r.1 false = d.slots.locks := by
                funext q; unfold upd; by_cases hq : q = r.1
                · subst hq; simpa using h2
                · simp [hq]
              refine ⟨8, ⟨[], .front .check, [(.push side x, .pushed)]⟩, ?_, rfl, rfl⟩
              simp only [Bool.not_eq_true] at h2 h3 h4
              simp [List.replicate, run, stepAt, init, step, dfront, Op.isPush, Op.kind, hf', hp, ← hr, slotStep, h1, h2,
                h3, h4, hl]
    · simp [if_neg hp] at h
      obtain ⟨rfl, rfl⟩ := h
      refine ⟨2, ⟨[], .front .check, [(.push side x, .pushFailed)]⟩, ?_, rfl, rfl⟩
      simp [List.replicate, run, stepAt, init, step, dfront, Op.isPush, hf', if_neg hp, failRes]

/-- C23: the same for the pops. -/
theorem C23_machine_agrees_pop (d d' : Deq α) (side : Side) (r : Option α) (h : pop side d = .ok (r, d')) :
    ∃ n t, run (step (dfront (cap d))) (init (dfront (cap d)) d [[.pop side]]) (List.replicate n 0) =
      ⟨d', [t]⟩ ∧ t.todo = [] ∧
      t.done = [(.pop side, match r with | some x => .popped x | none => .popFailed)] := by
  unfold pop at h
  by_cases hf : empty d = true
  · simp only [hf, if_true, Except.ok.injEq, Prod.mk.injEq] at h
    obtain ⟨rfl, rfl⟩ := h
    have hf' : clampSize (cap d) d.ctr.size = 0 := by simpa [empty, size] using hf
    refine ⟨1, ⟨[], .front .check, [(.pop side, .popFailed)]⟩, ?_, rfl, rfl⟩
    simp [List.replicate, run, stepAt, init, step, dfront, Op.isPush, hf', failRes]
  · simp only [Bool.not_eq_true] at hf
    simp only [hf, Bool.false_eq_true, if_false] at h
    have hf' : ¬ clampSize (cap d) d.ctr.size = 0 := by simpa [empty, size] using hf
    by_cases hp : d.ctr.size > 0
    · obtain ⟨p, hr⟩ : ∃ p, p = position (cap d) { d.ctr with size := d.ctr.size - 1 } false side := ⟨_, rfl⟩
      simp only [if_pos hp, slotPop, ← hr] at h
      by_cases h1 : d.slots.cap ≤ p.1
      · simp [h1, bind, Except.bind] at h
      · by_cases h2 : d.slots.locks p.1 = true
        · simp [h1, h2, bind, Except.bind] at h
        · by_cases h3 : d.slots.occ p.1 = false
          · simp [h1, h2, h3, bind, Except.bind] at h
          · cases h4 : d.slots.data p.1 with
            | none => simp [h1, h2, h3, h4, bind, Except.bind] at h
            | some x =>
              simp [h1, h2, h3, h4, bind, Except.bind, pure, Except.pure] at h
              obtain ⟨rfl, rfl⟩ := h
              have hl : upd (upd d.slots.locks p.1 true) p.1 false = d.slots.locks := by
                funext q; unfold upd; by_cases hq : q = p.1
                · subst hq; simpa using h2
                · simp [hq]
              refine ⟨9, ⟨[], .front .check, [(.pop side, .popped x)]⟩, ?_, rfl, rfl⟩
              simp only [Bool.not_eq_true, Bool.not_eq_false] at h2 h3
              have hp' : 0 < d.ctr.size := hp
              simp [List.replicate, run, stepAt, init, step, dfront, Op.isPush, Op.kind, hf', hp', ← hr, slotStep, h1, h2,
                h3, h4, hl]
    · simp only [if_neg hp, Except.ok.injEq, Prod.mk.injEq] at h
      obtain ⟨rfl, rfl⟩ := h
      have hp' : ¬ 0 < d.ctr.size := hp
      refine ⟨2, ⟨[], .front .check, [(.pop side, .popFailed)]⟩, ?_, rfl, rfl⟩
      simp [List.replicate, run, stepAt, init, step, dfront, Op.isPush, hf', hp', failRes]

/-- C24. In every proper state (contiguous, wrapped, full or empty) `device_range()` shows each element exactly once
and nothing else; while the ring has not wrapped it is in front-to-back order. `clear()`, in every order in which the
parallel loops process the elements, destroys each live object exactly once (a second destruction or one of raw
storage would be an error), leaves raw storage everywhere and an empty valid deque. -/
theorem C24_device_range_and_clear {d : Deq α} {l : List α} (h : Holds d l) (ord : Nat → Nat → List Nat)
    (ho : ∀ k n, (ord k n).Perm (List.range n)) :
    (deviceRange d).Perm (l.map some) ∧
    (d.ctr.begin + l.length < cap d → deviceRange d = l.map some) ∧
    (∃ d', clear ord d = .ok d' ∧ Holds d' [] ∧ valid d' = true ∧ cap d' = cap d ∧
      ∀ q, q < cap d → d'.slots.data q = none) := by
  refine ⟨deviceRange_perm h, deviceRange_unwrapped h, ?_⟩
  obtain ⟨d', e1, e2, e3, e4⟩ := clear_holds h ho
  exact ⟨d', e1, e3, valid_of_holds e3, e2, e4⟩

/-- C24: once wrapped the order of `device_range()` is not front-to-back. -/
theorem C24_wrapped_order : ∃ d : Deq Nat, Holds d [2, 3, 4] ∧ deviceRange d = [some 4, some 2, some 3] := by
  refine ⟨{ slots := { cap := 3, locks := fun _ => false, occ := fun p => decide (p < 3),
                       data := fun p => if p = 0 then some 4 else if p = 1 then some 2 else if p = 2 then some 3
                         else none, err := false }, ctr := ⟨3, 1, 1⟩ }, ?_, by decide⟩
  refine ⟨by decide, by decide, by decide, by decide, by decide, by simp, ?_, rfl, ?_⟩
  · intro q hq; simp only [cap] at hq
    rcases (by omega : q = 0 ∨ q = 1 ∨ q = 2) with rfl | rfl | rfl <;> decide
  · intro q hq; simp only [cap] at hq
    rcases (by omega : q = 0 ∨ q = 1 ∨ q = 2) with rfl | rfl | rfl <;> decide

/-! ### C51 -/

/-- C51 (the part that holds): `operator[](n)` with `n < size()` is the live element number `n` from the front. -/
theorem C51_element_access {d : Deq α} {l : List α} (h : Holds d l) (n : Nat) (hn : n < l.length) :
    Deque.get d n = some l[n] := by
  rw [get_holds h n hn, List.getElem?_eq_getElem hn]

/-- C51 (partial): what the debug check of `at(n)` accepts is `n < size()` only if moreover the raw slot `n` happens to
be occupied. It never accepts an `n` outside the contents. -/
theorem C51_check_partial {d : Deq α} {l : List α} (h : Holds d l) (n : Int) :
    atPre d n = true ↔ 0 ≤ n ∧ n < l.length ∧ ringIdx (cap d) d.ctr.begin n.toNat < l.length := by
  have hlen := h.len
  unfold atPre
  rw [size_eq h]
  constructor
  · intro hh
    simp only [Bool.and_eq_true, decide_eq_true_eq] at hh
    obtain ⟨⟨h1, h2⟩, h3⟩ := hh
    rw [h.occ _ (by omega)] at h3
    exact ⟨h1, h2, by simpa using h3⟩
  · rintro ⟨h1, h2, h3⟩
    simp only [Bool.and_eq_true, decide_eq_true_eq]
    exact ⟨⟨h1, h2⟩, by rw [h.occ _ (by omega)]; simpa using h3⟩

/-- C51 is false: after `push_back`, `push_back`, `pop_front` on capacity 2 the deque has one element, `operator[](0)`
is that element, but the check of `at(0)` rejects the access. -/
theorem C51_counterexample : ∃ d : Deq Nat, execAll (fun _ _ n => List.range n) (create 2)
      [.push .back 7, .push .back 8, .pop .front] = .ok ([.bool true, .bool true, .pop (some 7)], d) ∧
    Holds d [8] ∧ Deque.get d 0 = some 8 ∧ atPre d 0 = false := by
  obtain ⟨d, e1, e2, e3⟩ := C23_deque_is_bounded_deque 2 (by omega) [.push .back 7, .push .back 8, .pop .front]
    (fun _ _ n => List.range n) (fun _ _ n => List.Perm.refl _) [.bool true, .bool true, .pop (some 7)] [8] (by decide)
  refine ⟨d, e1, e3, C51_element_access e3 0 (by simp), ?_⟩
  have hb : d.ctr.begin = 1 := by
    have : (execAll (fun _ _ n => List.range n) (create 2)
      [.push .back 7, .push .back 8, .pop .front] : Except Fault (List (Out Nat) × Deq Nat)).map (fun r => r.2.ctr.begin)
        = .ok 1 := by decide
    rw [e1] at this
    simpa [Except.map] using this
  cases hc : atPre d 0 with
  | false => rfl
  | true =>
    have := (C51_check_partial e3 0).1 hc
    rw [hb, e2] at this
    simp [ringIdx] at this

/-! ### Concurrent use -/

/-- The concurrent execution of `programs` (one list of operations per thread) on the deque `d`. -/
abbrev drun (d : Deq α) (programs : List (List (Op Side α))) (sched : List Nat) : DSys α :=
  run (step (dfront (cap d))) (init (dfront (cap d)) d programs) sched

theorem dinv_run {d : Deq α} {l : List α} (h : Holds d l) (programs : List (List (Op Side α))) (sched : List Nat) :
    DInv (cap d) (l : Multiset α) programs (drun d programs sched) := by
  refine run_inv (DInv (cap d) (l : Multiset α) programs) (fun s i t hs ht => dinv_step s i t hs ht) _ ?_ sched
  have hr := dring_init h programs
  refine ⟨⟨_, hr.v⟩, hr.begin, ?_⟩
  rw [hr.endd]; exact Nat.mod_lt _ h.pos

/-- C25. For every initial contents, all programs mixing the four operations and every schedule (also those near the
boundaries): nothing undefined ever happens (no construction over a live object, no read or destruction of raw storage,
no index outside the array); threads execute their programs in order, each operation once; and in every state in which
no operation is between its counter updates and its return, initial elements plus successfully pushed values are
exactly the stored objects plus the successfully popped values (as multisets), the occupied bits mark exactly the live
objects, and no mutex is held. -/
theorem C25_conservation {d : Deq α} {l : List α} (h : Holds d l) (programs : List (List (Op Side α)))
    (sched : List Nat) :
    let s := drun d programs sched
    s.shared.slots.err = false ∧
    (∀ (i : Nat) (t : DThread α), s.threads[i]? = some t → programs[i]? = some (t.done.map (·.1) ++ t.todo)) ∧
    ((∀ t ∈ s.threads, ∃ f, t.pc = .front f) →
      (l ++ pushedVals s).Perm (liveIn s.shared.slots.data 0 (cap d) ++ poppedVals s) ∧
      (∀ p, p < cap d → (s.shared.slots.data p).isSome = s.shared.slots.occ p) ∧
      (∀ p, p < cap d → s.shared.slots.locks p = false)) := by
  intro s
  obtain ⟨⟨tick, hi⟩, -, -⟩ := dinv_run h programs sched
  refine ⟨hi.err, hi.prog, fun hq => ⟨?_, fun p hp => quiet_live hi hq p hp, fun p hp => quiet_locks hi hq p hp⟩⟩
  have := quiet_cons hi hq
  rw [Multiset.coe_add, Multiset.coe_add] at this
  exact Multiset.coe_eq_coe.1 this

theorem remS_init (programs : List (List (Op Side α))) (c : Nat) (d : Deq α) (b : Bool) :
    ((init (dfront c) d programs).threads.map (remS b)).sum = programs.flatten.countP (fun op => op.isPush == b) := by
  simp only [init]
  induction programs with
  | nil => rfl
  | cons p ps ih =>
    simp only [List.map_cons, List.sum_cons, List.flatten_cons, List.countP_append]
    rw [ih]; rfl

theorem midN_init (programs : List (List (Op Side α))) (c : Nat) (d : Deq α) (b : Bool) :
    ((init (dfront c) d programs).threads.map (midN b)).sum = 0 := by
  rw [sum_map_eq_zero]
  intro t ht
  simp [init] at ht
  obtain ⟨p, -, rfl⟩ := ht
  rfl

theorem room_run {d : Deq α} {l : List α} (h : Holds d l) (programs : List (List (Op Side α)))
    (hpush : l.length + programs.flatten.countP (fun op => op.isPush) ≤ cap d)
    (hpop : programs.flatten.countP (fun op => !op.isPush) ≤ l.length) (sched : List Nat) :
    ∃ n, RoomInv (cap d) (l : Multiset α) programs n (drun d programs sched) := by
  refine run_inv (fun s => ∃ n, RoomInv (cap d) (l : Multiset α) programs n s)
    (fun s i t ⟨n, hs⟩ ht => roomInv_step n s i t hs ht) _ ?_ sched
  have e1 : programs.flatten.countP (fun op => op.isPush == true) = programs.flatten.countP (fun op => op.isPush) := by
    congr 1; funext op; cases op.isPush <;> rfl
  have e2 : programs.flatten.countP (fun op => op.isPush == false) =
      programs.flatten.countP (fun op => !op.isPush) := by
    congr 1; funext op; cases op.isPush <;> rfl
  refine ⟨l.length, dring_init h programs, ?_, ?_, ?_, ?_⟩
  · rw [remS_init, midN_init, e1]; omega
  · rw [remS_init, midN_init, e2]; omega
  · rw [midN_init, midN_init]; simp [init, h.size]
  · simp [init]

/-- C26 (partial: only for programs that cannot cross a boundary). If the number of pushes does not exceed the free
space and the number of pops does not exceed the initial size, then in every schedule no operation fails; from every
reachable state some continuation finishes everything (no deadlock); and when all have finished the deque is in a
proper state (so `valid()` is true, `size()` is the number of elements and C23/C24 apply to everything done
afterwards) holding initial plus pushed minus popped elements. -/
theorem C26_usable_after_concurrent_use_partial {d : Deq α} {l : List α} (h : Holds d l)
    (programs : List (List (Op Side α)))
    (hpush : l.length + programs.flatten.countP (fun op => op.isPush) ≤ cap d)
    (hpop : programs.flatten.countP (fun op => !op.isPush) ≤ l.length) (sched : List Nat) :
    let s := drun d programs sched
    (∀ e ∈ results s, e.2 ≠ .pushFailed ∧ e.2 ≠ .popFailed) ∧
    (∃ sched', Finished (drun d programs (sched ++ sched'))) ∧
    (Finished s → valid s.shared = true ∧
      ∃ l', Holds s.shared l' ∧ (l ++ pushedVals s).Perm (l' ++ poppedVals s)) := by
  intro s
  obtain ⟨n, hi⟩ := room_run h programs hpush hpop sched
  refine ⟨?_, ?_, fun hf => ?_⟩
  · intro e he
    obtain ⟨t, ht, he⟩ := mem_results.1 he
    exact hi.ok t ht e he
  · obtain ⟨sched', hs⟩ := can_finish (dfront (cap d)) (fun f => match f with | .check => 2 | .size => 1 | .pos => 0) (by
        intro c b k f c' f' e
        rcases dfront_cases (cap d) c b k f with ⟨h1, e'⟩ | ⟨h1, e', -⟩ | ⟨h1, -, -, e'⟩ | ⟨h1, -, -, e'⟩ |
          ⟨h1, -, -, e'⟩ | ⟨h1, -, -, e'⟩ | ⟨h1, e'⟩ <;> rw [e] at e' <;> simp at e' <;> rw [h1, e'.2] <;> simp)
      (fun s => ∃ n, RoomInv (cap d) (l : Multiset α) programs n s)
      (fun s i t ⟨n, hs⟩ ht => roomInv_step n s i t hs ht)
      (fun s ⟨n, hs⟩ => ⟨_, hs.r.v, fun p _ => by unfold rtick; split <;> simp⟩) _ ⟨n, hi⟩
    refine ⟨sched', ?_⟩
    unfold drun
    rw [run_append]
    exact hs
  · have hq := quiet_of_finished hi.r.v hf
    have hz : ∀ b, (s.threads.map (midN b)).sum = 0 := by
      intro b; rw [sum_map_eq_zero]; intro t ht; simp [midN, hf t ht]
    have hsz := hi.sz
    rw [hz, hz] at hsz
    obtain ⟨l', h1, h2⟩ := holds_final hi.r hq (by simpa using hsz)
    refine ⟨valid_of_holds h1, l', h1, ?_⟩
    rw [Multiset.coe_add, Multiset.coe_add] at h2
    exact Multiset.coe_eq_coe.1 h2

/-- C26: the hypotheses are met, e.g., by two threads that each pop and push on a half-full deque. -/
example : ∃ d : Deq Nat, Holds d [1, 2] ∧ cap d = 4 ∧
    let programs : List (List (Op Side Nat)) := [[.pop .front, .push .back 5], [.pop .back, .push .front 6]]
    [1, 2].length + programs.flatten.countP (fun op => op.isPush) ≤ cap d ∧
    programs.flatten.countP (fun op => !op.isPush) ≤ [1, 2].length := by
  obtain ⟨d, -, h2, h3⟩ := C23_deque_is_bounded_deque 4 (by omega) [.push .back 1, .push .back 2]
    (fun _ _ n => List.range n) (fun _ _ n => List.Perm.refl _) [.bool true, .bool true] [1, 2] (by decide)
  exact ⟨d, h3, h2, by rw [h2]; decide⟩

theorem pushInv_start {d : Deq α} {l : List α} (h : Holds d l) (programs : List (List (Op Side α))) :
    PushInv (cap d) d.ctr.begin l programs l.length 0 (init (dfront (cap d)) d programs) := by
  have hs := h.size
  have hl := h.len
  refine ⟨dring_init h programs, by simp only [init]; omega, ?_, by omega, by simp [init, backBy], ?_, ?_, ?_, ?_⟩
  · rw [midN_init]
    show (l.length : Int) + ((0 : Nat) : Int) = if d.ctr.size ≤ (cap d : Int) then d.ctr.size else cap d
    rw [if_pos (by omega)]; omega
  · simp [init]
  · simp [init]
  · intro q hq _; exact h.data q hq
  · simp [init]

theorem popInv_start {d : Deq α} {l : List α} (h : Holds d l) (programs : List (List (Op Side α))) :
    PopInv (cap d) d.ctr.begin l programs l.length 0 (init (dfront (cap d)) d programs) := by
  have hs := h.size
  have hl := h.len
  have hb := h.begin
  refine ⟨dring_init h programs, ?_, by omega, ?_, ?_, ?_, ?_, ?_⟩
  · rw [midN_init]
    show (l.length : Int) - ((0 : Nat) : Int) = if 0 ≤ d.ctr.size then d.ctr.size else 0
    rw [if_pos (by omega)]; omega
  · simp only [init, fwdBy, Nat.add_zero]; rw [if_pos hb]
  · simp [init]
  · simp [init]
  · intro q hq _ _; exact h.data q hq
  · simp [init]

theorem filterMap_tag {α τ : Type} (s : DSys (α × τ)) (g : ∀ {β : Type}, Op Side β × Res β → Option β)
    (hg : ∀ e : Op Side (α × τ) × Res (α × τ), g (e.1.map Prod.fst, e.2.map Prod.fst) = (g e).map Prod.fst)
    (c : Side → Prop) [DecidablePred c] :
    (results (mapSys Prod.fst s)).filterMap (fun e => if c e.1.kind then g e else none) =
      ((results s).filterMap (fun e => if c e.1.kind then g e else none)).map Prod.fst := by
  rw [results_map, List.filterMap_map, List.map_filterMap]
  congr 1
  funext e
  simp only [Function.comp_def, kind_map, hg]
  split <;> rfl

theorem pushVal_tag {α τ : Type} (e : Op Side (α × τ) × Res (α × τ)) :
    pushVal (e.1.map Prod.fst, e.2.map Prod.fst) = (pushVal e).map Prod.fst := by
  obtain ⟨op, r⟩ := e; cases op <;> cases r <;> rfl

theorem popVal_tag {α τ : Type} (e : Op Side (α × τ) × Res (α × τ)) :
    popVal (e.1.map Prod.fst, e.2.map Prod.fst) = (popVal e).map Prod.fst := by
  obtain ⟨op, r⟩ := e; cases op <;> cases r <;> rfl

/-- The value with the side at which it is pushed. -/
def tagOp : Op Side α → Op Side (α × Side)
  | .push k x => .push k (x, k)
  | .pop k => .pop k

/-- The same pop, of values with an index. -/
def idxOp : Op Side α → Op Side (α × Nat)
  | .push k x => .push k (x, 0)
  | .pop k => .pop k

/-- C53. Concurrent pushes only (both ends, any number of threads), from contents `l`: when all finished, exactly
`min (number of pushes) (capacity - size)` returned true; the deque holds the old elements in their order, preceded by the
values that were successfully pushed at the front and followed by those pushed at the back, each once; occupied bits and
`size()` agree; nothing undefined happened. -/
theorem C53_concurrent_push {d : Deq α} {l : List α} (h : Holds d l) (programs : List (List (Op Side α)))
    (hp : ∀ p ∈ programs, ∀ op ∈ p, op.isPush = true) (sched : List Nat) :
    let s := drun d programs sched
    Finished s →
    (pushedVals s).length = min programs.flatten.length (cap d - l.length) ∧
    s.shared.slots.err = false ∧
    ∃ lf lb, lf.Perm (pushedAt .front s) ∧ lb.Perm (pushedAt .back s) ∧
      (∀ q, q < cap d → s.shared.slots.data q = (lf ++ l ++ lb)[ringIdx (cap d) s.shared.ctr.begin q]?) ∧
      (∀ q, q < cap d → s.shared.slots.occ q =
        decide (ringIdx (cap d) s.shared.ctr.begin q < (lf ++ l ++ lb).length)) ∧
      size s.shared = (lf ++ l ++ lb).length := by
  intro s hf
  obtain ⟨d', h', e1, e2, e3⟩ := holds_tag h (l.map (·, Side.front)) (by simp [Function.comp_def]) Side.front
  have hps : programs = (programs.map (·.map tagOp)).map (·.map (Op.map Prod.fst)) := by
    have e : (fun p : List (Op Side α) => (p.map tagOp).map (Op.map Prod.fst)) = id := by
      funext p; rw [List.map_map]
      have : Op.map Prod.fst ∘ tagOp = (id : Op Side α → Op Side α) := by funext op; cases op <;> rfl
      rw [this, List.map_id]; rfl
    rw [List.map_map, show ((fun p : List (Op Side (α × Side)) => p.map (Op.map Prod.fst)) ∘ fun p => p.map tagOp) = id from e,
      List.map_id]
  have hs : s = mapSys Prod.fst (drun d' (programs.map (·.map tagOp)) sched) := by
    unfold drun
    rw [← run_map, init_map, e1, e2, ← hps]
  have hp' : ∀ p ∈ programs.map (·.map (tagOp (α := α))), ∀ op ∈ p, op.isPush = true := by
    intro p hpm op ho
    obtain ⟨p0, h1, rfl⟩ := List.mem_map.1 hpm
    obtain ⟨o, h2, rfl⟩ := List.mem_map.1 ho
    have := hp p0 h1 o h2
    cases o
    · rfl
    · simp [Op.isPush] at this
  have hT : ∀ p ∈ programs.map (·.map (tagOp (α := α))), ∀ k x, Op.push k x ∈ p → x.2 = k := by
    intro p hpm k x ho
    obtain ⟨p0, h1, rfl⟩ := List.mem_map.1 hpm
    obtain ⟨o, h2, e⟩ := List.mem_map.1 ho
    cases o <;> simp [tagOp] at e
    rw [← e.2]; exact e.1
  obtain ⟨n, f, hi⟩ : ∃ n f, PushTag (fun x => x.2) (cap d') d'.ctr.begin (l.map (·, Side.front))
      (programs.map (·.map tagOp)) n f (drun d' (programs.map (·.map tagOp)) sched) := by
    refine run_inv (fun s => ∃ n f, PushTag (fun x => x.2) (cap d') d'.ctr.begin (l.map (·, Side.front))
      (programs.map (·.map tagOp)) n f s) (fun s i t hs ht => pushTag_step h'.begin hp' hT s i t hs ht) _ ?_ sched
    refine ⟨_, 0, pushInv_start h' _, ?_⟩
    intro q hq hl v hv
    replace hv : d'.slots.data q = some v := hv
    rw [h'.data q hq, List.getElem?_eq_none hl] at hv
    simp at hv
  generalize drun d' (programs.map (·.map tagOp)) sched = s' at hi hs
  rw [hs, finished_map] at hf
  obtain ⟨h1, lf, lb, h2, h3, h4, h5, h6⟩ := pushTag_final h'.begin hp' hT hi hf
  rw [hs]
  have hlen : (List.map (fun x => (x, Side.front)) l).length = l.length := List.length_map _
  have hlen2 : (lf.map Prod.fst ++ l ++ lb.map Prod.fst).length = (lf ++ l.map (·, Side.front) ++ lb).length := by simp
  rw [e2] at h4 h5 h6
  refine ⟨?_, hi.inv.r.v.err, lf.map Prod.fst, lb.map Prod.fst, ?_, ?_, ?_, ?_, ?_⟩
  · have : (pushedVals (mapSys Prod.fst s')).length = (pushedVals s').length := by
      have := filterMap_tag s' (fun {β} => pushVal) pushVal_tag (fun _ => True)
      simp only [if_true] at this
      unfold pushedVals
      rw [this, List.length_map]
    rw [this, h1, hlen, e2]
    congr 1
    simp only [List.length_flatten, List.map_map]
    congr 2; funext p; simp
  · unfold pushedAt
    rw [filterMap_tag s' (fun {β} => pushVal) pushVal_tag (fun k => k = .front)]
    refine (h2.map _).trans (List.Perm.of_eq ?_)
    congr 2; funext e; cases e.1.kind <;> simp [Side.isFront]
  · unfold pushedAt
    rw [filterMap_tag s' (fun {β} => pushVal) pushVal_tag (fun k => k = .back)]
    refine (h3.map _).trans (List.Perm.of_eq ?_)
    congr 2; funext e; cases e.1.kind <;> simp [Side.isFront]
  · intro q hq
    show (s'.shared.slots.data q).map Prod.fst = _
    rw [h4 q hq, ← List.getElem?_map]
    simp [List.map_append, Function.comp_def, mapSys, Mem.map]
  · intro q hq
    rw [hlen2]
    exact h5 q hq
  · rw [hlen2]
    unfold size
    have : cap (mapSys Prod.fst s').shared = cap d := by
      have : s'.shared.slots.cap = cap d' := hi.inv.r.v.hcap
      rw [← e2]; exact this
    rw [this]; exact h6

/-- C54. Concurrent pops only, from contents `l`: when all finished, exactly `min (number of pops) (size)` returned a
value; the values popped at the front are a number of first elements and the values popped at the back a number of last
elements, each once; the elements between remain, in order. -/
theorem C54_concurrent_pop {d : Deq α} {l : List α} (h : Holds d l) (programs : List (List (Op Side α)))
    (hp : ∀ p ∈ programs, ∀ op ∈ p, op.isPush = false) (sched : List Nat) :
    let s := drun d programs sched
    Finished s →
    (poppedVals s).length = min programs.flatten.length l.length ∧
    s.shared.slots.err = false ∧
    ∃ lf l' lb, l = lf ++ l' ++ lb ∧ lf.Perm (poppedAt .front s) ∧ lb.Perm (poppedAt .back s) ∧
      (∀ q, q < cap d → s.shared.slots.data q = l'[ringIdx (cap d) s.shared.ctr.begin q]?) ∧
      (∀ q, q < cap d → s.shared.slots.occ q = decide (ringIdx (cap d) s.shared.ctr.begin q < l'.length)) ∧
      size s.shared = l'.length := by
  intro s hf
  have hz : l.zipIdx.map Prod.fst = l := by simp
  obtain ⟨d', h', e1, e2, e3⟩ := holds_tag h l.zipIdx hz 0
  have hps : programs = (programs.map (·.map idxOp)).map (·.map (Op.map Prod.fst)) := by
    have e : (fun p : List (Op Side α) => (p.map idxOp).map (Op.map Prod.fst)) = id := by
      funext p; rw [List.map_map]
      have : Op.map Prod.fst ∘ idxOp = (id : Op Side α → Op Side α) := by funext op; cases op <;> rfl
      rw [this, List.map_id]; rfl
    rw [List.map_map, show ((fun p : List (Op Side (α × Nat)) => p.map (Op.map Prod.fst)) ∘ fun p => p.map idxOp) = id from e,
      List.map_id]
  have hs : s = mapSys Prod.fst (drun d' (programs.map (·.map idxOp)) sched) := by
    unfold drun
    rw [← run_map, init_map, e1, e2, ← hps]
  have hp' : ∀ p ∈ programs.map (·.map (idxOp (α := α))), ∀ op ∈ p, op.isPush = false := by
    intro p hpm op ho
    obtain ⟨p0, h1, rfl⟩ := List.mem_map.1 hpm
    obtain ⟨o, h2, rfl⟩ := List.mem_map.1 ho
    have := hp p0 h1 o h2
    cases o
    · simp [Op.isPush] at this
    · rfl
  obtain ⟨n, f, hi⟩ : ∃ n f, PopTag (cap d') d'.ctr.begin l.zipIdx
      (programs.map (·.map idxOp)) n f (drun d' (programs.map (·.map idxOp)) sched) := by
    refine run_inv (fun s => ∃ n f, PopTag (cap d') d'.ctr.begin l.zipIdx
      (programs.map (·.map idxOp)) n f s) (fun s i t hs ht => popTag_step h'.begin h'.len hp' s i t hs ht) _ ?_ sched
    refine ⟨_, 0, popInv_start h' _, ?_, ?_, ?_⟩
    · intro q hq v hv
      replace hv : d'.slots.data q = some v := hv
      rw [← h'.data q hq]; exact hv
    · simp [init]
    · simp [init]
  generalize drun d' (programs.map (·.map idxOp)) sched = s' at hi hs
  rw [hs, finished_map] at hf
  obtain ⟨h1, lf, lm, lb, h0, h2, h3, h4, h5, h6⟩ := popTag_final (ix := Prod.snd) (fun j v hv => by
    rw [List.getElem?_zipIdx] at hv
    cases hl : l[j]? with
    | none => simp [hl] at hv
    | some x => simp [hl] at hv; rw [← hv]) h'.begin h'.len hp' hi hf
  rw [hs]
  rw [e2] at h4 h5 h6
  refine ⟨?_, hi.inv.r.v.err, lf.map Prod.fst, lm.map Prod.fst, lb.map Prod.fst, ?_, ?_, ?_, ?_, ?_, ?_⟩
  · have : (poppedVals (mapSys Prod.fst s')).length = (poppedVals s').length := by
      have := filterMap_tag s' (fun {β} => popVal) popVal_tag (fun _ => True)
      simp only [if_true] at this
      unfold poppedVals
      rw [this, List.length_map]
    rw [this, h1, List.length_zipIdx]
    congr 1
    simp only [List.length_flatten, List.map_map]
    congr 2; funext p; simp
  · rw [← List.map_append, ← List.map_append, ← h0, hz]
  · unfold poppedAt
    rw [filterMap_tag s' (fun {β} => popVal) popVal_tag (fun k => k = .front)]
    refine (h2.map _).trans (List.Perm.of_eq ?_)
    congr 2; funext e; cases e.1.kind <;> simp [Side.isFront]
  · unfold poppedAt
    rw [filterMap_tag s' (fun {β} => popVal) popVal_tag (fun k => k = .back)]
    refine (h3.map _).trans (List.Perm.of_eq ?_)
    congr 2; funext e; cases e.1.kind <;> simp [Side.isFront]
  · intro q hq
    show (s'.shared.slots.data q).map Prod.fst = _
    rw [h4 q hq, ← List.getElem?_map]
    rfl
  · intro q hq
    rw [List.length_map]
    exact h5 q hq
  · rw [List.length_map]
    unfold size
    have : cap (mapSys Prod.fst s').shared = cap d := by
      have : s'.shared.slots.cap = cap d' := hi.inv.r.v.hcap
      rw [← e2]; exact this
    rw [this]; exact h6

/-- C53 / C54 are not vacuous: finished executions with failing operations. -/
example : (drun (create 2 : Deq Nat) [[.push .back 1, .push .front 2], [.push .back 3]]
      ((List.range 40).map (· % 2))).threads.map (fun t => (t.todo, t.done)) =
    [([], [(.push .back 1, .pushed), (.push .front 2, .pushFailed)]), ([], [(.push .back 3, .pushed)])] := by decide

/-! ### C26: counterexamples -/

/-- A single popping thread that can never leave the loop. -/
def Stuck (d : Deq α) (side : Side) (s : DSys α) : Prop :=
  ∃ t, s.threads = [t] ∧ t.todo = [.pop side] ∧
    ((s.shared = d ∧ (t.pc = .front .check ∨ t.pc = .front .size)) ∨
     (s.shared = { d with ctr := { d.ctr with size := d.ctr.size - 1 } } ∧ t.pc = .front .pos) ∨
     (∃ p, p < s.shared.slots.cap ∧ t.pc = .slot p .tryLock ∧ (s.shared.slots.locks p = true ∨ s.shared.slots.occ p = false)) ∨
     (∃ p, s.shared.slots.occ p = false ∧ (t.pc = .slot p .check ∨ t.pc = .slot p .unlockRetry) ∧ p < s.shared.slots.cap))

/-- What `Fault.hang` means: a thread that runs the operation alone never returns. -/
theorem C26_hang_is_nontermination (d : Deq α) (side : Side) (h : pop side d = .error .hang) (sched : List Nat) :
    ¬ Finished (drun d [[.pop side]] sched) := by
  unfold pop at h
  have he : empty d = false := by
    cases hh : empty d with
    | false => rfl
    | true => simp [hh] at h
  simp only [he, Bool.false_eq_true, if_false] at h
  have hp : d.ctr.size > 0 := by
    by_contra hh; simp [hh] at h
  simp only [if_pos hp] at h
  obtain ⟨r, hr⟩ : ∃ r, r = position (cap d) { d.ctr with size := d.ctr.size - 1 } false side := ⟨_, rfl⟩
  rw [← hr] at h
  have hcap : ¬ d.slots.cap ≤ r.1 := by
    intro hh; simp [slotPop, hh, bind, Except.bind] at h
  have hslot : d.slots.locks r.1 = true ∨ d.slots.occ r.1 = false := by
    by_contra hh
    simp only [not_or, Bool.not_eq_true, Bool.not_eq_false] at hh
    simp only [slotPop, hcap, hh.1, hh.2, bind, Except.bind] at h
    cases hd : d.slots.data r.1 <;> simp [hd, pure, Except.pure] at h
  have hf' : ¬ clampSize (cap d) d.ctr.size = 0 := by simpa [empty, size] using he
  have hst : Stuck d side (drun d [[.pop side]] sched) := by
    refine run_inv (Stuck d side) ?_ _ ?_ sched
    · rintro s i t ⟨t', h1, h2, h3⟩ ht
      have hi : i = 0 ∧ t = t' := by
        rw [h1] at ht
        cases i with
        | zero => simp at ht; exact ⟨rfl, ht.symm⟩
        | succ i => simp at ht
      obtain ⟨rfl, rfl⟩ := hi
      obtain ⟨todo, pc, done⟩ := t
      simp only at h2 h3
      subst h2
      rcases h3 with ⟨h3, rfl | rfl⟩ | ⟨h3, rfl⟩ | ⟨p, h3, rfl, h4⟩ | ⟨p, h3, rfl | rfl, h4⟩
      · refine ⟨⟨[.pop side], .front .size, done⟩, ?_, rfl, Or.inl ⟨?_, Or.inr rfl⟩⟩
        · simp [h1, step, dfront, h3, hf', Op.isPush]
        · simp [step, dfront, h3, hf', Op.isPush]
      · refine ⟨⟨[.pop side], .front .pos, done⟩, ?_, rfl, Or.inr (Or.inl ⟨?_, rfl⟩)⟩
        · have hp' : 0 < d.ctr.size := hp
          simp [h1, step, dfront, h3, hp', Op.isPush]
        · have hp' : 0 < d.ctr.size := hp
          simp [step, dfront, h3, hp', Op.isPush]
      · refine ⟨⟨[.pop side], .slot r.1 .tryLock, done⟩, ?_, rfl, Or.inr (Or.inr (Or.inl ⟨r.1, ?_, rfl, ?_⟩))⟩
        · simp [h1, step, dfront, h3, Op.isPush, Op.kind, ← hr]
        · simp [step, dfront, h3]; omega
        · simpa [step, dfront, h3] using hslot
      · have hc : ¬ s.shared.slots.cap ≤ p := by omega
        by_cases hl : s.shared.slots.locks p = true
        · refine ⟨⟨[.pop side], .slot p .tryLock, done⟩, ?_, rfl, Or.inr (Or.inr (Or.inl ⟨p, ?_, rfl, ?_⟩))⟩
          · simp [h1, step, slotStep, hc, hl]
          · simp [step, slotStep, hc, hl]; omega
          · simp [step, slotStep, hc, hl]
        · have ho : s.shared.slots.occ p = false := by simpa [hl] using h4
          refine ⟨⟨[.pop side], .slot p .check, done⟩, ?_, rfl, Or.inr (Or.inr (Or.inr ⟨p, ?_, Or.inl rfl, ?_⟩))⟩
          · simp [h1, step, slotStep, hc, hl]
          · simp [step, slotStep, hc, hl, ho]
          · simp [step, slotStep, hc, hl]; omega
      · refine ⟨⟨[.pop side], .slot p .unlockRetry, done⟩, ?_, rfl, Or.inr (Or.inr (Or.inr ⟨p, ?_, Or.inr rfl, ?_⟩))⟩
        · simp [h1, step, slotStep, h3]
        · simp [step, slotStep, h3]
        · simp [step, slotStep]; omega
      · refine ⟨⟨[.pop side], .slot p .tryLock, done⟩, ?_, rfl, Or.inr (Or.inr (Or.inl ⟨p, ?_, rfl, ?_⟩))⟩
        · simp [h1, step, slotStep]
        · simp [step, slotStep]; omega
        · simp [step, slotStep, h3]
    · exact ⟨⟨[.pop side], .front .check, []⟩, rfl, rfl, Or.inl ⟨rfl, Or.inl rfl⟩⟩
  obtain ⟨t, h1, h2, -⟩ := hst
  intro hf
  have := hf t (by rw [h1]; simp)
  rw [h2] at this
  simp at this

/-- C26 is false in general (full boundary): two threads push into a deque with one free slot; both see it non-full.
Afterwards `valid()` is false; the first pop returns the element, after which the deque, without any element, reports
to be full, and the next pop never returns. -/
theorem C26_counterexample_pushes :
    ∃ sched, let s := drun (create 1 : Deq Nat) [[.push .back 3], [.push .back 4]] sched
      Finished s ∧ valid s.shared = false ∧
      ∃ d1, pop .back s.shared = .ok (some 3, d1) ∧ full d1 = true ∧ d1.slots.data 0 = none ∧
        pop .back d1 = .error .hang := by
  refine ⟨[0, 1, 0, 1, 0, 0, 0, 0, 0, 0, 0, 0], ?_, by decide, ?_⟩
  · unfold Finished; decide
  · exact ⟨_, rfl, by decide, by decide, rfl⟩

/-- C26 is false in general (empty boundary): two threads pop from a deque with one element; both see it non-empty.
Afterwards `valid()` is false; a push succeeds, but `size()` stays 0, and the stored element cannot be popped. -/
theorem C26_counterexample_pops :
    ∃ d : Deq Nat, Holds d [5] ∧ cap d = 1 ∧ ∃ sched, let s := drun d [[.pop .front], [.pop .front]] sched
      Finished s ∧ valid s.shared = false ∧
      ∃ d1, push .back s.shared 9 = .ok (true, d1) ∧ size d1 = 0 ∧ d1.slots.data 0 = some 9 ∧
        pop .front d1 = .ok (none, d1) := by
  refine ⟨{ slots := { cap := 1, locks := fun _ => false, occ := fun p => decide (p < 1),
                       data := fun p => if p = 0 then some 5 else none, err := false }, ctr := ⟨1, 0, 0⟩ }, ?_, rfl,
    [0, 1, 0, 1, 0, 0, 0, 0, 0, 0, 0, 0], ?_⟩
  · refine ⟨by decide, by decide, rfl, by decide, by decide, by simp, ?_, rfl, ?_⟩
    · intro p hp
      simp only [cap] at hp
      have : p = 0 := by omega
      subst this; decide
    · intro p hp
      simp only [cap] at hp
      have : p = 0 := by omega
      subst this; rfl
  · refine ⟨?_, by decide, ?_⟩
    · unfold Finished; decide
    · exact ⟨_, rfl, by decide, by decide, rfl⟩

end Stdgpu.Props
