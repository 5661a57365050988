import Verif.Spec.Histories
import Verif.Props.Boundary
import Verif.Props.InsertCopy
/-
C92: operations of the host and kernels in any order.
-/
namespace Stdgpu.Props
open Stdgpu.Spec Stdgpu.Conc Stdgpu.SlotConc

variable {α : Type}

theorem vallowed_spec {v : Vector.Vec α} {l : List α} (h : Vector.Holds v l) {op : Vector.VOp α} (ha : vAllowed v op) (c : Nat) :
    ∃ o l', vecExec c l op = some (o, l') := by
  have hs := Vector.size_eq h
  cases hx : vecExec c l op with
  | some r => exact ⟨r.1, r.2, rfl⟩
  | none =>
    exfalso
    rcases C16_spec_total c l op hx with ⟨rfl, rfl⟩ | ⟨rfl, rfl⟩ | ⟨n, rfl, hn⟩ | ⟨b, e, rfl, hb⟩
    · simp [vAllowed, hs] at ha
    · simp [vAllowed, hs] at ha
    · simp only [vAllowed, hs] at ha; omega
    · simp only [vAllowed] at ha; omega

theorem dallowed_spec {d : Deque.Deq α} {l : List α} (h : Deque.Holds d l) {op : Deque.DOp α} (ha : dAllowed d op) (c : Nat) :
    ∃ o l', deqExec c l op = some (o, l') := by
  have hs := Deque.size_eq h
  cases hx : deqExec c l op with
  | some r => exact ⟨r.1, r.2, rfl⟩
  | none =>
    exfalso
    rcases C23_spec_total c l op hx with ⟨rfl, rfl⟩ | ⟨rfl, rfl⟩ | ⟨n, rfl, hn⟩
    · simp [dAllowed, hs] at ha
    · simp [dAllowed, hs] at ha
    · simp only [dAllowed, hs] at ha; omega

/-- **C92**, vector. After any sequence of host operations and kernels (all of whose operations have succeeded) the vector is a
proper vector of the capacity it was created with, and a bounded list explains everything that has been observed. -/
theorem C92_vector {c : Nat} {v : Vector.Vec α} {tr : List (Obs (Vector.VOp α) Unit α)} (h : VReached c v tr) :
    ∃ l, Explains (vecExec c) c tr l ∧ Vector.Holds v l ∧ Vector.cap v = c ∧ Vector.valid v = true ∧ Vector.size v = l.length := by
  suffices h' : ∃ l, Explains (vecExec c) c tr l ∧ Vector.Holds v l ∧ Vector.cap v = c by
    obtain ⟨l, h1, h2, h3⟩ := h'
    exact ⟨l, h1, h2, h3, Vector.valid_of_holds h2, Vector.size_eq h2⟩
  induction h with
  | create => exact ⟨[], .start, Vector.create_holds c, rfl⟩
  | host h ha ho he ih =>
    obtain ⟨l, h1, h2, h3⟩ := ih
    obtain ⟨o', l', hs⟩ := vallowed_spec h2 ha c
    obtain ⟨v'', e, e2, e3⟩ := Vector.exec_refines h2 ho _ o' l' (by rw [h3]; exact hs)
    rw [he] at e
    simp only [Except.ok.injEq, Prod.mk.injEq] at e
    obtain ⟨rfl, rfl⟩ := e
    exact ⟨l', .host h1 hs, e3, e2.trans h3⟩
  | @kernel v tr h programs sched s hs hf hr ih =>
    obtain ⟨l, h1, h2, h3⟩ := ih
    subst hs
    obtain ⟨-, l', h4, h5⟩ := C22_no_failure_partial h2 programs sched hf hr
    have hi := Vector.vinv_run h2 programs sched
    have hc : Vector.cap (vrun v programs sched).shared = c := hi.hcap.trans h3
    refine ⟨l', .kernel h1 (results_map_fst hi.len hi.prog hf) h5 ?_, h4, hc⟩
    have := h4.len
    rw [hc] at this; exact this

/-- **C92**, vector: such a history can always be continued. Every host operation that is used as documented returns without
undefined behaviour, the kernels too: nothing undefined happens in them at any time, and they can finish. -/
theorem C92_vector_continues {c : Nat} {v : Vector.Vec α} {tr : List (Obs (Vector.VOp α) Unit α)} (h : VReached c v tr) :
    (∀ op (ord : Nat → List Nat), vAllowed v op → (∀ n, (ord n).Perm (List.range n)) →
      ∃ o v', Vector.exec ord v op = .ok (o, v') ∧ VReached c v' (tr ++ [.host op o])) ∧
    (∀ programs sched, (vrun v programs sched).shared.slots.err = false ∧
      ∃ sched', Finished (vrun v programs (sched ++ sched'))) ∧
    (∀ programs : List (List (Op Unit α)), Vector.size v + programs.flatten.countP (fun op => op.isPush) ≤ c →
      (programs.flatten.countP (fun op => !op.isPush) : Int) ≤ Vector.size v → ∀ sched, Finished (vrun v programs sched) →
      VReached c (vrun v programs sched).shared (tr ++ [.kernel programs (results (vrun v programs sched))])) := by
  obtain ⟨l, h1, h2, h3, h4, h5⟩ := C92_vector h
  refine ⟨fun op ord ha ho => ?_, fun programs sched => ⟨(C20_conservation h2 programs sched).1, C21_no_deadlock h2 programs sched⟩,
    fun programs hp hq sched hf => ?_⟩
  · obtain ⟨o, l', hs⟩ := vallowed_spec h2 ha c
    obtain ⟨v', e, -, -⟩ := Vector.exec_refines h2 ho _ o l' (by rw [h3]; exact hs)
    exact ⟨o, v', e, .host h ha ho e⟩
  · rw [h5] at hp hq
    refine .kernel h programs sched _ rfl hf ?_
    exact (C22_valid_after_concurrent_use_partial h2 programs (by omega) (by omega) sched).1

/-- **C92**, deque. -/
theorem C92_deque {c : Nat} (hc : 0 < c) {d : Deque.Deq α} {tr : List (Obs (Deque.DOp α) Deque.Side α)} (h : DReached c d tr) :
    ∃ l, Explains (deqExec c) c tr l ∧ Deque.Holds d l ∧ Deque.cap d = c ∧ Deque.valid d = true ∧ Deque.size d = l.length := by
  suffices h' : ∃ l, Explains (deqExec c) c tr l ∧ Deque.Holds d l ∧ Deque.cap d = c by
    obtain ⟨l, h1, h2, h3⟩ := h'
    exact ⟨l, h1, h2, h3, Deque.valid_of_holds h2, Deque.size_eq h2⟩
  induction h with
  | create => exact ⟨[], .start, Deque.create_holds c hc, rfl⟩
  | host h ha ho he ih =>
    obtain ⟨l, h1, h2, h3⟩ := ih
    obtain ⟨o', l', hs⟩ := dallowed_spec h2 ha c
    obtain ⟨d'', e, e2, e3⟩ := Deque.exec_refines h2 ho _ o' l' (by rw [h3]; exact hs)
    rw [he] at e
    simp only [Except.ok.injEq, Prod.mk.injEq] at e
    obtain ⟨rfl, rfl⟩ := e
    exact ⟨l', .host h1 hs, e3, e2.trans h3⟩
  | @kernel d tr h programs sched s hs hf hr ih =>
    obtain ⟨l, h1, h2, h3⟩ := ih
    subst hs
    obtain ⟨-, l', h4, h5⟩ := C26_no_failure_partial h2 programs sched hf hr
    obtain ⟨⟨tick, hi⟩, -, -⟩ := dinv_run h2 programs sched
    have hc : Deque.cap (drun d programs sched).shared = c := hi.hcap.trans h3
    refine ⟨l', .kernel h1 (results_map_fst hi.len hi.prog hf) h5 ?_, h4, hc⟩
    have := h4.len
    rw [hc] at this; exact this

/-- **C92**, deque: such a history can always be continued, by host operations that are used as documented, and by kernels whose
pushes have room and whose pops have elements, in whatever order they happen. -/
theorem C92_deque_continues {c : Nat} (hc : 0 < c) {d : Deque.Deq α} {tr : List (Obs (Deque.DOp α) Deque.Side α)}
    (h : DReached c d tr) :
    (∀ op (ord : Nat → Nat → List Nat), dAllowed d op → (∀ k n, (ord k n).Perm (List.range n)) →
      ∃ o d', Deque.exec ord d op = .ok (o, d') ∧ DReached c d' (tr ++ [.host op o])) ∧
    (∀ programs sched, (drun d programs sched).shared.slots.err = false) ∧
    (∀ programs : List (List (Op Deque.Side α)), Deque.size d + programs.flatten.countP (fun op => op.isPush) ≤ c →
      (programs.flatten.countP (fun op => !op.isPush) : Int) ≤ Deque.size d → ∀ sched,
      (∃ sched', Finished (drun d programs (sched ++ sched'))) ∧ (Finished (drun d programs sched) →
      DReached c (drun d programs sched).shared (tr ++ [.kernel programs (results (drun d programs sched))]))) := by
  obtain ⟨l, h1, h2, h3, h4, h5⟩ := C92_deque hc h
  refine ⟨fun op ord ha ho => ?_, fun programs sched => (C25_conservation h2 programs sched).1, fun programs hp hq sched => ?_⟩
  · obtain ⟨o, l', hs⟩ := dallowed_spec h2 ha c
    obtain ⟨d', e, -, -⟩ := Deque.exec_refines h2 ho _ o l' (by rw [h3]; exact hs)
    exact ⟨o, d', e, .host h ha ho e⟩
  · rw [h5] at hp hq
    obtain ⟨k1, k2, -⟩ := C26_usable_after_concurrent_use_partial h2 programs (by omega) (by omega) sched
    exact ⟨k2, fun hf => .kernel h programs sched _ rfl hf k1⟩

set_option maxRecDepth 20000 in
/-- A history: the host pushes 1 and 2, in a kernel one thread pops twice and another pushes 3 (the first pop and the push
are interleaved), then the host clears the vector. -/
example : ∃ v : Vector.Vec Nat, VReached 3 v [.host (.push 1) (.bool true), .host (.push 2) (.bool true),
    .kernel [[.pop (), .pop ()], [.push () 3]] [(.pop (), .popped 3), (.pop (), .popped 2), (.push () 3, .pushed)],
    .host .size (.num 1), .host .clear .unit] := by
  have h1 : VReached 3 _ ([] ++ [.host (.push 1) (.bool true)]) :=
    .host (ord := List.range) (.create (α := Nat)) trivial (fun _ => .refl _) rfl
  have h2 : VReached 3 _ (_ ++ [.host (.push 2) (.bool true)]) := .host (ord := List.range) h1 trivial (fun _ => .refl _) rfl
  have h3 := VReached.kernel h2 [[.pop (), .pop ()], [.push () 3]] ([1, 0, 1, 0, 1, 0, 1] ++ List.replicate 12 1 ++ List.replicate 30 0) _ rfl
    (by unfold Finished; decide +kernel) (by unfold AllSucceed; decide +kernel)
  have h4 : VReached 3 _ (_ ++ [.host .size (.num 1)]) := .host (ord := List.range) h3 trivial (fun _ => .refl _) rfl
  have h5 : VReached 3 _ (_ ++ [.host .clear .unit]) := .host (ord := List.range) h4 trivial (fun _ => .refl _) rfl
  exact ⟨_, h5⟩

set_option maxRecDepth 20000 in
/-- The same for a deque of capacity 2, with a kernel that pushes and pops at the front. -/
example : ∃ d : Deque.Deq Nat, DReached 2 d [.host (.push .back 1) (.bool true),
    .kernel [[.pop .front], [.push .front 3]] [(.pop .front, .popped 3), (.push .front 3, .pushed)],
    .host .size (.num 1), .host .front (.val 1)] := by
  have h1 : DReached 2 _ ([] ++ [.host (.push .back 1) (.bool true)]) :=
    .host (ord := fun _ => List.range) (.create (α := Nat)) trivial (fun _ _ => .refl _) rfl
  have h3 := DReached.kernel h1 [[.pop .front], [.push .front 3]] (List.replicate 20 1 ++ List.replicate 30 0) _ rfl
    (by unfold Finished; decide +kernel) (by unfold AllSucceed; decide +kernel)
  have h4 : DReached 2 _ (_ ++ [.host .size (.num 1)]) := .host (ord := fun _ => List.range) h3 trivial (fun _ _ => .refl _) rfl
  have h5 : DReached 2 _ (_ ++ [.host .front (.val 1)]) :=
    .host (ord := fun _ => List.range) h4 (by simp only [dAllowed]; decide +kernel) (fun _ _ => .refl _) rfl
  exact ⟨_, h5⟩

end Stdgpu.Props
