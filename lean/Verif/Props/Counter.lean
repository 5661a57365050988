import Verif.Props.Vector
import Verif.Props.Deque
import Verif.Proof.Counter
/-
C58: the counters of vector and deque. In all theorems `n + 1` is (a bound of) the number of threads.
-/
namespace Stdgpu.Props
open Stdgpu.SlotConc Stdgpu.Conc Stdgpu.Counter32
open Stdgpu.Vector (Vec vfront)
open Stdgpu.Deque (Deq dfront Side)

variable {α : Type}

/-- C58. In every state of every execution by at most `n + 1` threads the size counter of a vector is in
`[-n, capacity + n]` (if it was there at the start, which holds in particular after any earlier such execution). -/
theorem C58_vector_counter (v : Vec α) (n : Nat) (h1 : -(n : Int) ≤ v.ctr) (h2 : v.ctr ≤ Vector.cap v + n)
    (programs : List (List (Op Unit α))) (hn : programs.length ≤ n + 1) (sched : List Nat) :
    -(n : Int) ≤ (vrun v programs sched).shared.ctr ∧ (vrun v programs sched).shared.ctr ≤ Vector.cap v + n :=
  (cinv_run (counted_vfront _) (cinv_init (g := id) (counted_vfront _) v programs hn h1 h2) sched).bounds

/-- C58. The same for a deque. -/
theorem C58_deque_counter (d : Deq α) (n : Nat) (h1 : -(n : Int) ≤ d.ctr.size) (h2 : d.ctr.size ≤ Deque.cap d + n)
    (programs : List (List (Op Side α))) (hn : programs.length ≤ n + 1) (sched : List Nat) :
    -(n : Int) ≤ (drun d programs sched).shared.ctr.size ∧ (drun d programs sched).shared.ctr.size ≤ Deque.cap d + n :=
  (cinv_run (counted_dfront _) (cinv_init (g := (·.size)) (counted_dfront _) d programs hn h1 h2) sched).bounds

/-- C58. No overflow: if capacity plus number of threads is at most 2^31, then every execution with the wrapping 32 bit
counter of the code is the execution with an unbounded counter; all theorems about concurrent vectors hold for it. -/
theorem C58_vector_no_overflow (v : Vec α) (n : Nat) (hcap : Vector.cap v + n < 2 ^ 31) (h1 : -(n : Int) ≤ v.ctr)
    (h2 : v.ctr ≤ Vector.cap v + n) (programs : List (List (Op Unit α))) (hn : programs.length ≤ n + 1) (sched : List Nat) :
    run (step (vfront32 (Vector.cap v))) (init (vfront32 (Vector.cap v)) v programs) sched = vrun v programs sched := by
  refine run_congr (fr := vfront (Vector.cap v)) (fr' := vfront32 (Vector.cap v)) (n := n) (g := id)
    (rmw := fun f => decide (f = .rmw)) (counted_vfront _) rfl ?_ (cinv_init (g := id) (counted_vfront _) v programs hn h1 h2)
    sched
  intro c b k f b1 b2 b3 b4
  cases f with
  | check => rfl
  | rmw =>
    simp only [id_eq, vfront, vfront32] at *
    cases b
    · have hw : wrap (c - 1) = c - 1 := by
        apply wrap_eq <;> (simp only [Bool.false_eq_true, if_false] at b3 b4; split at b3 <;> simp_all <;> omega)
      simp [hw]
    · have hw : wrap (c + 1) = c + 1 := by
        apply wrap_eq <;> (simp only [if_true] at b3 b4; split at b3 <;> simp_all <;> omega)
      simp [hw]

/-- C58. The same for a deque. -/
theorem C58_deque_no_overflow (d : Deq α) (n : Nat) (hcap : Deque.cap d + n < 2 ^ 31) (h1 : -(n : Int) ≤ d.ctr.size)
    (h2 : d.ctr.size ≤ Deque.cap d + n) (programs : List (List (Op Side α))) (hn : programs.length ≤ n + 1)
    (sched : List Nat) :
    run (step (dfront32 (Deque.cap d))) (init (dfront32 (Deque.cap d)) d programs) sched = drun d programs sched := by
  refine run_congr (fr := dfront (Deque.cap d)) (fr' := dfront32 (Deque.cap d)) (n := n) (g := (·.size))
    (rmw := fun f => decide (f = .size)) (counted_dfront _) rfl ?_
    (cinv_init (g := (·.size)) (counted_dfront _) d programs hn h1 h2) sched
  intro c b k f b1 b2 b3 b4
  cases f with
  | check => rfl
  | pos => rfl
  | size =>
    simp only [dfront, dfront32] at *
    cases b
    · have hw : wrap (c.size - 1) = c.size - 1 := by
        apply wrap_eq <;> (simp only [Bool.false_eq_true, if_false] at b3 b4; split at b3 <;> simp_all <;> omega)
      simp [hw]
    · have hw : wrap (c.size + 1) = c.size + 1 := by
        apply wrap_eq <;> (simp only [if_true] at b3 b4; split at b3 <;> simp_all <;> omega)
      simp [hw]

/-- A vector of the largest capacity that has one free slot, being filled by two threads. -/
def hugeVec : Vec Nat :=
  ⟨⟨2 ^ 31 - 1, fun _ => false, fun p => decide (p < 2 ^ 31 - 2), fun p => if p < 2 ^ 31 - 2 then some p else none, false⟩,
    2 ^ 31 - 2⟩

/-- C58. The bound is exact: with capacity plus number of threads equal to 2^31 + 1 the counter wraps around, and `size()`
is 0 although all slots are occupied. -/
theorem C58_bound_is_exact :
    Vector.cap hugeVec + 2 = 2 ^ 31 + 1 ∧
    (run (step (vfront32 (Vector.cap hugeVec))) (init (vfront32 (Vector.cap hugeVec)) hugeVec [[.push () 1], [.push () 2]])
      ([0, 1, 0, 1] ++ List.replicate 6 0)).shared.ctr = -2 ^ 31 ∧
    Vector.size (run (step (vfront32 (Vector.cap hugeVec))) (init (vfront32 (Vector.cap hugeVec)) hugeVec
      [[.push () 1], [.push () 2]]) ([0, 1, 0, 1] ++ List.replicate 6 0)).shared = 0 ∧
    (run (step (vfront32 (Vector.cap hugeVec))) (init (vfront32 (Vector.cap hugeVec)) hugeVec
      [[.push () 1], [.push () 2]]) ([0, 1, 0, 1] ++ List.replicate 6 0)).shared.slots.data (2 ^ 31 - 2) = some 1 :=
  ⟨by decide +kernel, by decide +kernel, by decide +kernel, by decide +kernel⟩

/-- Two threads racing for the last slot of a vector of capacity 2: the counter really reaches `capacity + n`. -/
example : ∃ (v : Vec Nat) (sched : List Nat), v.ctr = 0 ∧ Vector.cap v + 1 < 2 ^ 31 ∧
    (vrun v [[.push () 1, .push () 2], [.push () 3]] sched).shared.ctr = Vector.cap v + 1 :=
  ⟨Vector.create 2, List.replicate 8 0 ++ [1] ++ List.replicate 9 0 ++ [1], by decide +kernel, by decide +kernel,
    by decide +kernel⟩

example : ∃ (d : Deq Nat) (sched : List Nat), d.ctr.size = 0 ∧ Deque.cap d + 1 < 2 ^ 31 ∧
    (drun d [[.push .back 1, .push .front 2], [.push .back 3]] sched).shared.ctr.size = Deque.cap d + 1 :=
  ⟨Deque.create 2, List.replicate 9 0 ++ [1] ++ List.replicate 9 0 ++ [1], by decide +kernel, by decide +kernel,
    by decide +kernel⟩

end Stdgpu.Props
