import Verif.Props.Vector
import Verif.Props.Deque
import Verif.Proof.VectorCopy
/-
C60: plain accesses to the elements of a vector or deque that several threads use at the same time.

`Spec.Race` says that two threads are about to perform conflicting plain accesses to the same slot; in an interleaving
semantics a program has a data race exactly if such a state can be reached. `slotAccess` are the accesses of the code to
the slot whose lock it takes, `access` includes the initial copy of `_data[0]` in `pop_back` / `pop_front`.
-/
namespace Stdgpu.Props
open Stdgpu.SlotConc Stdgpu.Conc Stdgpu.Spec
open Stdgpu.Vector (Vec vfront)
open Stdgpu.Deque (Deq dfront Side)

variable {α : Type}

/-- Executions of a vector with the initial copies of `pop_back`. -/
abbrev virun (v : Vec α) (programs : List (List (Op Unit α))) (sched : List Nat) :
    Sys (IMem Int α) (IThread Unit Vector.FPC α) :=
  run (stepI (vfront (Vector.cap v))) (initI (vfront (Vector.cap v)) v programs) sched

/-- Executions of a deque with the initial copies of `pop_back` and `pop_front`. -/
abbrev dirun (d : Deq α) (programs : List (List (Op Side α))) (sched : List Nat) :
    Sys (IMem Deque.Ctr α) (IThread Side Deque.FPC α) :=
  run (stepI (dfront (Deque.cap d))) (initI (dfront (Deque.cap d)) d programs) sched

/-- C60. Apart from the initial copies, concurrent pushes and pops on a vector have no data race on the elements. -/
theorem C60_vector_no_race {v : Vec α} {l : List α} (h : Vector.Holds v l) (programs : List (List (Op Unit α)))
    (sched : List Nat) : ¬ Race slotAccess (vrun v programs sched) := no_race (Vector.vinv_run h programs sched)

/-- C60. The same for a deque. -/
theorem C60_deque_no_race {d : Deq α} {l : List α} (h : Deque.Holds d l) (programs : List (List (Op Side α)))
    (sched : List Nat) : ¬ Race slotAccess (drun d programs sched) := by
  obtain ⟨tick, hi⟩ := (dinv_run h programs sched).inv
  exact no_race hi

/-- C60. The initial copies have no effect on anything else: memory, results and remaining operations of every execution
with them are those of an execution without them, so all theorems about concurrent vectors and deques apply. -/
theorem C60_initial_copy_no_effect {C K F : Type} (fr : Front C K F) (m : Mem C α) (programs : List (List (Op K α)))
    (sched : List Nat) : ∃ sched',
      (run (stepI fr) (initI fr m programs) sched).shared.base = (run (step fr) (init fr m programs) sched').shared ∧
      (run (stepI fr) (initI fr m programs) sched).threads.map (·.base) = (run (step fr) (init fr m programs) sched').threads := by
  obtain ⟨sched', h⟩ := proj_run fr m programs sched
  exact ⟨sched', congrArg (·.shared) h, congrArg (·.threads) h⟩

/-- C60. With the initial copies, every race on a vector is one of an initial copy with another access to slot 0. -/
theorem C60_vector_races {v : Vec α} {l : List α} (h : Vector.Holds v l) (programs : List (List (Op Unit α)))
    (sched : List Nat) (i j : Nat) (ti tj : IThread Unit Vector.FPC α) (p : Nat) (w w' : Bool) (hij : i ≠ j)
    (hi : (virun v programs sched).threads[i]? = some ti) (hj : (virun v programs sched).threads[j]? = some tj)
    (h1 : access ti = some (p, w)) (h2 : access tj = some (p, w')) :
    p = 0 ∧ (needsCopy ti = true ∨ needsCopy tj = true) := by
  obtain ⟨sched', he⟩ := proj_run (vfront (Vector.cap v)) v programs sched
  exact race_initial (he ▸ Vector.vinv_run h programs sched') hij hi hj h1 h2

/-- C60. The same for a deque. -/
theorem C60_deque_races {d : Deq α} {l : List α} (h : Deque.Holds d l) (programs : List (List (Op Side α)))
    (sched : List Nat) (i j : Nat) (ti tj : IThread Side Deque.FPC α) (p : Nat) (w w' : Bool) (hij : i ≠ j)
    (hi : (dirun d programs sched).threads[i]? = some ti) (hj : (dirun d programs sched).threads[j]? = some tj)
    (h1 : access ti = some (p, w)) (h2 : access tj = some (p, w')) :
    p = 0 ∧ (needsCopy ti = true ∨ needsCopy tj = true) := by
  obtain ⟨sched', he⟩ := proj_run (dfront (Deque.cap d)) d programs sched
  obtain ⟨tick, hinv⟩ := (dinv_run h programs sched').inv
  have hinv' : SInv (dfront (Deque.cap d)) (Deque.cap d) (l : Multiset α) programs tick (proj (dirun d programs sched)) := by
    show SInv _ _ _ _ _ (proj (run _ _ _))
    rw [he]
    exact hinv
  exact race_initial hinv' hij hi hj h1 h2

/-- C60. If fewer pops are executed than the vector has elements at the start, then there is no race at all and no initial
copy reads raw storage. -/
theorem C60_vector_few_pops {v : Vec α} {l : List α} (h : Vector.Holds v l) (programs : List (List (Op Unit α)))
    (hpops : programs.flatten.countP (fun op => !op.isPush) < l.length) (sched : List Nat) :
    ¬ Race access (virun v programs sched) ∧ (virun v programs sched).shared.raw = false := by
  have hl : (l[0]?).isSome := by rw [List.getElem?_eq_getElem (by omega)]; rfl
  have hcap : Vector.cap v ≠ 0 := by have := h.len; omega
  constructor
  · rintro ⟨i, j, ti, tj, p, w, w', hij, hi, hj, h1, h2, hw⟩
    obtain ⟨sched', he⟩ := proj_run (vfront (Vector.cap v)) v programs sched
    have hk : Vector.Keep0 (l[0]?) (proj (virun v programs sched)) := by
      rw [he]
      exact Vector.keep0_run h programs hpops sched'
    obtain ⟨rfl, -⟩ := C60_vector_races h programs sched i j ti tj p w w' hij hi hj h1 h2
    have key : ∀ t ∈ (virun v programs sched).threads, ∀ u, access t = some (0, u) → u = false := by
      intro t ht u hu
      unfold access at hu
      split at hu
      · simpa using hu.symm
      · have hb := hk.pos t.base (List.mem_map_of_mem ht)
        unfold slotAccess at hu
        split at hu <;> first
          | (rename_i hpc; simp only [Option.some.injEq, Prod.mk.injEq] at hu; have := hb _ _ hpc; omega)
          | simp at hu
    have e1 := key ti (List.mem_of_getElem? hi) w h1
    have e2 := key tj (List.mem_of_getElem? hj) w' h2
    rcases hw with hw | hw
    · rw [e1] at hw; exact absurd hw (by decide)
    · rw [e2] at hw; exact absurd hw (by decide)
  · suffices hs : Vector.Keep0 (l[0]?) (proj (virun v programs sched)) ∧
        (virun v programs sched).shared.base.slots.cap = Vector.cap v ∧ (virun v programs sched).shared.raw = false from hs.2.2
    induction sched using List.reverseRecOn with
    | nil => exact ⟨by rw [show virun v programs [] = initI _ _ _ from rfl, proj_initI]; exact Vector.keep0_init h programs hpops, rfl, rfl⟩
    | append_singleton s i ih =>
      obtain ⟨k, c, r⟩ := ih
      have hk : ∀ s', Vector.Keep0 (l[0]?) (proj (virun v programs s')) := by
        intro s'
        obtain ⟨s'', he⟩ := proj_run (vfront (Vector.cap v)) v programs s'
        rw [he]
        exact Vector.keep0_run h programs hpops s''
      have hcap' : ∀ s', (virun v programs s').shared.base.slots.cap = Vector.cap v := by
        intro s'
        obtain ⟨s'', he⟩ := proj_run (vfront (Vector.cap v)) v programs s'
        have : (virun v programs s').shared.base = (proj (virun v programs s')).shared := rfl
        rw [this, he]
        exact (Vector.vinv_run h programs s'').hcap
      refine ⟨hk _, hcap' _, ?_⟩
      rw [show virun v programs (s ++ [i]) = stepAt (stepI (vfront (Vector.cap v))) (virun v programs s) i from run_append _ _ _ _]
      show (stepAt _ (virun v programs s) i).shared.raw = false
      unfold stepAt
      split
      · exact r
      · refine Vector.raw_step _ _ _ (by rw [c]; exact hcap) ?_ r
        have := k.data
        rw [show (virun v programs s).shared.base.slots.data 0 = l[0]? from this]
        exact hl

/-- C60. In sequential use the initial copy of `vector::pop_back` reads a live object exactly if the vector is not empty. -/
theorem C60_vector_pop_copies_live {v : Vec α} {l : List α} (h : Vector.Holds v l) :
    (Vector.popInit v).isSome ↔ l ≠ [] := by
  unfold Vector.popInit
  have hlen := h.len
  cases l with
  | nil =>
    split
    · next hc => rw [h.data 0 hc]; simp
    · simp
  | cons a l =>
    rw [if_pos (by simp only [List.length_cons] at hlen; omega), h.data 0 (by simp only [List.length_cons] at hlen; omega)]
    simp

/-- A vector of capacity 3 with the elements 4, 5. -/
theorem exVec : ∃ v : Vec Nat, Vector.Holds v [4, 5] ∧ Vector.cap v = 3 := by
  obtain ⟨v, -, h2, h3⟩ := C16_vector_is_bounded_list 3 [.push 4, .push 5] (fun _ n => List.range n)
    (fun _ n => List.Perm.refl _) [.bool true, .bool true] [4, 5] (by decide)
  exact ⟨v, h3, h2⟩

/-- The hypotheses of `C60_vector_few_pops` are met by two threads that push and pop. -/
example : ∃ v : Vec Nat, Vector.Holds v [4, 5] ∧
    ([[.push () 6], [.pop ()]] : List (List (Op Unit Nat))).flatten.countP (fun op => !op.isPush) < [4, 5].length := by
  obtain ⟨v, h, -⟩ := exVec
  exact ⟨v, h, by decide⟩

/-- C60. A pop that runs while another thread pushes the first element has a data race with it: after four steps of the
pusher it is about to construct the element in slot 0 and the popper is about to copy it. -/
theorem C60_counterexample_race :
    Race access (virun (Vector.create 2 : Vec Nat) [[.push () 7], [.pop ()]] [0, 0, 0, 0]) := by
  refine ⟨0, 1, ((virun (Vector.create 2 : Vec Nat) [[.push () 7], [.pop ()]] [0, 0, 0, 0]).threads[0]?).get (by decide +kernel),
    ((virun (Vector.create 2 : Vec Nat) [[.push () 7], [.pop ()]] [0, 0, 0, 0]).threads[1]?).get (by decide +kernel),
    0, true, false, by decide, by simp, by simp, by decide +kernel, by decide +kernel, .inl rfl⟩

/-- C60. `pop_back` of an empty vector copies raw storage. -/
theorem C60_counterexample_empty_vector :
    (virun (Vector.create 2 : Vec Nat) [[.pop ()]] [0]).shared.raw = true ∧
    (virun (Vector.create 2 : Vec Nat) [[.pop ()]] [0, 0]).threads.map (·.base.done) = [[(.pop (), .popFailed)]] :=
  ⟨by decide +kernel, by decide +kernel⟩

/-- C60. `pop_front` of a deque that is not empty copies raw storage: after push_back 1, push_back 2, pop_front in one
thread slot 0 is free, and the next pop_front (which returns 2) starts with a copy of it. -/
theorem C60_counterexample_deque :
    (dirun (Deque.create 2 : Deq Nat) [[.push .back 1, .push .back 2, .pop .front, .pop .front]] (List.replicate 26 0)).shared.raw = false ∧
    (dirun (Deque.create 2 : Deq Nat) [[.push .back 1, .push .back 2, .pop .front, .pop .front]] (List.replicate 27 0)).shared.raw = true ∧
    (dirun (Deque.create 2 : Deq Nat) [[.push .back 1, .push .back 2, .pop .front, .pop .front]] (List.replicate 36 0)).threads.map
      (·.base.done) = [[(.push .back 1, .pushed), (.push .back 2, .pushed), (.pop .front, .popped 1), (.pop .front, .popped 2)]] :=
  ⟨by decide +kernel, by decide +kernel, by decide +kernel⟩

end Stdgpu.Props
