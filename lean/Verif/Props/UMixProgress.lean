import Verif.Proof.UMixProg2
import Verif.Props.UMixed
import Verif.Props.UFairness
/-!
C78: insertions, erasures and lookups at the same time, with separated keys (the setting of C75): no deadlock, but no
guarantee of progress under every fair schedule.
-/
namespace Stdgpu.Props
open Stdgpu.Unordered Stdgpu.UnorderedConc Stdgpu.Spec Stdgpu.Conc

variable {K V : Type} {P : Params K V} {bc ec : Nat} {t : Tab V} {progs : List (List (Op K V))}

/-- C78. Insertions, erasures and lookups with separated keys never block each other for good: whatever has happened so
far, there is a continuation in which every operation of every thread returns. -/
theorem C78_mixed_no_deadlock (hl : KeyLaws P) (h0 : 0 < bc) (h1 : bc < 2 ^ 63) (hr : PReachable P bc ec t)
    (hs : Separated P t progs) (sched : List Nat) :
    ∃ sched', UFinished (uexec P t progs (sched ++ sched')) := by
  obtain ⟨⟨chain, free, h⟩, -, -⟩ := preachable_rep hl h0 h1 hr
  obtain ⟨xp, hI⟩ := Mx.inv_run (Mx.mkStart h progs hs) hl sched
  obtain ⟨σ, hσ⟩ := hI.can_finish hl
  refine ⟨σ, ?_⟩
  unfold uexec
  rw [run_append]
  exact hσ

/-- C78. With the results of all operations. -/
theorem C78_mixed_completes (hl : KeyLaws P) (h0 : 0 < bc) (h1 : bc < 2 ^ 63) (hr : PReachable P bc ec t)
    (hs : Separated P t progs) (sched : List Nat) :
    ∃ sched', (uresults (uexec P t progs (sched ++ sched'))).map (·.1) = progs.flatten := by
  obtain ⟨σ, hσ⟩ := C78_mixed_no_deadlock hl h0 h1 hr hs sched
  exact ⟨σ, uresults_all hσ⟩

/-- The hypotheses are met by the execution of C75, stopped in the middle. -/
example : ∃ sched', UFinished (uexec exP mixTab mixProgs (mixSched.take 100 ++ sched')) :=
  C78_mixed_no_deadlock exP_laws (by decide) (by decide) (exTab_reachable _ _ _ _) mix_separated _

/-- There are operations left at this moment. -/
example : ¬ UFinished (uexec exP mixTab mixProgs (mixSched.take 100)) := by unfold UFinished; decide +kernel

/-! ### A livelock -/

/-- The key 2 is stored in an excess entry; its bucket is empty. -/
def llTab : Tab (Nat × Nat) := exTab exP 4 4 [.insert (0, 0), .insert (2, 20), .erase 0]

/-- The keys 1 and 2 belong to different buckets. -/
def llProgs : List (List (Op Nat (Nat × Nat))) := [[.insert (1, 10)], [.erase 2], [.insert (1, 11), .erase 1]]

def llPre : List Nat :=
  List.replicate 5 0 ++ List.replicate 14 2 ++ [0] ++ List.replicate 10 2 ++ List.replicate 7 0 ++ List.replicate 24 1

theorem ll_separated : Separated exP llTab llProgs := by
  have hu : ∀ k, UsedKey exP llTab llProgs k → k ∈ [1, 2] := by
    have hc : contents llTab = [(2, 20)] := by decide +kernel
    rintro k (⟨v, hv, rfl⟩ | ⟨p, hp, v, hv, rfl⟩)
    · rw [hc] at hv
      simp only [List.mem_cons, List.not_mem_nil, or_false] at hv
      rcases hv with rfl <;> simp [exP]
    · simp only [llProgs, List.mem_cons, List.not_mem_nil, or_false] at hp
      rcases hp with rfl | rfl | rfl <;> simp at hv <;> subst hv <;> simp [exP]
  have key : ∀ a ∈ [1, 2], ∀ b ∈ [1, 2], bucket exP llTab a = bucket exP llTab b → exP.keyEq a b = true := by
    decide +kernel
  exact fun a b ha hb => key a (hu a ha) b (hu b hb)

/-- The beginning of a round: thread 0 is about to lock slot 2 of the free list, to take a position out of it, thread 1 is
about to lock the same slot to put a position into it, thread 2 has finished. -/
def LRound (s : Sys (Shared (Nat × Nat)) (Thread Nat (Nat × Nat))) : Prop :=
  (s.shared.tab.excess.slots.cap = 4 ∧ s.shared.tab.excess.slots.locks 2 = false ∧ s.shared.tab.excess.slots.occ 2 = true) ∧
  ∃ d, s.threads = [⟨[], .ins (1, 10) (.pop 2), ⟨[.pop ()], .slot 2 .tryLock, []⟩, []⟩,
    ⟨[], .era 2 (.push 7 0), ⟨[.push () 7], .slot 2 .tryLock, []⟩, []⟩, ⟨[], .idle, d, [(.insert (1, 11), .inserted 2), (.erase 1, .erased)]⟩]

theorem lround_next {s : Sys (Shared (Nat × Nat)) (Thread Nat (Nat × Nat))} (h : LRound s) :
    LRound (run (step exP) s [1, 0, 1, 1, 2]) := by
  obtain ⟨⟨⟨bc, total, occ, count, off, val, live, locks, ⟨⟨cap, elocks, eocc, edata, eerr⟩, ctr⟩⟩, ub, st⟩, ths⟩ := s
  obtain ⟨⟨h1, h2, h3⟩, d, h4⟩ := h
  dsimp only at h1 h2 h3 h4
  subst h1 h4
  simp [run, stepAt, step, insStep, eraStep, exStep, SlotConc.step, SlotConc.slotStep, h2, h3, SlotConc.upd, LRound,
    Vector.cap]

theorem ll_start : LRound (uexec exP llTab llProgs llPre) := by
  have h1 : (uexec exP llTab llProgs llPre).threads.map (fun t => (t.todo, t.cur)) =
      [([], .ins (1, 10) (.pop 2)), ([], .era 2 (.push 7 0)), ([], .idle)] := by decide +kernel
  have h2 : (uexec exP llTab llProgs llPre).threads.map (fun t => t.done) =
      [[], [], [(.insert (1, 11), .inserted 2), (.erase 1, .erased)]] := by decide +kernel
  have h3 : ((uexec exP llTab llProgs llPre).threads.map (fun t => (t.ex.todo, t.ex.done))).take 2 =
      [([.pop ()], []), ([.push () 7], [])] := by decide +kernel
  have h4 : ((uexec exP llTab llProgs llPre).threads.map (fun t => match t.ex.pc with
      | .slot p .tryLock => some p | _ => none)).take 2 = [some 2, some 2] := by decide +kernel
  refine ⟨⟨by decide +kernel, by decide +kernel, by decide +kernel⟩, ?_⟩
  generalize (uexec exP llTab llProgs llPre).threads = l at *
  rcases l with _ | ⟨⟨a1, a2, ⟨a3, a4, a5⟩, a6⟩, _ | ⟨⟨b1, b2, ⟨b3, b4, b5⟩, b6⟩, _ | ⟨⟨c1, c2, c3, c4⟩, _ | ⟨_, l⟩⟩⟩⟩ <;> simp at h1 h2 h3 h4
  obtain ⟨⟨rfl, rfl⟩, ⟨rfl, rfl⟩, rfl, rfl⟩ := h1
  obtain ⟨rfl, rfl, rfl⟩ := h2
  obtain ⟨⟨rfl, rfl⟩, rfl, rfl⟩ := h3
  refine ⟨c3, ?_⟩
  obtain ⟨h4, h5⟩ := h4
  have key : ∀ (x : SlotConc.PC Vector.FPC Nat), (match x with | .slot p .tryLock => some p | _ => none) = some 2 →
      x = .slot 2 .tryLock := by
    intro x hx
    split at hx <;> simp at hx
    rw [hx]
  rw [key _ h4, key _ h5]

/-- C78. Progress under every fair schedule is not guaranteed, not even with separated keys and with more unused excess
entries than `insert` calls: the insertion of key 1 and the erasure of key 2, whose buckets are different, meet in the list
of unused excess entries, and there is a fair schedule under which neither of them ever returns. (The third thread has
inserted and erased key 1 before.) -/
theorem C78_counterexample_livelock :
    ∃ (t : Tab (Nat × Nat)) (progs : List (List (Op Nat (Nat × Nat)))) (σ : Nat → Nat), PReachable exP 4 4 t ∧
      Separated exP t progs ∧ numInserts progs < (freeList t).length ∧ Fair progs.length σ ∧
      progs.take 2 = [[.insert (1, 10)], [.erase 2]] ∧
      ∀ n i, i < 2 → ∀ th, (uexec exP t progs (upTo σ n)).threads[i]? = some th → th.done = [] := by
  let σ : Nat → Nat := fun n => if n < 61 then llPre.getD n 0 else [1, 0, 1, 1, 2].getD ((n - 61) % 5) 0
  have hσ : ∀ r k, k < 5 → σ (61 + 5 * r + k) = [1, 0, 1, 1, 2].getD k 0 := by
    intro r k hk
    show (if _ then _ else _) = _
    rw [if_neg (by omega)]
    congr 1
    omega
  have hup : ∀ r, upTo σ (61 + 5 * (r + 1)) = upTo σ (61 + 5 * r) ++ [1, 0, 1, 1, 2] := by
    intro r
    rw [show 61 + 5 * (r + 1) = 61 + 5 * r + 5 by omega, Stdgpu.Spec.upTo_add]
    congr 1
    have e0 := hσ r 0 (by omega)
    have e1 := hσ r 1 (by omega)
    have e2 := hσ r 2 (by omega)
    have e3 := hσ r 3 (by omega)
    have e4 := hσ r 4 (by omega)
    simp [upTo, List.range_succ] at *
    simp [e0, e1, e2, e3, e4]
  have hpre : upTo σ 61 = llPre := by decide +kernel
  have rounds : ∀ r, LRound (uexec exP llTab llProgs (upTo σ (61 + 5 * r))) := by
    intro r
    induction r with
    | zero => rw [show 61 + 5 * 0 = 61 by rfl, hpre]; exact ll_start
    | succ r ih =>
      have := lround_next ih
      rw [hup r]
      unfold uexec at this ⊢
      rw [run_append]
      exact this
  refine ⟨llTab, llProgs, σ, exTab_reachable _ _ _ _, ll_separated, by decide +kernel, ?_, rfl, ?_⟩
  · intro i hi n
    have : i = 0 ∨ i = 1 ∨ i = 2 := by have : i < 3 := hi; omega
    rcases this with rfl | rfl | rfl
    · exact ⟨61 + 5 * n + 1, by omega, hσ n 1 (by omega)⟩
    · exact ⟨61 + 5 * n + 2, by omega, hσ n 2 (by omega)⟩
    · exact ⟨61 + 5 * n + 4, by omega, hσ n 4 (by omega)⟩
  · intro n i hi th hth
    obtain ⟨t', h1, h2⟩ := run_done (P := exP) _ hth (upTo (fun j => σ (n + j)) (61 + 5 * n - n))
    unfold uexec at h1
    rw [← run_append, ← Stdgpu.Spec.upTo_add, show n + (61 + 5 * n - n) = 61 + 5 * n by omega] at h1
    obtain ⟨-, d, hd⟩ := rounds n
    unfold uexec at hd
    rw [hd] at h1
    have : i = 0 ∨ i = 1 := by omega
    rcases this with rfl | rfl <;> simp at h1 <;> subst h1 <;> exact List.prefix_nil.1 h2

end Stdgpu.Props
