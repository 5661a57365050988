import Verif.Proof.QueueLin
import Verif.Props.Deque
/-! A deque used as a queue without reuse of slots: all executions, and progress. -/
namespace Stdgpu.Deque
open Stdgpu.SlotConc Stdgpu.Conc Stdgpu.Spec
open Stdgpu.SLin (OpId LE OInv OBase QRun QStep Now Before isQueueOp OnSlot resAt)
open Stdgpu.Vector (exec_snoc exec_out)
open Stdgpu.Props (remS_init midN_init)

variable {α : Type}

theorem qinv_init {d : Deq α} {l : List α} (h : Holds d l) (progs : List (List (Op Side α)))
    (hroom : l.length + progs.flatten.countP (fun op => op.isPush) ≤ cap d) :
    QInv (cap d) d.ctr.begin l progs (Before (dfront (cap d)) d progs []) [] l []
      (SLin.exec (dfront (cap d)) d progs []) := by
  have hr := dring_init h progs
  have e1 : progs.flatten.countP (fun op => op.isPush == true) = progs.flatten.countP (fun op => op.isPush) := by
    congr 1; funext op; cases op.isPush <;> rfl
  have hf : ((init (dfront (cap d)) d progs).threads.map failN).sum = 0 := by
    rw [sum_map_eq_zero]
    intro t ht
    simp [init] at ht
    obtain ⟨p, -, rfl⟩ := ht
    rfl
  have hex : SLin.exec (dfront (cap d)) d progs [] = init (dfront (cap d)) d progs := rfl
  rw [hex]
  have nos : ∀ t ∈ (init (dfront (cap d)) d progs).threads, ∀ p sp, t.pc ≠ .slot p sp := by
    intro t ht p sp
    simp [init] at ht
    obtain ⟨pr, -, rfl⟩ := ht
    intro hc; cases hc
  refine ⟨⟨{ hr.v with ticks := ?_ }, h.begin, ?_, ?_, ?_, ?_, ?_, ?_⟩, ⟨?_, ?_, ?_⟩, SLin.o_init _ d progs, rfl, ?_, ?_, ?_, ?_, ?_⟩
  · intro p hp
    have := hr.v.ticks p hp
    rw [this]
    simp only [rtick, qtick, init, List.length_nil, Nat.not_lt_zero, if_false]
    split <;> simp [*]
  · simp only [init, List.length_nil, Nat.add_zero]; rw [Nat.mod_eq_of_lt h.begin]
  · exact h.endd
  · rw [remS_init, midN_init, e1]; omega
  · rw [midN_init, midN_init]; simp
  · rw [midN_init, midN_init]; simp [init, h.size]
  · rw [midN_init, midN_init, hf]; simp [init, h.size]
  · intro q hq v hv
    show l[ringIdx (cap d) d.ctr.begin q]? = some v
    rw [← h.data q hq]
    exact hv
  · intro t ht p sp k x rest hpc
    exact absurd hpc (nos t ht p sp)
  · intro t ht p v hpc
    rcases hpc with hpc | hpc <;> exact absurd hpc (nos t ht p _)
  · intro i t ht p sp k x rest hpc
    exact absurd hpc (nos t (List.mem_of_getElem? ht) p sp)
  · intro i t ht p sp k rest hpc
    exact absurd hpc (nos t (List.mem_of_getElem? ht) p sp)
  · simp
  · simp
  · simp

theorem qinv_run {d : Deq α} {l : List α} (h : Holds d l) (progs : List (List (Op Side α)))
    (hp : ∀ p ∈ progs, ∀ op ∈ p, isQueueOp op = true)
    (hroom : l.length + progs.flatten.countP (fun op => op.isPush) ≤ cap d) (sched : List Nat) :
    ∃ L Q P, QInv (cap d) d.ctr.begin l progs (Before (dfront (cap d)) d progs sched) L Q P
      (SLin.exec (dfront (cap d)) d progs sched) := by
  induction sched using List.reverseRecOn with
  | nil => exact ⟨[], l, [], qinv_init h progs hroom⟩
  | append_singleton sched i ih =>
    obtain ⟨L, Q, P, ih⟩ := ih
    cases ht : (SLin.exec (dfront (cap d)) d progs sched).threads[i]? with
    | none =>
      rw [exec_out ht]
      refine ⟨L, Q, P, ⟨ih.c, ih.vals, SLin.o_id (fr := dfront (cap d)) ih.lin ?_, ih.run, ih.push, ih.pop, ih.got,
        ih.pend, ih.nodup⟩⟩
      intro x y hb
      have := SLin.before_snoc hb
      rw [exec_out ht] at this
      exact this
    | some t =>
      rw [exec_snoc ht]
      refine qinv_step hp ih ht ?_
      intro x y hb
      have := SLin.before_snoc hb
      rw [exec_snoc ht] at this
      exact this

/-! ### When all have finished -/

section
variable {cap' b0 : Nat} {l : List α} {progs : List (List (Op Side α))} {Bef : OpId → OpId → Prop}
  {L : List (LE Side α)} {Q : List α} {P : List OpId} {s : DSys α}

theorem finished_le (h : QInv cap' b0 l progs Bef L Q P s) (hf : Finished s) : P.length ≤ Q.length := by
  by_contra hc
  have hlt : Q.length < P.length := by omega
  obtain ⟨t, ht, -, -, rest, h4⟩ := (h.pend Q.length P[Q.length] (List.getElem?_eq_getElem hlt) (Nat.le_refl _)).2
  rw [hf t (List.mem_of_getElem? ht)] at h4
  cases h4

theorem qtick_rtick {cap b0 n q r : Nat} (hb : b0 < cap) (hr : r < cap) (hqn : q ≤ n) (hn : n ≤ cap) :
    qtick cap b0 n q r = rtick cap ((b0 + q) % cap) (n - q) r := by
  unfold qtick rtick
  rw [wrap_eq _ _ _ hb (by omega)]
  unfold ringIdx
  split <;> split <;> split <;> split <;> split <;> (try split) <;> omega

theorem qring_final (h : QInv cap' b0 l progs Bef L Q P s) (hf : Finished s) :
    DRing cap' (l : Multiset α) progs (Q.length - P.length) s := by
  have hle := finished_le h hf
  have hb := h.c.hb
  have hhi := h.c.hi
  have hpos : 0 < cap' := by omega
  refine ⟨{ h.c.v with ticks := ?_ }, ?_, by omega, ?_⟩
  · intro p hp
    rw [h.c.v.ticks p hp, h.c.beg]
    exact qtick_rtick hb hp hle (by omega)
  · rw [h.c.beg]; exact Nat.mod_lt _ hpos
  · rw [h.c.endd, h.c.beg, Nat.mod_add_mod]; congr 1; omega

theorem ring_shift {cap b0 p r : Nat} (hb : b0 < cap) (hr : r < cap) (hp : p ≤ cap)
    (h : ringIdx cap ((b0 + p) % cap) r + p < cap) : ringIdx cap b0 r = p + ringIdx cap ((b0 + p) % cap) r := by
  rw [wrap_eq _ _ _ hb hp] at h ⊢
  unfold ringIdx at h ⊢
  split at h <;> split at h <;> split <;> omega

/-- The elements at the end. -/
theorem q_final (h : QInv cap' b0 l progs Bef L Q P s) (hf : Finished s) :
    ∀ q, q < cap' → s.shared.slots.data q = (Q.drop P.length)[ringIdx cap' s.shared.ctr.begin q]? := by
  have hr := qring_final h hf
  have hle := finished_le h hf
  have hhi := h.c.hi
  have hb := h.c.hb
  obtain ⟨l', h1, h2, -⟩ := dring_final hr (quiet_of_finished hr.v hf)
  intro q hq
  have h3 := h2 q hq
  by_cases hlt : ringIdx cap' s.shared.ctr.begin q < l'.length
  · rw [List.getElem?_eq_getElem hlt] at h3
    have h4 : Q[ringIdx cap' b0 q]? = some _ := h.vals.dat q hq _ h3
    rw [h3, ← h4, List.getElem?_drop]
    have h5 := h.c.beg
    rw [h5] at hlt ⊢
    congr 1
    exact ring_shift hb hq (by omega) (by omega)
  · rw [h3, List.getElem?_eq_none (by omega), List.getElem?_eq_none (by rw [List.length_drop]; omega)]

end

/-! ### Progress -/

theorem front_progress {C K F : Type} (fr : Front C K F) (φ : F → Nat)
    (hφ : ∀ c b k f c' f', fr.step c b k f = (c', .cont f') → φ f' < φ f)
    {s : Sys (Mem C α) (Thread K F α)} {i : Nat} {t : Thread K F α} (ht : s.threads[i]? = some t) (hne : t.todo ≠ [])
    {f : F} (hpc : t.pc = .front f) :
    totalWork φ fr.start (run (step fr) s [i]) < totalWork φ fr.start s := by
  rw [run_cons, run_nil, stepAt_eq _ _ _ _ ht]
  have w := totalWork_set φ fr.start s i t (step fr s.shared t).2 ht (step fr s.shared t).1
  have : work φ fr.start (step fr s.shared t).2 < work φ fr.start t := by
    obtain ⟨todo, pc, done⟩ := t
    cases todo with
    | nil => simp at hne
    | cons op rest =>
      simp only at hpc; subst hpc
      simp only [step]
      split
      · rename_i f' e
        have := hφ s.shared.ctr op.isPush op.kind f _ f' (Prod.ext rfl e)
        simp [work, pcWork]; omega
      · simp only [work_next]; simp [work, pcWork]
      · simp [work, pcWork]
  omega

theorem can_finish_front {C K F : Type} (fr : Front C K F) (φ : F → Nat)
    (hφ : ∀ c b k f c' f', fr.step c b k f = (c', .cont f') → φ f' < φ f)
    {cap : Nat} {c₀ : Multiset α} {programs : List (List (Op K α))}
    (J : Sys (Mem C α) (Thread K F α) → Prop)
    (hJstep : ∀ s i t, J s → s.threads[i]? = some t →
      J ⟨(step fr s.shared t).1, s.threads.set i (step fr s.shared t).2⟩)
    (hJ : ∀ s, J s → (∀ t ∈ s.threads, t.todo ≠ [] → ∀ f, t.pc ≠ .front f) →
      ∃ tick, SInv fr cap c₀ programs tick s ∧ ∀ p, p < cap → 0 ≤ tick p ∧ tick p ≤ 1)
    (s : Sys (Mem C α) (Thread K F α)) (hs : J s) :
    ∃ sched, ∀ t ∈ (run (step fr) s sched).threads, t.todo = [] := by
  have main : ∀ n m (s : Sys (Mem C α) (Thread K F α)), J s → totalWork φ fr.start s = n → totalCS s = m →
      ∃ sched, ∀ t ∈ (run (step fr) s sched).threads, t.todo = [] := by
    intro n
    induction n using Nat.strong_induction_on with
    | _ n ihn =>
      intro m
      induction m using Nat.strong_induction_on with
      | _ m ihm =>
        intro s hs hn hm
        by_cases hun : ∃ t ∈ s.threads, t.todo ≠ []
        · have hsc : ∃ sched, totalWork φ fr.start (run (step fr) s sched) < totalWork φ fr.start s ∨
              (totalWork φ fr.start (run (step fr) s sched) ≤ totalWork φ fr.start s ∧
                totalCS (run (step fr) s sched) < totalCS s) := by
            by_cases hfr : ∃ t ∈ s.threads, t.todo ≠ [] ∧ ∃ f, t.pc = .front f
            · obtain ⟨t, ht, hne, f, hpc⟩ := hfr
              obtain ⟨i, hi⟩ := List.mem_iff_getElem?.1 ht
              exact ⟨[i], .inl (front_progress fr φ hφ hi hne hpc)⟩
            · obtain ⟨tick, hinv, h01⟩ := hJ s hs (fun t ht hne f hpc => hfr ⟨t, ht, hne, f, hpc⟩)
              obtain ⟨sched, -, h⟩ := progress fr φ hφ hinv h01 hun
              exact ⟨sched, h⟩
          obtain ⟨sched, hsc⟩ := hsc
          have hs' : J (run (step fr) s sched) := run_inv (f := step fr) J hJstep s hs sched
          have hrec : ∃ sched2, ∀ t ∈ (run (step fr) (run (step fr) s sched) sched2).threads, t.todo = [] := by
            by_cases hlt : totalWork φ fr.start (run (step fr) s sched) < n
            · exact ihn _ hlt _ _ hs' rfl rfl
            · exact ihm (totalCS (run (step fr) s sched)) (by omega) _ hs' (by omega) rfl
          obtain ⟨sched2, h2⟩ := hrec
          exact ⟨sched ++ sched2, by rw [run_append]; exact h2⟩
        · refine ⟨[], ?_⟩
          intro t ht
          by_contra hc
          exact hun ⟨t, ht, hc⟩
  exact main _ _ s hs rfl rfl

def QJ (cap b0 : Nat) (l : List α) (progs : List (List (Op Side α))) (s : DSys α) : Prop :=
  ∃ L Q P, QInv cap b0 l progs (fun _ _ => False) L Q P s

theorem q_can_finish {cap b0 : Nat} {l : List α} {progs : List (List (Op Side α))} {Bef : OpId → OpId → Prop}
    {L : List (LE Side α)} {Q : List α} {P : List OpId} {s : DSys α}
    (hp : ∀ p ∈ progs, ∀ op ∈ p, isQueueOp op = true) (h : QInv cap b0 l progs Bef L Q P s) :
    ∃ sched, Finished (run (step (dfront cap)) s sched) := by
  refine can_finish_front (dfront cap) (fun f => match f with | .check => 2 | .size => 1 | .pos => 0) ?_
    (cap := cap) (c₀ := (l : Multiset α)) (programs := progs) (QJ cap b0 l progs) ?_ ?_ s ⟨L, Q, P, ⟨h.c, h.vals, ?_, h.run, h.push, h.pop, h.got, h.pend, h.nodup⟩⟩
  · intro c b k f c' f' e
    rcases dfront_cases cap c b k f with ⟨h1, e'⟩ | ⟨h1, e', -⟩ | ⟨h1, -, -, e'⟩ | ⟨h1, -, -, e'⟩ |
      ⟨h1, -, -, e'⟩ | ⟨h1, -, -, e'⟩ | ⟨h1, e'⟩ <;> rw [e] at e' <;> simp at e' <;> rw [h1, e'.2] <;> simp
  · rintro s i t ⟨L, Q, P, hs⟩ ht
    exact qinv_step hp hs ht (fun _ _ hh => hh.elim)
  · rintro s ⟨L, Q, P, hs⟩ hfr
    refine ⟨_, hs.c.v, ?_⟩
    have hz : ∀ b, (s.threads.map (midN b)).sum = 0 := by
      intro b
      rw [sum_map_eq_zero]
      intro t ht
      cases htodo : t.todo with
      | nil => simp [midN, htodo]
      | cons op rest =>
        cases hpc : t.pc with
        | front f => exact absurd hpc (hfr t ht (by rw [htodo]; simp) f)
        | slot p sp => simp [midN, hpc]
    have hlo := hs.c.lo
    rw [hz, hz] at hlo
    intro p _
    unfold qtick
    split <;> split <;> omega
  · exact SLin.o_id (fr := dfront cap) h.lin (fun _ _ hh => hh.elim)

end Stdgpu.Deque
