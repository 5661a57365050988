import Verif.Model.Counter32
import Verif.Proof.Conc
/-! Bounds of the size counter of the locked-slot machine. -/
namespace Stdgpu.Counter32
open Stdgpu.SlotConc Stdgpu.Conc
open Stdgpu.Vector (clampSize)

variable {C K F α : Type}

/-- A front end with a counter `g` that is changed only at the program points `rmw`, reached after a check. -/
structure Counted (fr : Front C K F) (g : C → Int) (cap : Nat) (rmw : F → Bool) : Prop where
  start : rmw fr.start = false
  other : ∀ c b k f, rmw f = false → g (fr.step c b k f).1 = g c
  enter : ∀ c b k f f', rmw f = false → (fr.step c b k f).2 = .cont f' → rmw f' = true →
    if b then g c < cap else 0 < g c
  change : ∀ c b k f, rmw f = true → g (fr.step c b k f).1 = g c + (if b then 1 else -1)
  leave : ∀ c b k f f', rmw f = true → (fr.step c b k f).2 = .cont f' → rmw f' = false

/-- 1 if the thread is about to change the counter for a push (`b = true`) or pop. -/
def pend (rmw : F → Bool) (b : Bool) (t : Thread K F α) : Nat :=
  match t.todo, t.pc with
  | op :: _, .front f => if rmw f = true ∧ op.isPush = b then 1 else 0
  | _, _ => 0

theorem pend_le (rmw : F → Bool) (b : Bool) (t : Thread K F α) : pend rmw b t ≤ 1 := by
  unfold pend; split
  · split <;> omega
  · omega

theorem sum_pend_le (rmw : F → Bool) (b : Bool) (l : List (Thread K F α)) : (l.map (pend rmw b)).sum ≤ l.length := by
  induction l with
  | nil => simp
  | cons a l ih => simp only [List.map_cons, List.sum_cons, List.length_cons]; have := pend_le rmw b a; omega

structure CInv (g : C → Int) (cap n : Nat) (rmw : F → Bool) (s : Sys (Mem C α) (Thread K F α)) : Prop where
  len : s.threads.length ≤ n + 1
  hi : g s.shared.ctr + (s.threads.map (pend rmw true)).sum ≤ cap + n
  lo : -(n : Int) ≤ g s.shared.ctr - (s.threads.map (pend rmw false)).sum

theorem CInv.bounds {g : C → Int} {cap n : Nat} {rmw : F → Bool} {s : Sys (Mem C α) (Thread K F α)}
    (h : CInv g cap n rmw s) : -(n : Int) ≤ g s.shared.ctr ∧ g s.shared.ctr ≤ cap + n := by
  have h1 := h.hi
  have h2 := h.lo
  omega

theorem pend_start {fr : Front C K F} {g : C → Int} {cap : Nat} {rmw : F → Bool} (hc : Counted fr g cap rmw) (b : Bool)
    (ops : List (Op K α)) (d : List (Op K α × Res α)) : pend rmw b ⟨ops, .front fr.start, d⟩ = 0 := by
  cases ops <;> simp [pend, hc.start]

theorem cinv_step {fr : Front C K F} {g : C → Int} {cap n : Nat} {rmw : F → Bool} (hc : Counted fr g cap rmw)
    (s : Sys (Mem C α) (Thread K F α)) (i : Nat) (t : Thread K F α) (h : CInv g cap n rmw s) (ht : s.threads[i]? = some t) :
    CInv g cap n rmw ⟨(step fr s.shared t).1, s.threads.set i (step fr s.shared t).2⟩ := by
  have hp := sum_map_set (pend rmw true) s.threads i t (step fr s.shared t).2 ht
  have hq := sum_map_set (pend rmw false) s.threads i t (step fr s.shared t).2 ht
  have bp := sum_pend_le rmw true (s.threads.set i (step fr s.shared t).2)
  have bq := sum_pend_le rmw false (s.threads.set i (step fr s.shared t).2)
  rw [List.length_set] at bp bq
  obtain ⟨hlen, hhi, hlo⟩ := h
  have key : (g (step fr s.shared t).1.ctr + pend rmw true (step fr s.shared t).2 ≤ g s.shared.ctr + pend rmw true t ∨
      g (step fr s.shared t).1.ctr < cap) ∧
      (g s.shared.ctr - pend rmw false t ≤ g (step fr s.shared t).1.ctr - pend rmw false (step fr s.shared t).2 ∨
      0 < g (step fr s.shared t).1.ctr) := by
    unfold step
    split
    · exact ⟨.inl (le_refl _), .inl (le_refl _)⟩
    · next op rest htodo =>
      split
      · next f hpc =>
        have ho := hc.other s.shared.ctr op.isPush op.kind f
        have he := fun f' => hc.enter s.shared.ctr op.isPush op.kind f f'
        have hch := hc.change s.shared.ctr op.isPush op.kind f
        have hlv := fun f' => hc.leave s.shared.ctr op.isPush op.kind f f'
        have hpt : ∀ b, pend rmw b t = if rmw f = true ∧ op.isPush = b then 1 else 0 := by
          intro b; unfold pend; rw [htodo, hpc]
        generalize hr : fr.step s.shared.ctr op.isPush op.kind f = r at *
        obtain ⟨c', out⟩ := r
        cases hf : rmw f with
        | false =>
          have ho := ho hf
          simp only [hpt, hf]
          cases out with
          | cont f' =>
            have hpt' : ∀ b, pend rmw b { t with pc := .front f' } = if rmw f' = true ∧ op.isPush = b then 1 else 0 := by
              intro b; unfold pend; simp only [htodo]
            simp only [hpt']
            simp only at ho
            cases hf' : rmw f' with
            | false => simp [ho]
            | true =>
              have := he f' hf rfl hf'
              cases hb : op.isPush <;> simp [hb] at this ⊢ <;> constructor <;> omega
          | fail => simp only [pend_start hc]; simp only at ho; simp [ho]
          | go p =>
            have hpt' : ∀ b, pend rmw b { t with pc := .slot p .tryLock } = 0 := by
              intro b; unfold pend; simp only [htodo]
            simp only [hpt']; simp only at ho; simp [ho]
        | true =>
          have ho := hch hf
          simp only [hpt, hf]
          cases out with
          | cont f' =>
            have hf' := hlv f' hf rfl
            have hpt' : ∀ b, pend rmw b { t with pc := .front f' } = if rmw f' = true ∧ op.isPush = b then 1 else 0 := by
              intro b; unfold pend; simp only [htodo]
            simp only [hpt', hf']
            simp only at ho
            cases hb : op.isPush <;> simp [hb] at ho ⊢ <;> constructor <;> omega
          | fail =>
            simp only [pend_start hc]; simp only at ho
            cases hb : op.isPush <;> simp [hb] at ho ⊢ <;> constructor <;> omega
          | go p =>
            have hpt' : ∀ b, pend rmw b { t with pc := .slot p .tryLock } = 0 := by
              intro b; unfold pend; simp only [htodo]
            simp only [hpt']; simp only at ho
            cases hb : op.isPush <;> simp [hb] at ho ⊢ <;> constructor <;> omega
      · next p sp hpc =>
        have hpt : ∀ b, pend rmw b t = 0 := by intro b; unfold pend; rw [htodo, hpc]
        generalize slotStep s.shared.slots op p sp = r
        obtain ⟨sl, out⟩ := r
        cases out with
        | inl sp' =>
          have hpt' : ∀ b, pend rmw b { t with pc := .slot p sp' } = 0 := by
            intro b; unfold pend; simp only [htodo]
          simp [hpt, hpt']
        | inr res => simp [hpt, pend_start hc]
  refine ⟨by simpa using hlen, ?_, ?_⟩
  · show g (step fr s.shared t).1.ctr + (((s.threads.set i (step fr s.shared t).2).map (pend rmw true)).sum : Nat) ≤ _
    rcases key.1 with k | k <;> omega
  · show _ ≤ g (step fr s.shared t).1.ctr - (((s.threads.set i (step fr s.shared t).2).map (pend rmw false)).sum : Nat)
    rcases key.2 with k | k <;> omega

theorem cinv_init {fr : Front C K F} {g : C → Int} {cap n : Nat} {rmw : F → Bool} (hc : Counted fr g cap rmw)
    (m : Mem C α) (progs : List (List (Op K α))) (hn : progs.length ≤ n + 1) (h1 : -(n : Int) ≤ g m.ctr)
    (h2 : g m.ctr ≤ cap + n) : CInv g cap n rmw (init fr m progs) := by
  have hz : ∀ b, ((init fr m progs).threads.map (pend rmw b)).sum = 0 := by
    intro b
    rw [sum_map_eq_zero]
    intro t ht
    obtain ⟨p, -, rfl⟩ := List.mem_map.1 ht
    exact pend_start hc b _ _
  refine ⟨by simpa [init] using hn, ?_, ?_⟩
  · rw [hz]; simpa [init] using h2
  · rw [hz]; simpa [init] using h1

theorem cinv_run {fr : Front C K F} {g : C → Int} {cap n : Nat} {rmw : F → Bool} (hc : Counted fr g cap rmw)
    {s : Sys (Mem C α) (Thread K F α)} (h : CInv g cap n rmw s) (sched : List Nat) :
    CInv g cap n rmw (run (step fr) s sched) := run_inv _ (fun s i t hs ht => cinv_step hc s i t hs ht) s h sched

/-- Two front ends that agree while the counter is in its range have the same executions. -/
theorem run_congr {fr fr' : Front C K F} {g : C → Int} {cap n : Nat} {rmw : F → Bool} (hc : Counted fr g cap rmw)
    (hs : fr'.start = fr.start)
    (he : ∀ c b k f, -(n : Int) ≤ g c → g c ≤ cap + n → -(n : Int) ≤ g (fr.step c b k f).1 →
      g (fr.step c b k f).1 ≤ cap + n → fr'.step c b k f = fr.step c b k f)
    {s : Sys (Mem C α) (Thread K F α)} (h : CInv g cap n rmw s) (sched : List Nat) :
    run (step fr') s sched = run (step fr) s sched := by
  induction sched generalizing s with
  | nil => rfl
  | cons i l ih =>
    have e : stepAt (step fr') s i = stepAt (step fr) s i := by
      unfold stepAt
      split
      · rfl
      · next t ht =>
        have : step fr' s.shared t = step fr s.shared t := by
          obtain ⟨b1, b2⟩ := h.bounds
          obtain ⟨b3, b4⟩ := (cinv_step hc s i t h ht).bounds
          unfold step at b3 b4 ⊢
          rw [hs]
          cases htodo : t.todo with
          | nil => rfl
          | cons op rest =>
            cases hpc : t.pc with
            | slot p sp => rfl
            | front f =>
              simp only [htodo, hpc] at b3 b4 ⊢
              rw [he _ _ _ _ b1 b2]
              · generalize fr.step s.shared.ctr op.isPush op.kind f = r at *
                obtain ⟨c', out⟩ := r
                cases out <;> exact b3
              · generalize fr.step s.shared.ctr op.isPush op.kind f = r at *
                obtain ⟨c', out⟩ := r
                cases out <;> exact b4
        rw [this]
    rw [run_cons, run_cons, e]
    exact ih (cinv_run hc h [i])

theorem counted_vfront (cap : Nat) : Counted (Vector.vfront cap) id cap (fun f => decide (f = .rmw)) where
  start := rfl
  other := by
    intro c b k f hf
    cases f with
    | rmw => simp at hf
    | check => simp only [Vector.vfront]; split <;> split <;> rfl
  enter := by
    intro c b k f f' hf he _
    cases f with
    | rmw => simp at hf
    | check =>
      simp only [Vector.vfront] at he
      cases b <;> simp only [id_eq, if_true, if_false, Bool.false_eq_true] at he ⊢
      · by_contra hc
        have hz : clampSize cap (c) = 0 := by unfold clampSize; split <;> [rfl; (split <;> omega)]
        simp [hz] at he
      · by_contra hc
        have hz : clampSize cap (c) = cap := by unfold clampSize; split <;> [omega; (split <;> omega)]
        simp [hz] at he
  change := by
    intro c b k f hf
    cases f with
    | check => simp at hf
    | rmw => simp only [Vector.vfront]; cases b <;> simp <;> split <;> simp <;> omega
  leave := by
    intro c b k f f' hf he
    cases f with
    | check => simp at hf
    | rmw => simp only [Vector.vfront] at he; cases b <;> simp at he <;> split at he <;> simp at he

theorem counted_dfront (cap : Nat) : Counted (Deque.dfront cap) (·.size) cap (fun f => decide (f = .size)) where
  start := rfl
  other := by
    intro c b k f hf
    cases f with
    | size => simp at hf
    | check => simp only [Deque.dfront]; split <;> split <;> rfl
    | pos => simp only [Deque.dfront]; cases k <;> simp only [Deque.position] <;> split <;> rfl
  enter := by
    intro c b k f f' hf he hf'
    cases f with
    | size => simp at hf
    | check =>
      simp only [Deque.dfront] at he
      cases b <;> simp only [if_true, if_false, Bool.false_eq_true] at he ⊢
      · by_contra hc
        have hz : clampSize cap (c.size) = 0 := by unfold clampSize; split <;> [rfl; (split <;> omega)]
        simp [hz] at he
      · by_contra hc
        have hz : clampSize cap (c.size) = cap := by unfold clampSize; split <;> [omega; (split <;> omega)]
        simp [hz] at he
    | pos => simp [Deque.dfront] at he
  change := by
    intro c b k f hf
    cases f with
    | check => simp at hf
    | pos => simp at hf
    | size => simp only [Deque.dfront]; cases b <;> simp <;> split <;> simp <;> omega
  leave := by
    intro c b k f f' hf he
    cases f with
    | check => simp at hf
    | pos => simp at hf
    | size =>
      simp only [Deque.dfront] at he
      cases b <;> simp at he <;> split at he <;> simp at he <;> subst he <;> simp

theorem wrap_eq {x : Int} (h1 : -2 ^ 31 ≤ x) (h2 : x < 2 ^ 31) : wrap x = x := by
  unfold wrap
  rw [BitVec.toInt_ofInt]
  exact Int.bmod_eq_of_le (by omega) (by omega)

end Stdgpu.Counter32
