import Verif.Proof.SlotAccess
import Verif.Proof.VectorConc
/-! When fewer pops than elements are executed, slot 0 of a vector is never touched. -/
namespace Stdgpu.Vector
open Stdgpu.Conc Stdgpu.SlotConc
variable {α : Type}

def isPop (op : Op Unit α) : Bool := !op.isPush

/-- Pops that have not decremented the counter yet. -/
def popsLeft (t : VThread α) : Nat :=
  match t.todo, t.pc with
  | [], _ => 0
  | op :: rest, .front _ => (op :: rest).countP isPop
  | _ :: rest, .slot _ _ => rest.countP isPop

structure Keep0 (x : Option α) (s : VSys α) : Prop where
  ctr : 1 + ((s.threads.map popsLeft).sum : Int) ≤ s.shared.ctr
  pos : ∀ t ∈ s.threads, ∀ p c, t.pc = .slot p c → 1 ≤ p
  data : s.shared.slots.data 0 = x

theorem keep0_set {x : Option α} {s : VSys α} {i : Nat} {t t' : VThread α} {m' : Mem Int α} (h : Keep0 x s)
    (ht : s.threads[i]? = some t) (h1 : (popsLeft t' : Int) - popsLeft t ≤ m'.ctr - s.shared.ctr)
    (h2 : ∀ p c, t'.pc = .slot p c → 1 ≤ p) (h3 : m'.slots.data 0 = x) : Keep0 x ⟨m', s.threads.set i t'⟩ := by
  refine ⟨?_, ?_, h3⟩
  · have := sum_map_set popsLeft s.threads i t t' ht
    have := h.ctr
    simp only
    omega
  · intro y hy p c hp
    rcases mem_set_cases _ _ _ _ hy with rfl | ⟨j, -, hj⟩
    · exact h2 p c hp
    · exact h.pos y (List.mem_of_getElem? hj) p c hp

theorem slotStep_data (m : Slots α) (op : Op Unit α) (p : Nat) (c : SPC α) (hp : 1 ≤ p) :
    (slotStep m op p c).1.data 0 = m.data 0 := by
  have hu : ∀ v, upd m.data p v 0 = m.data 0 := by intro v; unfold upd; rw [if_neg]; omega
  unfold slotStep
  split <;> (try split) <;> (try split) <;> simp [hu]

theorem slotStep_done (t : VThread α) (op : Op Unit α) (rest : List (Op Unit α)) (q : Nat) (c : SPC α) (h1 : t.todo = op :: rest)
    (h2 : t.pc = .slot q c) : popsLeft t = rest.countP isPop := by
  simp [popsLeft, h1, h2]

theorem popsLeft_front (rest : List (Op Unit α)) (f : FPC) (d : List (Op Unit α × Res α)) :
    popsLeft (⟨rest, .front f, d⟩ : VThread α) = rest.countP isPop := by
  cases rest <;> simp [popsLeft]

theorem keep0_step {cap : Nat} {x : Option α} (s : VSys α) (i : Nat) (t : VThread α) (h : Keep0 x s)
    (ht : s.threads[i]? = some t) :
    Keep0 x ⟨(step (vfront cap) s.shared t).1, s.threads.set i (step (vfront cap) s.shared t).2⟩ := by
  cases htodo : t.todo with
  | nil => rw [done_step i t ht htodo]; exact h
  | cons op rest =>
    cases hpc : t.pc with
    | front f =>
      have hle := le_sum_map popsLeft s.threads t (List.mem_of_getElem? ht)
      have hk : popsLeft t = (op :: rest).countP isPop := by simp [popsLeft, htodo, hpc]
      have hc := h.ctr
      rw [List.countP_cons] at hk
      rcases vfront_cases cap s.shared.ctr op.isPush op.kind f with ⟨-, e, -⟩ | ⟨-, e, -⟩ | ⟨-, hb, h1, h2, e⟩ | ⟨-, hb, h1, e⟩ |
        ⟨-, hb, h1, h2, e⟩ | ⟨-, hb, h1, e⟩
      · rw [step_cont _ _ htodo hpc e]
        refine keep0_set h ht ?_ (by simp) h.data
        simp [popsLeft, htodo, hpc]
      · rw [step_fail _ _ htodo hpc e]
        refine keep0_set h ht ?_ (by simp) h.data
        simp only [popsLeft_front]
        omega
      · rw [step_go _ _ htodo hpc e]
        refine keep0_set h ht ?_ ?_ h.data
        · simp only [popsLeft, htodo, hpc, List.countP_cons]; omega
        · intro p c hp
          simp only [PC.slot.injEq] at hp
          omega
      · rw [step_fail _ _ htodo hpc e]
        refine keep0_set h ht ?_ (by simp) h.data
        simp only [popsLeft_front]
        omega
      · have hp1 : isPop op = true := by simp [isPop, hb]
        rw [hp1, if_pos rfl] at hk
        rw [step_go _ _ htodo hpc e]
        refine keep0_set h ht ?_ ?_ h.data
        · simp only [popsLeft, htodo, hpc, List.countP_cons, hp1, if_true]; omega
        · intro p c hp
          simp only [PC.slot.injEq] at hp
          omega
      · have hp1 : isPop op = true := by simp [isPop, hb]
        rw [hp1, if_pos rfl] at hk
        rw [step_fail _ _ htodo hpc e]
        refine keep0_set h ht ?_ (by simp) h.data
        simp only [popsLeft_front]
        omega
    | slot p c =>
      have hp := h.pos t (List.mem_of_getElem? ht) p c hpc
      have hd := slotStep_data s.shared.slots op p c hp
      simp only [step, htodo, hpc]
      split
      · refine keep0_set h ht ?_ ?_ (hd.trans h.data)
        · simp [popsLeft, htodo, hpc]
        · intro q c' hq
          simp only [PC.slot.injEq] at hq
          omega
      · refine keep0_set h ht ?_ (by simp) (hd.trans h.data)
        simp only [popsLeft_front, slotStep_done t op rest p c htodo hpc]
        omega

theorem keep0_init {v : Vec α} {l : List α} (h : Holds v l) (programs : List (List (Op Unit α)))
    (hpops : programs.flatten.countP isPop < l.length) :
    Keep0 (l[0]?) (init (vfront (cap v)) v programs) := by
  have hs : ((init (vfront (cap v)) v programs).threads.map popsLeft).sum = programs.flatten.countP isPop := by
    simp only [init, List.map_map, Function.comp_def, popsLeft_front]
    clear hpops
    induction programs with
    | nil => rfl
    | cons p ps ih =>
      simp only [List.map_cons, List.sum_cons, List.flatten_cons, List.countP_append]
      rw [ih]
  refine ⟨?_, ?_, ?_⟩
  · rw [hs]
    show _ ≤ v.ctr
    rw [h.ctr]
    omega
  · intro t ht p c hp
    simp [init] at ht
    obtain ⟨q, -, rfl⟩ := ht
    simp at hp
  · have := h.len
    exact h.data 0 (by omega)

theorem keep0_run {v : Vec α} {l : List α} (h : Holds v l) (programs : List (List (Op Unit α)))
    (hpops : programs.flatten.countP isPop < l.length) (sched : List Nat) :
    Keep0 (l[0]?) (run (step (vfront (cap v))) (init (vfront (cap v)) v programs) sched) :=
  run_inv (Keep0 (l[0]?)) (fun s i t hs ht => keep0_step s i t hs ht) _ (keep0_init h programs hpops) sched

theorem raw_step {C K F : Type} (fr : Front C K F) (m : IMem C α) (t : IThread K F α) (hc : m.base.slots.cap ≠ 0)
    (hd : (m.base.slots.data 0).isSome) (hr : m.raw = false) : (stepI fr m t).1.raw = false := by
  unfold stepI
  split
  · simp [hr, hc, hd]
  · exact hr

end Stdgpu.Vector
