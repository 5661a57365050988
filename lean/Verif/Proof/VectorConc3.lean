import Verif.Proof.VectorConc
/-! Vector, all programs and schedules: the counter differs from initial size plus successful pushes minus successful pops
by at most the failed operations. -/
namespace Stdgpu.Vector
open Stdgpu.SlotConc Stdgpu.Conc Stdgpu.Spec

variable {α : Type}

/-- The operation returned false. -/
def failR (b : Bool) : Res α → Bool
  | .pushFailed => b
  | .popFailed => !b
  | _ => false

/-- The operation succeeded. -/
def okB (b : Bool) : Res α → Bool
  | .pushed => b
  | .popped _ => !b
  | _ => false

def failC (b : Bool) (t : VThread α) : Nat := t.done.countP (fun e => failR b e.2)

/-- Pushes (pops) of a thread that were given a slot. -/
def gotN (b : Bool) (t : VThread α) : Nat := t.done.countP (fun e => okB b e.2) +
  (match t.pc, t.todo with
  | .slot _ _, op :: _ => if op.isPush = b then 1 else 0
  | _, _ => 0)

structure CInv (cap : Nat) (c₀ : Multiset α) (programs : List (List (Op Unit α))) (n : Nat) (s : VSys α) : Prop where
  v : VInv cap c₀ programs s
  hi : s.shared.ctr ≤ (n : Int) + (s.threads.map (gotN true)).sum - (s.threads.map (gotN false)).sum + (s.threads.map (failC true)).sum
  lo : (n : Int) + (s.threads.map (gotN true)).sum - (s.threads.map (gotN false)).sum - (s.threads.map (failC false)).sum ≤ s.shared.ctr

theorem failC_append (b : Bool) (rest : List (Op Unit α)) (pc : PC FPC α) (d : List (Op Unit α × Res α)) (e : Op Unit α × Res α) :
    failC b (⟨rest, pc, d ++ [e]⟩ : VThread α) = d.countP (fun e => failR b e.2) + (if failR b e.2 then 1 else 0) := by
  simp [failC, List.countP_append, List.countP_cons]

theorem gotN_append (b : Bool) (rest : List (Op Unit α)) (f : FPC) (d : List (Op Unit α × Res α)) (e : Op Unit α × Res α) :
    gotN b (⟨rest, .front f, d ++ [e]⟩ : VThread α) = d.countP (fun e => okB b e.2) + (if okB b e.2 then 1 else 0) := by
  simp [gotN, List.countP_append, List.countP_cons]

theorem cinv_step {cap : Nat} {c₀ : Multiset α} {programs : List (List (Op Unit α))} (n : Nat)
    (s : VSys α) (i : Nat) (t : VThread α) (h : CInv cap c₀ programs n s) (ht : s.threads[i]? = some t) :
    CInv cap c₀ programs n
      ⟨(step (vfront cap) s.shared t).1, s.threads.set i (step (vfront cap) s.shared t).2⟩ := by
  have hmem := List.mem_of_getElem? ht
  cases htodo : t.todo with
  | nil => rw [done_step i t ht htodo]; exact h
  | cons op rest =>
    have b1 := h.hi
    have b2 := h.lo
    have hv := vinv_step s i t h.v ht
    have key : ∀ (m' : Mem Int α) (t' : VThread α), step (vfront cap) s.shared t = (m', t') →
        m'.ctr - s.shared.ctr ≤ (gotN true t' : Int) - gotN true t - gotN false t' + gotN false t + failC true t' - failC true t →
        (gotN true t' : Int) - gotN true t - gotN false t' + gotN false t - failC false t' + failC false t ≤ m'.ctr - s.shared.ctr →
        CInv cap c₀ programs n
          ⟨(step (vfront cap) s.shared t).1, s.threads.set i (step (vfront cap) s.shared t).2⟩ := by
      intro m' t' e h3 h4
      rw [e] at hv ⊢
      have a1 := sum_map_set (failC true) s.threads i t t' ht
      have a2 := sum_map_set (failC false) s.threads i t t' ht
      have a3 := sum_map_set (gotN true) s.threads i t t' ht
      have a4 := sum_map_set (gotN false) s.threads i t t' ht
      refine ⟨hv, ?_, ?_⟩
      · simp only; omega
      · simp only; omega
    cases hpc : t.pc with
    | slot p sp =>
      obtain ⟨-, op', rest', e1, hfit⟩ := (h.v.shape t hmem).1 p sp hpc
      have hfit' : sp.fits op := by rw [htodo] at e1; simp at e1; rw [e1.1]; exact hfit
      cases hr' : (slotStep s.shared.slots op p sp).2 with
      | inl s' =>
        refine key { s.shared with slots := (slotStep s.shared.slots op p sp).1 } { t with pc := .slot p s' } ?_ ?_ ?_
        · simp only [step, htodo, hpc, hr']
        · simp [failC, gotN, hpc, htodo]
        · simp [failC, gotN, hpc, htodo]
      | inr r =>
        refine key { s.shared with slots := (slotStep s.shared.slots op p sp).1 }
          { todo := rest, pc := .front (vfront cap).start, done := t.done ++ [(op, r)] } ?_ ?_ ?_
        · simp only [step, htodo, hpc, hr']
        all_goals
          rw [failC_append, gotN_append, gotN_append]
          rcases slotStep_inr _ _ _ _ hfit' _ hr' with ⟨h1, h'⟩ | ⟨h1, v, h'⟩ <;> rw [h'] <;>
            simp [failR, okB, failC, gotN, hpc, htodo, h1] <;> (try omega)
    | front f =>
      rcases vfront_cases cap s.shared.ctr op.isPush op.kind f with ⟨h1, e, -⟩ | ⟨h1, e, -⟩ | ⟨h1, hb, -, -, e⟩ |
        ⟨h1, hb, -, e⟩ | ⟨h1, hb, -, -, e⟩ | ⟨h1, hb, -, e⟩
      · refine key _ _ (step_cont _ _ htodo hpc e) ?_ ?_ <;> simp [failC, gotN, hpc]
      · refine key _ _ (step_fail _ _ htodo hpc e) ?_ ?_ <;>
          rw [failC_append, gotN_append, gotN_append] <;> cases op <;> simp [failC, gotN, hpc, failRes, failR, okB]
      · refine key _ _ (step_go _ _ htodo hpc e) ?_ ?_ <;> simp [failC, gotN, hpc, htodo, hb] <;> omega
      · have hf : failRes op = (.pushFailed : Res α) := by cases op <;> simp_all [failRes, Op.isPush]
        refine key _ _ (step_fail _ _ htodo hpc e) ?_ ?_ <;>
          rw [failC_append, gotN_append, gotN_append, hf] <;> simp [failC, gotN, hpc, failR, okB] <;> omega
      · refine key _ _ (step_go _ _ htodo hpc e) ?_ ?_ <;> simp [failC, gotN, hpc, htodo, hb] <;> omega
      · have hf : failRes op = (.popFailed : Res α) := by cases op <;> simp_all [failRes, Op.isPush]
        refine key _ _ (step_fail _ _ htodo hpc e) ?_ ?_ <;>
          rw [failC_append, gotN_append, gotN_append, hf] <;> simp [failC, gotN, hpc, failR, okB] <;> omega

theorem cinv_run {v : Vec α} {l : List α} (h : Holds v l) (programs : List (List (Op Unit α))) (sched : List Nat) :
    CInv (cap v) (l : Multiset α) programs l.length (run (step (vfront (cap v))) (init (vfront (cap v)) v programs) sched) := by
  refine run_inv (fun s => CInv (cap v) (l : Multiset α) programs l.length s)
    (fun s i t hs ht => cinv_step _ s i t hs ht) _ ?_ sched
  have z : ∀ (g : VThread α → Nat), (∀ p, g ⟨p, .front (vfront (cap v)).start, []⟩ = 0) →
      ((init (vfront (cap v)) v programs).threads.map g).sum = 0 := by
    intro g hg; apply (sum_map_eq_zero _ _).2
    intro t ht
    simp only [init, List.mem_map] at ht
    obtain ⟨p, -, rfl⟩ := ht
    exact hg p
  have z1 := z (gotN true) (by intro p; simp [gotN])
  have z2 := z (gotN false) (by intro p; simp [gotN])
  have z3 := z (failC true) (by intro p; simp [failC])
  have z4 := z (failC false) (by intro p; simp [failC])
  have hc : (init (vfront (cap v)) v programs).shared.ctr = l.length := h.ctr
  refine ⟨vinv_init h programs, ?_, ?_⟩
  · rw [z1, z2, z3, hc]; omega
  · rw [z1, z2, z4, hc]; omega

end Stdgpu.Vector
