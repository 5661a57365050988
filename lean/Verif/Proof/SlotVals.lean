import Verif.Proof.SlotLin
import Verif.Proof.VectorConc
import Verif.Proof.DequeSides
/-! Values in the slots when there are only pops or only pushes, for any front end. -/
namespace Stdgpu.SLin
open Stdgpu.SlotConc Stdgpu.Conc
open Stdgpu.Deque (slot_data slot_take)

variable {C K F α : Type} {fr : Front C K F}

/-- The shared data after a step: only a slot step changes the slots. -/
theorem step_slots (m : Mem C α) (t : Thread K F α) :
    (step fr m t).1.slots = m.slots ∨
    ∃ p sp op rest, t.pc = .slot p sp ∧ t.todo = op :: rest ∧
      (step fr m t).1.slots = (slotStep m.slots op p sp).1 := by
  unfold step
  cases ht : t.todo with
  | nil => left; rfl
  | cons op rest =>
    cases hp : t.pc with
    | front f => left; dsimp only; split <;> rfl
    | slot p sp => right; refine ⟨p, sp, op, rest, rfl, rfl, ?_⟩; dsimp only; split <;> rfl

/-- Which result does a slot step return? -/
theorem slot_ret (m : Slots α) (op : Op K α) (p : Nat) (sp : SPC α) (r : Res α)
    (h : (slotStep m op p sp).2 = .inr r) : sp = .unlockDone r := by
  cases sp with
  | unlockDone r' => simp [slotStep] at h; rw [h]
  | tryLock => simp only [slotStep] at h; split at h <;> (try split at h) <;> simp at h
  | check => cases op <;> simp [slotStep] at h
  | construct => cases op <;> simp [slotStep] at h
  | take => simp only [slotStep] at h; split at h <;> simp at h
  | _ => simp [slotStep] at h

/-- There are only pops, and slot `q` contained the value `g q` at the beginning. -/
structure PopVals (g : Nat → Option α) (cap : Nat) (s : Sys (Mem C α) (Thread K F α)) : Prop where
  dat : ∀ q, q < cap → ∀ v, s.shared.slots.data q = some v → g q = some v
  thr : ∀ t ∈ s.threads, ∀ p v, t.pc = .slot p (.destroy v) ∨ t.pc = .slot p (.unlockDone (.popped v)) → g p = some v

theorem popVals_step {g : Nat → Option α} {cap : Nat} {s : Sys (Mem C α) (Thread K F α)} (h : PopVals g cap s) {i : Nat}
    {t : Thread K F α} (ht : s.threads[i]? = some t) (hop : ∀ op rest, t.todo = op :: rest → op.isPush = false)
    (hsl : ∀ p sp, t.pc = .slot p sp → p < cap) :
    PopVals g cap ⟨(step fr s.shared t).1, s.threads.set i (step fr s.shared t).2⟩ := by
  have hmem := List.mem_of_getElem? ht
  refine ⟨?_, ?_⟩
  · intro q hq v hv
    replace hv : (step fr s.shared t).1.slots.data q = some v := hv
    rcases step_slots (fr := fr) s.shared t with e | ⟨p, sp, op, rest, e1, e2, e3⟩
    · rw [e] at hv; exact h.dat q hq v hv
    · rw [e3] at hv
      rcases slot_data _ _ _ _ _ _ hv with h3 | ⟨rfl, -, k, rfl⟩
      · exact h.dat q hq v h3
      · exact absurd (hop _ _ e2) (by simp [Op.isPush])
  · intro x hx p v hpc
    rcases mem_set_cases _ _ _ _ hx with rfl | ⟨j, -, hj⟩
    · cases htodo : t.todo with
      | nil =>
        have e : step fr s.shared t = (s.shared, t) := by unfold step; rw [htodo]
        rw [e] at hpc; exact h.thr t hmem p v hpc
      | cons op rest =>
        cases hpc0 : t.pc with
        | front fpc =>
          exfalso
          unfold step at hpc; simp only [htodo, hpc0] at hpc
          generalize fr.step s.shared.ctr op.isPush op.kind fpc = r at hpc
          obtain ⟨c, o⟩ := r
          cases o <;> simp at hpc
        | slot p0 sp =>
          have hpcap := hsl p0 sp hpc0
          unfold step at hpc; simp only [htodo, hpc0] at hpc
          cases hr : (slotStep s.shared.slots op p0 sp).2 with
          | inr r => rw [hr] at hpc; simp at hpc
          | inl sp' =>
            rw [hr] at hpc; simp only [PC.slot.injEq] at hpc
            have : p0 = p := by rcases hpc with ⟨e, -⟩ | ⟨e, -⟩ <;> exact e
            subst this
            rcases slot_take _ _ _ _ _ v hr (by simpa using hpc) with h3 | h3
            · exact h.dat _ hpcap v h3
            · subst h3; exact h.thr t hmem p0 v (Or.inl hpc0)
    · exact h.thr x (List.mem_of_getElem? hj) p v hpc

/-- There are only pushes, and slot `q` gets the value `g q`. -/
structure PushVals (g : Nat → Option α) (cap : Nat) (s : Sys (Mem C α) (Thread K F α)) : Prop where
  dat : ∀ q, q < cap → ∀ v, s.shared.slots.data q = some v → g q = some v
  thr : ∀ t ∈ s.threads, ∀ p sp k x rest, t.pc = .slot p sp → t.todo = .push k x :: rest → g p = some x

/-- A step on a slot, or a step of the front end that does not give a slot to a push. -/
theorem pushVals_step {g : Nat → Option α} {cap : Nat} {s : Sys (Mem C α) (Thread K F α)} (h : PushVals g cap s) {i : Nat}
    {t : Thread K F α} (ht : s.threads[i]? = some t)
    (hno : ∀ f p sp, t.pc = .front f → (step fr s.shared t).2.pc ≠ .slot p sp) :
    PushVals g cap ⟨(step fr s.shared t).1, s.threads.set i (step fr s.shared t).2⟩ := by
  have hmem := List.mem_of_getElem? ht
  refine ⟨?_, ?_⟩
  · intro q hq v hv
    replace hv : (step fr s.shared t).1.slots.data q = some v := hv
    rcases step_slots (fr := fr) s.shared t with e | ⟨p, sp, op, rest, e1, e2, e3⟩
    · rw [e] at hv; exact h.dat q hq v hv
    · rw [e3] at hv
      rcases slot_data _ _ _ _ _ _ hv with h3 | ⟨rfl, -, k, rfl⟩
      · exact h.dat q hq v h3
      · exact h.thr t hmem _ _ _ _ _ e1 e2
  · intro x hx p sp k v rest hpc htd
    rcases mem_set_cases _ _ _ _ hx with rfl | ⟨j, -, hj⟩
    · cases hpc0 : t.pc with
      | front f => exact absurd hpc (hno f p sp hpc0)
      | slot p0 sp0 =>
        unfold step at hpc htd
        cases htodo : t.todo with
        | nil =>
          simp only [htodo] at hpc htd
          cases htd
        | cons op rest0 =>
          simp only [htodo, hpc0] at hpc htd
          generalize (slotStep s.shared.slots op p0 sp0).2 = r at hpc htd
          rcases r with s' | r
          · simp only [PC.slot.injEq] at hpc
            simp only at htd
            rw [← hpc.1]
            exact h.thr t hmem p0 sp0 k v rest hpc0 (htodo.trans htd)
          · simp at hpc
    · exact h.thr x (List.mem_of_getElem? hj) p sp k v rest hpc htd

theorem PushVals.mono {g g' : Nat → Option α} {cap : Nat} {s : Sys (Mem C α) (Thread K F α)} (h : PushVals g cap s)
    (hsl : ∀ t ∈ s.threads, ∀ p sp, t.pc = .slot p sp → p < cap)
    (hg : ∀ q, q < cap → ∀ v, g q = some v → g' q = some v) : PushVals g' cap s :=
  ⟨fun q hq v hv => hg q hq v (h.dat q hq v hv), fun t ht p sp k x rest h1 h2 =>
    hg p (hsl t ht p sp h1) x (h.thr t ht p sp k x rest h1 h2)⟩

/-- A push gets slot `p`, which will contain its value. -/
theorem pushVals_go {g : Nat → Option α} {cap : Nat} {s : Sys (Mem C α) (Thread K F α)} (h : PushVals g cap s) {i : Nat}
    {t : Thread K F α} {k : K} {x : α} {rest : List (Op K α)} (htodo : t.todo = .push k x :: rest) {p : Nat} (hg : g p = some x) (c : C) (sp : SPC α) :
    PushVals g cap ⟨{ s.shared with ctr := c }, s.threads.set i { t with pc := .slot p sp }⟩ := by
  refine ⟨h.dat, ?_⟩
  intro u hu q sp' k' y rest' hpc htd
  rcases mem_set_cases _ _ _ _ hu with rfl | ⟨j, -, hj⟩
  · simp only [PC.slot.injEq] at hpc
    replace htd : t.todo = .push k' y :: rest' := htd
    rw [htodo] at htd
    cases htd
    rw [← hpc.1]
    exact hg
  · exact h.thr u (List.mem_of_getElem? hj) q sp' k' y rest' hpc htd

/-- The linearization given by the three lists. -/
theorem to_lin {rsv : F → Bool} {Val : Nat → Op K α → Res α → Prop} {A B E : List (LE K α)} {R : List (OpId × Op K α)}
    {m : Mem C α} {progs : List (List (Op K α))} {sched : List Nat} {atBack : K → Bool} {cap : Nat} {l l1 l2 l3 : List α}
    (hrs : rsv fr.start = false) (h : LInv rsv Val (Before fr m progs sched) A R B (exec fr m progs sched))
    (hprog : ∀ (i : Nat) (t : Thread K F α), (exec fr m progs sched).threads[i]? = some t →
      progs[i]? = some (t.done.map (·.1) ++ t.todo))
    (hE : E.map (fun e => (e.1, e.2.1)) = R) (r1 : SeqRun atBack cap l (A.map (·.2)) l1)
    (r2 : SeqRun atBack cap l1 (E.map (·.2)) l2) (r3 : SeqRun atBack cap l2 (B.map (·.2)) l3) :
    Linearization fr atBack cap m l progs sched (A ++ E ++ B) l3 := by
  have hids : (A ++ E ++ B).map (·.1) = ids A R B := by
    unfold ids
    rw [← hE]
    simp
  refine ⟨by rw [hids]; exact h.nodup, ?_, ?_, ?_, ?_⟩
  · intro x e hx
    obtain ⟨i, j⟩ := x
    unfold resAt at hx
    cases ht : (exec fr m progs sched).threads[i]? with
    | none => simp [ht] at hx
    | some t =>
      simp only [ht, Option.bind_some] at hx
      rcases (h.thr i t ht).ret j e hx with h1 | h1 <;> simp [h1]
  · intro x e hx
    have hxi : x ∈ ids A R B := by
      rw [← hids]
      exact List.mem_map.2 ⟨_, hx, rfl⟩
    refine ⟨called_of hrs h.thr h.known hxi, ?_⟩
    have hlt := h.known x hxi
    obtain ⟨i, j⟩ := x
    obtain ⟨t, ht⟩ : ∃ t, (exec fr m progs sched).threads[i]? = some t := ⟨_, List.getElem?_eq_getElem hlt⟩
    have hpr := hprog i t ht
    have hT := h.thr i t ht
    unfold opAt
    simp only [hpr, Option.bind_some]
    have hdone : t.done[j]? = some e → (t.done.map (·.1) ++ t.todo)[j]? = some e.1 := by
      intro he
      have hj := (List.getElem?_eq_some_iff.1 he).1
      rw [List.getElem?_append_left (by simpa using hj), List.getElem?_map, he]
      rfl
    have hcur : j = t.done.length → (∃ rest, t.todo = e.1 :: rest) → (t.done.map (·.1) ++ t.todo)[j]? = some e.1 := by
      rintro rfl ⟨rest, hr⟩
      rw [List.getElem?_append_right (by simp)]
      simp [hr]
    simp only [List.mem_append] at hx
    rcases hx with (hx | hx) | hx
    · rcases hT.inA j e hx with h1 | ⟨h1, -, h2⟩
      · exact hdone h1
      · exact hcur h1 h2
    · have : ((i, j), e.1) ∈ R := by
        rw [← hE]
        exact List.mem_map.2 ⟨_, hx, rfl⟩
      obtain ⟨h1, -, h2⟩ := hT.inR j _ this
      exact hcur h1 h2
    · exact hdone (hT.inB j e hx)
  · have := h.order
    rw [← hids, List.pairwise_map] at this
    exact this
  · rw [List.map_append, List.map_append]
    exact (r1.append r2).append r3

/-- Operations that have a reservation have not returned, so there are none at the end. -/
theorem rsv_nil {rsv : F → Bool} {Val : Nat → Op K α → Res α → Prop} {A B : List (LE K α)} {R : List (OpId × Op K α)}
    {Bef : OpId → OpId → Prop} {s : Sys (Mem C α) (Thread K F α)} (h : LInv rsv Val Bef A R B s)
    (hf : ∀ t ∈ s.threads, t.todo = []) : R = [] := by
  by_contra hR
  obtain ⟨⟨x, op⟩, R', rfl⟩ := List.exists_cons_of_ne_nil hR
  have hlt := h.known x (mem_ids.2 (.inr (.inl ⟨op, by simp⟩)))
  obtain ⟨i, j⟩ := x
  obtain ⟨t, ht⟩ : ∃ t, s.threads[i]? = some t := ⟨_, List.getElem?_eq_getElem hlt⟩
  obtain ⟨-, -, rest, h1⟩ := (h.thr i t ht).inR j op (by simp)
  rw [hf t (List.mem_of_getElem? ht)] at h1
  cases h1

end Stdgpu.SLin
