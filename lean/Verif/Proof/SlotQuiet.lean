import Verif.Proof.SlotConc
import Verif.Spec.SlotConc
/-! Consequences of the slot invariant in states where no operation works on a slot. -/
namespace Stdgpu.SlotConc
open Stdgpu.Conc Stdgpu.Spec

variable {C K F α : Type}

theorem optM_sum_filterMap (l : List Nat) (d : Nat → Option α) :
    (l.map (fun p => optM (d p))).sum = ((l.filterMap d : List α) : Multiset α) := by
  induction l with
  | nil => rfl
  | cons a l ih =>
    rw [List.map_cons, List.sum_cons, ih, List.filterMap_cons]
    cases h : d a with
    | none => simp [optM]
    | some v => simp [optM]

theorem contents_eq (cap : Nat) (d : Nat → Option α) : contents cap d = (liveIn d 0 cap : Multiset α) := by
  unfold contents liveIn
  rw [optM_sum_filterMap, List.range_eq_range']
  simp

theorem liveIn_split (d : Nat → Option α) (a b c : Nat) (h1 : a ≤ b) (h2 : b ≤ c) :
    liveIn d a c = liveIn d a b ++ liveIn d b c := by
  unfold liveIn
  rw [← List.filterMap_append]
  congr 1
  have h := (List.range'_append_1 (s := a) (m := b - a) (n := c - b)).symm
  rw [show b - a + (c - b) = c - a by omega, show a + (b - a) = b by omega] at h
  exact h

theorem liveIn_congr (d e : Nat → Option α) (a b : Nat) (h : ∀ p, a ≤ p → p < b → d p = e p) :
    liveIn d a b = liveIn e a b := by
  unfold liveIn
  apply List.filterMap_congr
  intro p hp
  rw [List.mem_range'_1] at hp
  exact h p hp.1 (by omega)

theorem liveIn_none (d : Nat → Option α) (a b : Nat) (h : ∀ p, a ≤ p → p < b → d p = none) :
    liveIn d a b = [] := by
  unfold liveIn
  rw [List.filterMap_eq_nil_iff]
  intro p hp
  rw [List.mem_range'_1] at hp
  exact h p hp.1 (by omega)

theorem liveIn_length (d : Nat → Option α) (a b : Nat) (h : ∀ p, a ≤ p → p < b → (d p).isSome) :
    (liveIn d a b).length = b - a := by
  unfold liveIn
  rw [List.length_filterMap_eq_countP, List.countP_eq_length.2, List.length_range']
  intro p hp
  rw [List.mem_range'_1] at hp
  exact h p hp.1 (by omega)

theorem liveIn_get (d : Nat → Option α) (a b : Nat) (h : ∀ p, a ≤ p → p < b → (d p).isSome) (i : Nat)
    (hi : a + i < b) : (liveIn d a b)[i]? = d (a + i) := by
  induction i generalizing a with
  | zero =>
    have := h a (by omega) (by omega)
    unfold liveIn
    rw [show b - a = (b - a - 1) + 1 by omega, List.range'_succ, List.filterMap_cons]
    obtain ⟨v, hv⟩ := Option.isSome_iff_exists.1 this
    simp [hv]
  | succ i ih =>
    have ha := h a (by omega) (by omega)
    obtain ⟨v, hv⟩ := Option.isSome_iff_exists.1 ha
    have := ih (a + 1) (fun p h1 h2 => h p (by omega) h2) (by omega)
    unfold liveIn at *
    rw [show b - a = (b - (a + 1)) + 1 by omega, List.range'_succ, List.filterMap_cons]
    simp only [hv, List.getElem?_cons_succ]
    rw [this]; congr 1; omega

theorem liveIn_list (l : List α) (n : Nat) (h : n ≤ l.length) : liveIn (fun p => l[p]?) 0 n = l.take n := by
  apply List.ext_getElem?
  intro i
  by_cases hi : i < n
  · rw [liveIn_get _ _ _ _ _ (by omega)]
    · rw [List.getElem?_take_of_lt hi]; simp
    · intro p _ hp; rw [List.getElem?_eq_getElem (by omega)]; rfl
  · rw [List.getElem?_eq_none, List.getElem?_eq_none]
    · simp; omega
    · rw [liveIn_length]
      · omega
      · intro p _ hp; rw [List.getElem?_eq_getElem (by omega)]; rfl

theorem pushedOf_eq (l : List (Op K α × Res α)) :
    pushedOf l = ((l.filterMap pushVal : List α) :
      Multiset α) := by
  induction l with
  | nil => rfl
  | cons e l ih =>
    obtain ⟨op, r⟩ := e
    cases op <;> cases r <;> simp [pushedOf, pushVal, List.filterMap_cons, ih]

theorem poppedOf_eq (l : List (Op K α × Res α)) :
    poppedOf l = ((l.filterMap popVal : List α) :
      Multiset α) := by
  induction l with
  | nil => rfl
  | cons e l ih =>
    obtain ⟨op, r⟩ := e
    cases r <;> simp [poppedOf, popVal, List.filterMap_cons, ih]

theorem sum_flatMap (g : List (Op K α × Res α) → Multiset α) (h0 : g [] = 0)
    (ha : ∀ a b, g (a ++ b) = g a + g b) (l : List (Thread K F α)) :
    (l.map (fun t => g t.done)).sum = g (l.flatMap (·.done)) := by
  induction l with
  | nil => simp [h0]
  | cons t l ih => simp [ha, ih]

/-- No operation is between its counter update and its completion. -/
def Quiet (s : Sys (Mem C α) (Thread K F α)) : Prop := ∀ t ∈ s.threads, ∃ f, t.pc = .front f

theorem sum_inM_quiet (s : Sys (Mem C α) (Thread K F α)) (hq : Quiet s) :
    (s.threads.map inM).sum = (pushedVals s : Multiset α) := by
  unfold pushedVals results
  rw [← pushedOf_eq, ← sum_flatMap pushedOf rfl pushedOf_append]
  congr 1
  apply List.map_congr_left
  intro t ht
  obtain ⟨f, hf⟩ := hq t ht
  unfold inM
  rw [hf]
  cases t.todo with
  | nil => simp
  | cons op r => cases op <;> simp

theorem sum_outM_quiet (s : Sys (Mem C α) (Thread K F α)) (hq : Quiet s) :
    (s.threads.map outM).sum = (poppedVals s : Multiset α) := by
  unfold poppedVals results
  rw [← poppedOf_eq, ← sum_flatMap poppedOf rfl poppedOf_append]
  congr 1
  apply List.map_congr_left
  intro t ht
  obtain ⟨f, hf⟩ := hq t ht
  unfold outM
  rw [hf]; simp

section
variable {fr : Front C K F} {cap : Nat} {c₀ : Multiset α} {programs : List (List (Op K α))}
    {tick : Nat → Int} {s : Sys (Mem C α) (Thread K F α)}

theorem quiet_of_finished (h : SInv fr cap c₀ programs tick s) (hf : Finished s) : Quiet s :=
  fun t ht => ⟨fr.start, (h.shape t ht).2.1 (hf t ht)⟩

theorem quiet_cons (h : SInv fr cap c₀ programs tick s) (hq : Quiet s) :
    c₀ + (pushedVals s : Multiset α) = (liveIn s.shared.slots.data 0 cap : Multiset α) + (poppedVals s : Multiset α) := by
  have := h.cons
  rwa [sum_inM_quiet s hq, sum_outM_quiet s hq, contents_eq] at this

theorem quiet_locks (h : SInv fr cap c₀ programs tick s) (hq : Quiet s) (p : Nat) (hp : p < cap) :
    s.shared.slots.locks p = false := by
  have := h.locks p hp
  rw [(sum_map_eq_zero _ _).2] at this
  · cases hh : s.shared.slots.locks p with
    | false => rfl
    | true => rw [hh] at this; simp at this
  · intro t ht; obtain ⟨f, hf⟩ := hq t ht; simp [holdsN, hf]

theorem quiet_occ (h : SInv fr cap c₀ programs tick s) (hq : Quiet s) (p : Nat) (hp : p < cap) :
    ((s.shared.slots.occ p).toNat : Int) = tick p := by
  have := h.ticks p hp
  have e : ∀ b, (s.threads.map (pendN b p)).sum = 0 := by
    intro b
    rw [sum_map_eq_zero]
    intro t ht; obtain ⟨f, hf⟩ := hq t ht
    unfold pendN; rw [hf]; cases t.todo <;> rfl
  rw [e, e] at this
  simpa using this

theorem quiet_live (h : SInv fr cap c₀ programs tick s) (hq : Quiet s) (p : Nat) (hp : p < cap) :
    (s.shared.slots.data p).isSome = s.shared.slots.occ p := by
  have := h.live p hp
  rw [(sum_map_eq_zero _ _).2] at this
  · cases h1 : (s.shared.slots.data p).isSome <;> cases h2 : s.shared.slots.occ p <;> rw [h1, h2] at this <;>
      simp at this ⊢
  · intro t ht; obtain ⟨f, hf⟩ := hq t ht; simp [extraN, hf]

/-- The operations performed and still to be performed are those of the programs. -/
theorem ops_count (h : SInv fr cap c₀ programs tick s) (P : Op K α → Bool) :
    ((results s).map (·.1)).countP P + (s.threads.flatMap (·.todo)).countP P = programs.flatten.countP P := by
  have hprog := h.prog
  have hlen := h.len
  unfold results
  generalize s.threads = l at *
  clear h
  induction l generalizing programs with
  | nil =>
    have : programs = [] := by cases programs with | nil => rfl | cons => simp at hlen
    subst this; simp
  | cons t l ih =>
    cases programs with
    | nil => simp at hlen
    | cons p ps =>
      have h0 := hprog 0 t (by simp)
      have hrest := ih (fun i t ht => by simpa using hprog (i + 1) t (by simpa using ht)) (by simpa using hlen)
      simp only [List.getElem?_cons_zero, Option.some.injEq] at h0
      simp only [List.flatMap_cons, List.map_append, List.countP_append, List.flatten_cons, h0]
      omega

theorem mem_results {s : Sys (Mem C α) (Thread K F α)} {e : Op K α × Res α} :
    e ∈ results s ↔ ∃ t ∈ s.threads, e ∈ t.done := by
  unfold results; exact List.mem_flatMap

theorem results_fit (h : SInv fr cap c₀ programs tick s) : ∀ e ∈ results s, resFits e := by
  intro e he
  obtain ⟨t, ht, he⟩ := mem_results.1 he
  exact (h.shape t ht).2.2 e he

theorem prog_mem (h : SInv fr cap c₀ programs tick s) (t : Thread K F α) (ht : t ∈ s.threads) :
    ∃ p ∈ programs, p = t.done.map (·.1) ++ t.todo := by
  obtain ⟨i, hi⟩ := List.mem_iff_getElem?.1 ht
  exact ⟨_, List.mem_of_getElem? (h.prog i t hi), rfl⟩

end

/-- A step on a slot changes `data` and `occ` only at this slot. -/
theorem slotStep_frame (m : Slots α) (op : Op K α) (p : Nat) (sp : SPC α) (q : Nat) (hq : q ≠ p) :
    (slotStep m op p sp).1.data q = m.data q ∧ (slotStep m op p sp).1.occ q = m.occ q := by
  cases sp <;> simp only [slotStep]
  case tryLock => split <;> [exact ⟨rfl, rfl⟩; (split <;> exact ⟨rfl, rfl⟩)]
  case check => cases op <;> exact ⟨rfl, rfl⟩
  case construct => cases op <;> simp [upd, hq]
  case take => cases m.data p <;> exact ⟨rfl, rfl⟩
  all_goals simp [upd, hq]

/-- The loop on a slot is only left with success. -/
theorem slotStep_inr (m : Slots α) (op : Op K α) (p : Nat) (sp : SPC α) (hf : sp.fits op) (r : Res α)
    (h : (slotStep m op p sp).2 = .inr r) : (op.isPush = true ∧ r = .pushed) ∨ (op.isPush = false ∧ ∃ v, r = .popped v) := by
  cases sp <;> simp only [slotStep] at h
  case tryLock => split at h <;> [simp at h; (split at h <;> simp at h)]
  case check => cases op <;> simp at h
  case construct => cases op <;> simp at h
  case take => cases hd : m.data p <;> simp [hd] at h
  case unlockDone r' =>
    simp at h; subst h
    cases r' <;> simp [SPC.fits] at hf ⊢ <;> exact hf
  all_goals simp at h

end Stdgpu.SlotConc
