import Verif.Spec.Stable
import Verif.Proof.SlotVals
/-! Slots that no operation reaches. -/
namespace Stdgpu.Stable
open Stdgpu.SlotConc Stdgpu.Conc

variable {C K F α : Type}

/-- Number of operations of kind `q` of a thread that have not got their position yet. -/
def rem (q : Op K α → Bool) (t : Thread K F α) : Int :=
  match t.todo with
  | [] => 0
  | op :: rest => (rest.countP q : Int) + (match t.pc with | .front _ => if q op then 1 else 0 | .slot _ _ => 0)

theorem rem_start (q : Op K α → Bool) (l : List (Op K α)) (f : F) (d : List (Op K α × Res α)) :
    rem q (⟨l, .front f, d⟩ : Thread K F α) = l.countP q := by
  cases l with
  | nil => rfl
  | cons a l => simp only [rem, List.countP_cons]; split <;> simp

theorem rem_nonneg (q : Op K α → Bool) (t : Thread K F α) : 0 ≤ rem q t := by
  unfold rem
  split
  · exact le_refl _
  · split
    · split <;> omega
    · omega

theorem sum_rem_nonneg (q : Op K α → Bool) (l : List (Thread K F α)) : 0 ≤ (l.map (rem q)).sum := by
  induction l with
  | nil => simp
  | cons a l ih => have := rem_nonneg q a; simp only [List.map_cons, List.sum_cons]; omega

theorem sum_rem_init (q : Op K α → Bool) (fr : Front C K F) (m : Mem C α) (progs : List (List (Op K α))) :
    (((init fr m progs).threads.map (rem q)).sum : Int) = progs.flatten.countP q := by
  simp only [init]
  induction progs with
  | nil => rfl
  | cons a l ih => simp only [List.map_cons, List.sum_cons, ih, rem_start, List.flatten_cons, List.countP_append]; push_cast; rfl

/-- A slot step changes only its own slot. -/
theorem slot_other (m : Slots α) (op : Op K α) (p : Nat) (sp : SPC α) (q : Nat) (h : q ≠ p) :
    (slotStep m op p sp).1.data q = m.data q ∧ (slotStep m op p sp).1.occ q = m.occ q ∧
    (slotStep m op p sp).1.locks q = m.locks q := by
  cases sp with
  | tryLock => simp only [slotStep]; split <;> (try split) <;> simp [upd, h]
  | check => cases op <;> simp [slotStep]
  | construct => cases op <;> simp [slotStep, upd, h]
  | take => simp only [slotStep]; split <;> simp
  | _ => simp [slotStep, upd, h]

/-- The outcome of a step in terms of the front end. -/
theorem step_outcome (fr : Front C K F) (m : Mem C α) (t : Thread K F α) :
    (step fr m t = (m, t)) ∨
    (∃ f op rest c' f', t.todo = op :: rest ∧ t.pc = .front f ∧ fr.step m.ctr op.isPush op.kind f = (c', .cont f') ∧
      (step fr m t).1 = { m with ctr := c' } ∧ (∀ q, rem q (step fr m t).2 = rem q t) ∧
      ∀ p sp, (step fr m t).2.pc ≠ .slot p sp) ∨
    (∃ f op rest c', t.todo = op :: rest ∧ t.pc = .front f ∧ fr.step m.ctr op.isPush op.kind f = (c', .fail) ∧
      (step fr m t).1 = { m with ctr := c' } ∧ (∀ q, rem q (step fr m t).2 = rem q t - if q op then 1 else 0) ∧
      ∀ p sp, (step fr m t).2.pc ≠ .slot p sp) ∨
    (∃ f op rest c' p, t.todo = op :: rest ∧ t.pc = .front f ∧ fr.step m.ctr op.isPush op.kind f = (c', .go p) ∧
      (step fr m t).1 = { m with ctr := c' } ∧ (∀ q, rem q (step fr m t).2 = rem q t - if q op then 1 else 0) ∧
      (step fr m t).2.pc = .slot p .tryLock ∧ (step fr m t).2.todo = op :: rest) ∨
    (∃ p sp op rest, t.todo = op :: rest ∧ t.pc = .slot p sp ∧ (step fr m t).1 = { m with slots := (slotStep m.slots op p sp).1 } ∧
      (∀ q, rem q (step fr m t).2 = rem q t) ∧
      ∀ p' sp', (step fr m t).2.pc = .slot p' sp' → p' = p ∧ (step fr m t).2.todo = op :: rest) := by
  obtain ⟨todo, pc, done⟩ := t
  cases todo with
  | nil => left; rfl
  | cons op rest =>
    right
    cases pc with
    | front f =>
      rcases hr : fr.step m.ctr op.isPush op.kind f with ⟨c', out⟩
      cases out with
      | cont f' =>
        left
        refine ⟨f, op, rest, c', f', rfl, rfl, hr, by simp [step, hr], ?_, ?_⟩ <;> simp [step, hr, rem]
      | fail =>
        right; left
        refine ⟨f, op, rest, c', rfl, rfl, hr, by simp [step, hr], ?_, by simp [step, hr]⟩
        intro q
        have e : (step fr m ⟨op :: rest, .front f, done⟩).2 = ⟨rest, .front fr.start, done ++ [(op, failRes op)]⟩ := by
          simp [step, hr]
        rw [e, rem_start]
        simp only [rem]
        split <;> omega
      | go p =>
        right; right; left
        refine ⟨f, op, rest, c', p, rfl, rfl, hr, by simp [step, hr], ?_, by simp [step, hr], by simp [step, hr]⟩
        intro q
        simp only [step, hr, rem]
        split <;> omega
    | slot p sp =>
      right; right; right
      rcases hr : slotStep m.slots op p sp with ⟨sl, out⟩
      refine ⟨p, sp, op, rest, rfl, rfl, ?_, ?_, ?_⟩
      · cases out <;> simp [step, hr]
      · intro q
        cases out with
        | inl sp' => simp [step, hr, rem]
        | inr r =>
          have e : (step fr m ⟨op :: rest, .slot p sp, done⟩).2 = ⟨rest, .front fr.start, done ++ [(op, r)]⟩ := by
            simp [step, hr]
          rw [e, rem_start]
          simp [rem]
      · intro p' sp' h
        cases out with
        | inl s' => simp [step, hr] at h ⊢; exact h.1.symm
        | inr r => simp [step, hr] at h

/-- The slots in `Prot` are as in `m₀`, and no thread works on one of them. `W` is what is known about the slot of an operation. -/
structure Guard (W : Op K α → Nat → Prop) (Prot : Nat → Prop) (m₀ : Slots α) (s : Sys (Mem C α) (Thread K F α)) : Prop where
  thr : ∀ t ∈ s.threads, ∀ p sp op rest, t.pc = .slot p sp → t.todo = op :: rest → W op p
  same : ∀ p, Prot p → s.shared.slots.data p = m₀.data p ∧ s.shared.slots.occ p = m₀.occ p ∧ s.shared.slots.locks p = m₀.locks p

theorem guard_step {W : Op K α → Nat → Prop} {Prot : Nat → Prop} {m₀ : Slots α} (hW : ∀ op p, W op p → ¬ Prot p) (fr : Front C K F)
    (s : Sys (Mem C α) (Thread K F α)) (i : Nat) (t : Thread K F α) (h : Guard W Prot m₀ s) (ht : s.threads[i]? = some t)
    (hgo : ∀ f op rest c' p, t.todo = op :: rest → t.pc = .front f → fr.step s.shared.ctr op.isPush op.kind f = (c', .go p) → W op p) :
    Guard W Prot m₀ ⟨(step fr s.shared t).1, s.threads.set i (step fr s.shared t).2⟩ := by
  have ht' := List.mem_of_getElem? ht
  have keep : ∀ u ∈ s.threads.set i (step fr s.shared t).2, u = (step fr s.shared t).2 ∨ u ∈ s.threads := by
    intro u hu
    rcases mem_set_cases _ _ _ _ hu with h | ⟨j, -, hj⟩
    · exact .inl h
    · exact .inr (List.mem_of_getElem? hj)
  have build : (∀ p sp op rest, (step fr s.shared t).2.pc = .slot p sp → (step fr s.shared t).2.todo = op :: rest → W op p) →
      (∀ p, Prot p → (step fr s.shared t).1.slots.data p = s.shared.slots.data p ∧
        (step fr s.shared t).1.slots.occ p = s.shared.slots.occ p ∧ (step fr s.shared t).1.slots.locks p = s.shared.slots.locks p) →
      Guard W Prot m₀ ⟨(step fr s.shared t).1, s.threads.set i (step fr s.shared t).2⟩ := by
    intro b1 b2
    refine ⟨?_, ?_⟩
    · intro u hu
      rcases keep u hu with rfl | hu
      · exact b1
      · exact h.thr u hu
    · intro p hp
      obtain ⟨c1, c2, c3⟩ := b2 p hp
      obtain ⟨d1, d2, d3⟩ := h.same p hp
      exact ⟨c1.trans d1, c2.trans d2, c3.trans d3⟩
  rcases step_outcome fr s.shared t with e | ⟨f, op, rest, c', f', h1, h2, h3, h4, h5, h6⟩ | ⟨f, op, rest, c', h1, h2, h3, h4, h5, h6⟩ |
      ⟨f, op, rest, c', p, h1, h2, h3, h4, h5, h6, h7⟩ | ⟨p, sp, op, rest, h1, h2, h3, h4, h5⟩
  · exact build (by rw [e]; exact h.thr t ht') (by rw [e]; exact fun _ _ => ⟨rfl, rfl, rfl⟩)
  · exact build (fun p sp _ _ hp => absurd hp (h6 p sp)) (by rw [h4]; exact fun _ _ => ⟨rfl, rfl, rfl⟩)
  · exact build (fun p sp _ _ hp => absurd hp (h6 p sp)) (by rw [h4]; exact fun _ _ => ⟨rfl, rfl, rfl⟩)
  · refine build (fun p' sp op' rest' hp ho => ?_) (by rw [h4]; exact fun _ _ => ⟨rfl, rfl, rfl⟩)
    rw [h6] at hp
    rw [h7] at ho
    cases hp; cases ho
    exact hgo f op rest c' p h1 h2 h3
  · have hw := h.thr t ht' p sp op rest h2 h1
    refine build (fun p' sp' op' rest' hp ho => ?_) ?_
    · obtain ⟨rfl, e⟩ := h5 p' sp' hp
      rw [e] at ho
      cases ho
      exact hw
    · intro q hq
      rw [h3]
      exact slot_other _ _ _ _ _ (fun e => hW op p hw (e ▸ hq))

/-- Counting of the operations that have got their position. -/
theorem rem_set (q : Op K α → Bool) (s : Sys (Mem C α) (Thread K F α)) (i : Nat) (t t' : Thread K F α) (ht : s.threads[i]? = some t) :
    ((s.threads.set i t').map (rem q)).sum = (s.threads.map (rem q)).sum + rem q t' - rem q t := by
  have := sum_map_set (rem q) s.threads i t t' ht
  omega

theorem rem_le_sum (q : Op K α → Bool) (l : List (Thread K F α)) (t : Thread K F α) (h : t ∈ l) : rem q t ≤ (l.map (rem q)).sum := by
  induction l with
  | nil => cases h
  | cons a l ih =>
    have := sum_rem_nonneg q l
    have := rem_nonneg q a
    simp only [List.map_cons, List.sum_cons]
    rcases List.mem_cons.1 h with rfl | h
    · omega
    · have := ih h; omega

section Vector
open Stdgpu.Vector

structure VS (L : Int) (m₀ : Slots α) (s : Sys (Vec α) (Thread Unit Vector.FPC α)) : Prop where
  ctr : L + (s.threads.map (rem (fun op => !op.isPush))).sum ≤ s.shared.ctr
  guard : Guard (fun _ p => L ≤ p) (fun p => (p : Int) < L) m₀ s

theorem vs_step (cap : Nat) {L : Int} {m₀ : Slots α} (s : Sys (Vec α) (Thread Unit Vector.FPC α)) (i : Nat)
    (t : Thread Unit Vector.FPC α) (h : VS L m₀ s) (ht : s.threads[i]? = some t) :
    VS L m₀ ⟨(step (vfront cap) s.shared t).1, s.threads.set i (step (vfront cap) s.shared t).2⟩ := by
  have hc := h.ctr
  have hs := rem_set (fun op => !op.isPush) s i t (step (vfront cap) s.shared t).2 ht
  have hle := rem_le_sum (fun op => !op.isPush) s.threads t (List.mem_of_getElem? ht)
  refine ⟨?_, guard_step (fun _ _ h => by simpa using h) _ s i t h.guard ht ?_⟩
  · simp only
    rw [hs]
    rcases step_outcome (vfront cap) s.shared t with e | ⟨f, op, rest, c', f', h1, h2, h3, h4, h5, h6⟩ |
      ⟨f, op, rest, c', h1, h2, h3, h4, h5, h6⟩ | ⟨f, op, rest, c', p, h1, h2, h3, h4, h5, h6, h7⟩ | ⟨p, sp, op, rest, h1, h2, h3, h4, h5⟩
    · rw [e]; simp only; omega
    · rw [h4, h5]
      cases f <;> simp only [vfront] at h3 <;> split at h3 <;> split at h3 <;> cases h3 <;> simp only <;> omega
    · rw [h4, h5]
      cases f <;> cases hb : op.isPush <;> simp only [vfront, hb] at h3 <;> simp at h3 <;> split at h3 <;> cases h3 <;>
        simp <;> omega
    · rw [h4, h5]
      cases f <;> cases hb : op.isPush <;> simp only [vfront, hb] at h3 <;> simp at h3 <;> split at h3 <;> cases h3 <;>
        simp <;> omega
    · rw [h3, h4]; simp only; omega
  · intro f op rest c' p h1 h2 h3
    have hr : (if (!op.isPush) = true then 1 else 0 : Int) ≤ rem (fun op => !op.isPush) t := by
      simp only [rem, h1, h2]; omega
    cases f <;> cases hb : op.isPush <;> simp only [vfront, hb] at h3 <;> simp at h3 <;> split at h3 <;> cases h3 <;>
      simp [hb] at hr <;> omega

end Vector

section Deque
open Stdgpu.Deque

/-- The counters `_begin` and `_end` without the reduction modulo the capacity. -/
def Wraps (cap : Nat) (x : Nat) (X : Int) : Prop := x < cap ∧ (x : Int) = X % cap

theorem wraps_inc {cap x : Nat} {X : Int} (h : Wraps cap x X) : Wraps cap (Atomic.backendIncMod x (cap - 1)) (X + 1) := by
  obtain ⟨h1, h2⟩ := h
  have e : (X + 1) % (cap : Int) = ((x : Int) + 1) % cap := by rw [h2, Int.emod_add_emod]
  unfold Atomic.backendIncMod
  split
  · refine ⟨by omega, ?_⟩
    rw [e, show (x : Int) + 1 = cap by omega, Int.emod_self]; rfl
  · refine ⟨by omega, ?_⟩
    rw [e, Int.emod_eq_of_lt (by omega) (by omega)]; push_cast; rfl

theorem wraps_dec {cap x : Nat} {X : Int} (h : Wraps cap x X) : Wraps cap (Atomic.backendDecMod x (cap - 1)) (X - 1) ∧
    Wraps cap (if x = 0 then cap - 1 else x - 1) (X - 1) := by
  obtain ⟨h1, h2⟩ := h
  have e : (X - 1) % (cap : Int) = ((x : Int) - 1) % cap := by rw [h2, Int.emod_sub_emod]
  have key : Wraps cap (if x = 0 then cap - 1 else x - 1) (X - 1) := by
    split
    · refine ⟨by omega, ?_⟩
      subst x
      rw [e, ← Int.add_emod_right, Int.emod_eq_of_lt (by omega) (by omega)]
      omega
    · refine ⟨by omega, ?_⟩
      rw [e, Int.emod_eq_of_lt (by omega) (by omega)]; omega
  refine ⟨?_, key⟩
  unfold Atomic.backendDecMod
  have : (x = 0 ∨ x > cap - 1) ↔ x = 0 := by omega
  simp only [this]
  exact key

/-- The slot of an operation at one of the ends: a position that the operations of this end reach. -/
def DW (cap : Nat) (b0 e0 nPopF nPushF nPopB nPushB : Int) (op : Op Side α) (p : Nat) : Prop :=
  ∃ X, Wraps cap p X ∧
    match op.kind with
    | .front => b0 - nPushF ≤ X ∧ X < b0 + nPopF
    | .back => e0 - nPopB ≤ X ∧ X < e0 + nPushB

/-- Between the operations of the two ends. -/
def DProt (cap : Nat) (b0 e0 nPopF nPopB : Int) (p : Nat) : Prop :=
  ∃ X, Wraps cap p X ∧ b0 + nPopF ≤ X ∧ X < e0 - nPopB

def opQ (push : Bool) (side : Side) (op : Op Side α) : Bool := (op.isPush == push) && decide (op.kind = side)

theorem wraps_ne {cap p : Nat} {X Y : Int} (h1 : Wraps cap p X) (h2 : Wraps cap p Y) (h3 : X < Y) (h4 : Y < X + cap) : False := by
  have e : X % (cap : Int) = Y % cap := h1.2.symm.trans h2.2
  have := Int.emod_emod_of_dvd
  have h5 : (Y - X) % (cap : Int) = 0 := by
    rw [Int.sub_emod, e, sub_self, Int.zero_emod]
  rw [Int.emod_eq_of_lt (by omega) (by omega)] at h5
  omega

structure DS (cap : Nat) (b0 e0 nPopF nPushF nPopB nPushB : Int) (m₀ : Slots α) (s : Sys (Deq α) (Thread Side Deque.FPC α)) : Prop where
  ctr : ∃ B E : Int, Wraps cap s.shared.ctr.begin B ∧ Wraps cap s.shared.ctr.endd E ∧
    B + (s.threads.map (rem (opQ false .front))).sum ≤ b0 + nPopF ∧ b0 - nPushF + (s.threads.map (rem (opQ true .front))).sum ≤ B ∧
    e0 - nPopB + (s.threads.map (rem (opQ false .back))).sum ≤ E ∧ E + (s.threads.map (rem (opQ true .back))).sum ≤ e0 + nPushB
  guard : Guard (DW cap b0 e0 nPopF nPushF nPopB nPushB) (DProt cap b0 e0 nPopF nPopB) m₀ s

theorem ds_step {cap : Nat} {b0 e0 nPopF nPushF nPopB nPushB : Int} {m₀ : Slots α} (hF : e0 - b0 + nPushF ≤ cap)
    (hB : e0 - b0 + nPushB ≤ cap) (h0 : 0 ≤ nPopF ∧ 0 ≤ nPopB) (s : Sys (Deq α) (Thread Side Deque.FPC α)) (i : Nat)
    (t : Thread Side Deque.FPC α) (h : DS cap b0 e0 nPopF nPushF nPopB nPushB m₀ s) (ht : s.threads[i]? = some t) :
    DS cap b0 e0 nPopF nPushF nPopB nPushB m₀
      ⟨(step (dfront cap) s.shared t).1, s.threads.set i (step (dfront cap) s.shared t).2⟩ := by
  obtain ⟨B, E, w1, w2, i1, i2, i3, i4⟩ := h.ctr
  have hs := fun q => rem_set q s i t (step (dfront cap) s.shared t).2 ht
  have hle := fun q => rem_le_sum q s.threads t (List.mem_of_getElem? ht)
  have n1 := fun q => rem_nonneg (F := Deque.FPC) q t
  refine ⟨?_, guard_step ?_ _ s i t h.guard ht ?_⟩
  · simp only [hs]
    rcases step_outcome (dfront cap) s.shared t with e | ⟨f, op, rest, c', f', h1, h2, h3, h4, h5, h6⟩ |
      ⟨f, op, rest, c', h1, h2, h3, h4, h5, h6⟩ | ⟨f, op, rest, c', p, h1, h2, h3, h4, h5, h6, h7⟩ | ⟨p, sp, op, rest, h1, h2, h3, h4, h5⟩
    · rw [e]; exact ⟨B, E, w1, w2, by simp only; omega, by simp only; omega, by simp only; omega, by simp only; omega⟩
    · simp only [h4, h5]
      have hc : c'.begin = s.shared.ctr.begin ∧ c'.endd = s.shared.ctr.endd := by
        cases f <;> simp only [dfront] at h3 <;> (try split at h3) <;> (try split at h3) <;> cases h3 <;> exact ⟨rfl, rfl⟩
      rw [hc.1, hc.2]
      exact ⟨B, E, w1, w2, by omega, by omega, by omega, by omega⟩
    · simp only [h4, h5]
      have hc : c'.begin = s.shared.ctr.begin ∧ c'.endd = s.shared.ctr.endd := by
        cases f <;> simp only [dfront] at h3 <;> (try split at h3) <;> (try split at h3) <;> cases h3 <;> exact ⟨rfl, rfl⟩
      rw [hc.1, hc.2]
      refine ⟨B, E, w1, w2, ?_, ?_, ?_, ?_⟩ <;> split <;> omega
    · simp only [h4, h5]
      cases f with
      | check => simp only [dfront] at h3; split at h3 <;> split at h3 <;> cases h3
      | size => simp only [dfront] at h3; split at h3 <;> split at h3 <;> cases h3
      | pos =>
        simp only [dfront, Prod.mk.injEq, FOut.go.injEq] at h3
        obtain ⟨rfl, rfl⟩ := h3
        have q1 : ∀ b k, opQ b k op = ((op.isPush == b) && decide (op.kind = k)) := fun _ _ => rfl
        cases hk : op.kind <;> cases hb : op.isPush <;> rw [hk, hb] at q1 <;>
          simp only [q1, position, Atomic.fetchIncMod, Atomic.fetchDecMod, if_true, Bool.false_eq_true, if_false, beq_self_eq_true,
            Bool.true_and, decide_true, reduceCtorEq, decide_false, Bool.and_false, Bool.false_and, Bool.and_true,
            show (false == true) = false from rfl, show (true == false) = false from rfl]
        · exact ⟨B + 1, E, wraps_inc w1, w2, by omega, by omega, by omega, by omega⟩
        · exact ⟨B - 1, E, (wraps_dec w1).1, w2, by omega, by omega, by omega, by omega⟩
        · exact ⟨B, E - 1, w1, (wraps_dec w2).1, by omega, by omega, by omega, by omega⟩
        · exact ⟨B, E + 1, w1, wraps_inc w2, by omega, by omega, by omega, by omega⟩
    · simp only [h3, h4]
      exact ⟨B, E, w1, w2, by omega, by omega, by omega, by omega⟩
  · rintro op p ⟨X, hX, hx⟩ ⟨Y, hY, hy1, hy2⟩
    cases hk : op.kind <;> simp only [hk] at hx
    · exact wraps_ne hX hY (by omega) (by omega)
    · exact wraps_ne hY hX (by omega) (by omega)
  · intro f op rest c' p h1 h2 h3
    have hr : ∀ q, (if q op = true then 1 else 0 : Int) ≤ rem q t := by
      intro q; simp only [rem, h1, h2]; omega
    cases f with
    | check => simp only [dfront] at h3; split at h3 <;> split at h3 <;> cases h3
    | size => simp only [dfront] at h3; split at h3 <;> split at h3 <;> cases h3
    | pos =>
      simp only [dfront, Prod.mk.injEq, FOut.go.injEq] at h3
      obtain ⟨rfl, rfl⟩ := h3
      have r1 := hr (opQ false .front)
      have r2 := hr (opQ true .front)
      have r3 := hr (opQ false .back)
      have r4 := hr (opQ true .back)
      have s1 := hle (opQ false .front)
      have s2 := hle (opQ true .front)
      have s3 := hle (opQ false .back)
      have s4 := hle (opQ true .back)
      unfold DW
      cases hk : op.kind <;> cases hb : op.isPush <;>
        simp only [position, Atomic.fetchIncMod, Atomic.fetchDecMod, if_true, Bool.false_eq_true, if_false] <;>
        simp [opQ, hk, hb] at r1 r2 r3 r4
      · exact ⟨B, w1, by omega, by omega⟩
      · exact ⟨B - 1, (wraps_dec w1).2, by omega, by omega⟩
      · exact ⟨E - 1, (wraps_dec w2).2, by omega, by omega⟩
      · exact ⟨E, w2, by omega, by omega⟩

end Deque
end Stdgpu.Stable
