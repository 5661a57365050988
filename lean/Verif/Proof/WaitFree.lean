import Verif.Proof.SlotQuiet
/-! Executions of the locked-slot protocol in which all operations are pushes, or all are pops: no thread ever waits. -/
namespace Stdgpu.SlotConc
open Stdgpu.Conc

variable {C K F α : Type} {fr : Front C K F} {cap : Nat} {c₀ : Multiset α} {programs : List (List (Op K α))}
  {tick : Nat → Int} {s : Sys (Mem C α) (Thread K F α)} {b : Bool}

/-- What the threads know in an execution with one kind of operations. -/
structure Clean (b : Bool) (s : Sys (Mem C α) (Thread K F α)) : Prop where
  fin : ∀ t ∈ s.threads, ∀ p r, t.pc = .slot p (.unlockDone r) → s.shared.slots.occ p = b
  retry : ∀ t ∈ s.threads, ∀ p, t.pc ≠ .slot p .unlockRetry

theorem head_kind (h : SInv fr cap c₀ programs tick s) (hk : ∀ p ∈ programs, ∀ op ∈ p, op.isPush = b)
    (t : Thread K F α) (ht : t ∈ s.threads) {op : Op K α} {rest : List (Op K α)} (e : t.todo = op :: rest) :
    op.isPush = b := by
  obtain ⟨p, hp, e'⟩ := prog_mem h t ht
  exact hk p hp op (by rw [e', e]; simp)

/-- A thread at its slot finds the lock free, and the occupied bit with the value it waits for. -/
theorem slot_free (h : SInv fr cap c₀ programs tick s) (hk : ∀ p ∈ programs, ∀ op ∈ p, op.isPush = b)
    (ht1 : ∀ p, p < cap → 0 ≤ tick p ∧ tick p ≤ 1) (hc : Clean b s) {i : Nat} {t : Thread K F α}
    (hi : s.threads[i]? = some t) {p : Nat} {sp : SPC α} (hpc : t.pc = .slot p sp) (hsp : sp.pend = true) :
    s.shared.slots.occ p = !b ∧ (sp = .tryLock → s.shared.slots.locks p = false) := by
  have hmem := List.mem_of_getElem? hi
  obtain ⟨hp, op, rest, htodo, hfit⟩ := (h.shape t hmem).1 p sp hpc
  have hop := head_kind h hk t hmem htodo
  have htk := h.ticks p hp
  obtain ⟨k0, k1⟩ := ht1 p hp
  have other : (s.threads.map (pendN (!b) p)).sum = 0 := by
    rw [sum_map_eq_zero]
    intro u hu
    unfold pendN
    split
    · next op' _ q s' e1 e2 =>
      have := head_kind h hk u hu e1
      rw [if_neg (by rw [this]; cases b <;> simp)]
    · rfl
  have mine : pendN b p t = 1 := by simp [pendN, hpc, htodo, hsp, hop]
  have hsum := le_sum_map (pendN b p) s.threads t hmem
  have hocc : s.shared.slots.occ p = !b := by
    cases b with
    | true =>
      simp only [Bool.not_true] at other ⊢
      rw [other] at htk
      cases ho : s.shared.slots.occ p with
      | false => rfl
      | true => rw [ho] at htk; simp only [Bool.toNat_true] at htk; omega
    | false =>
      simp only [Bool.not_false] at other ⊢
      rw [other] at htk
      cases ho : s.shared.slots.occ p with
      | true => rfl
      | false => rw [ho] at htk; simp only [Bool.toNat_false] at htk; omega
  refine ⟨hocc, fun e => ?_⟩
  subst e
  cases hlk : s.shared.slots.locks p with
  | false => rfl
  | true =>
    exfalso
    have hl := h.locks p hp
    rw [hlk] at hl
    obtain ⟨j, u, hj, hu⟩ := exists_of_sum_pos (holdsN p) s.threads (by rw [hl]; decide)
    have humem := List.mem_of_getElem? hj
    unfold holdsN at hu
    split at hu
    · omega
    · next q sp' hupc =>
      have hq : q = p ∧ sp'.inCS = true := by
        by_contra hne; rw [if_neg hne] at hu; omega
      obtain ⟨rfl, hcs⟩ := hq
      obtain ⟨-, op', rest', hutodo, hufit⟩ := (h.shape u humem).1 q sp' hupc
      have hop' := head_kind h hk u humem hutodo
      have hkn := h.knows u humem
      by_cases hpend : sp'.pend = true
      · have hij : i ≠ j := by
          rintro rfl
          rw [hi] at hj; cases hj
          rw [hpc] at hupc; cases hupc
          simp [SPC.inCS] at hcs
        have h2 := add_le_sum_map (pendN b q) s.threads i j t u hij hi hj
        have : pendN b q u = 1 := by simp [pendN, hupc, hutodo, hpend, hop']
        rw [mine, this] at h2
        cases b with
        | true => simp only [Bool.not_true] at other; rw [other] at htk; omega
        | false => simp only [Bool.not_false] at other; rw [other, hocc] at htk; simp only [Bool.not_false, Bool.toNat_true] at htk; omega
      · rw [← hop'] at hocc
        cases sp' with
        | take =>
          simp only [Knows, hupc] at hkn
          simp only [SPC.fits] at hufit
          rw [hufit, hkn] at hocc; simp at hocc
        | destroy v =>
          simp only [Knows, hupc] at hkn
          simp only [SPC.fits] at hufit
          rw [hufit, hkn.1] at hocc; simp at hocc
        | unlockDone r =>
          have := hc.fin u humem q r hupc
          rw [hop', this] at hocc
          cases b <;> simp at hocc
        | _ => simp [SPC.pend] at hpend

/-- Only steps to the value `b` change an occupied bit. -/
theorem clean_step (h : SInv fr cap c₀ programs tick s) (hk : ∀ p ∈ programs, ∀ op ∈ p, op.isPush = b)
    (ht1 : ∀ p, p < cap → 0 ≤ tick p ∧ tick p ≤ 1) (hc : Clean b s) {i : Nat} {t : Thread K F α}
    (hi : s.threads[i]? = some t) :
    Clean b ⟨(step fr s.shared t).1, s.threads.set i (step fr s.shared t).2⟩ := by
  have hmem := List.mem_of_getElem? hi
  -- the bits
  have bits : ∀ p, s.shared.slots.occ p = b → (step fr s.shared t).1.slots.occ p = b := by
    intro p hp
    cases htodo : t.todo with
    | nil => simpa [step, htodo] using hp
    | cons op rest =>
      cases hpc : t.pc with
      | front f =>
        simp only [step, htodo, hpc]
        cases (fr.step s.shared.ctr op.isPush op.kind f).2 <;> exact hp
      | slot q sp =>
        obtain ⟨-, op', rest', e, hfit⟩ := (h.shape t hmem).1 q sp hpc
        rw [htodo] at e; cases e
        have hop := head_kind h hk t hmem htodo
        have : (step fr s.shared t).1.slots = (slotStep s.shared.slots op q sp).1 := by
          simp only [step, htodo, hpc]
          cases (slotStep s.shared.slots op q sp).2 <;> rfl
        rw [this]
        cases sp with
        | tryLock => simp only [slotStep]; split; · exact hp
                     split <;> exact hp
        | check => cases op <;> exact hp
        | construct => cases op <;> exact hp
        | setOcc =>
          simp only [SPC.fits] at hfit
          simp only [slotStep, upd]
          split
          · rw [← hop, hfit]
          · exact hp
        | resetOcc =>
          simp only [SPC.fits] at hfit
          simp only [slotStep, upd]
          split
          · rw [← hop, hfit]
          · exact hp
        | take => simp only [slotStep]; cases s.shared.slots.data q <;> exact hp
        | destroy v => exact hp
        | unlockRetry => exact hp
        | unlockDone r => exact hp
  -- the thread itself
  have own : (∀ p r, (step fr s.shared t).2.pc = .slot p (.unlockDone r) → (step fr s.shared t).1.slots.occ p = b) ∧
      ∀ p, (step fr s.shared t).2.pc ≠ .slot p .unlockRetry := by
    cases htodo : t.todo with
    | nil =>
      have e : step fr s.shared t = (s.shared, t) := by simp [step, htodo]
      rw [e]
      exact ⟨hc.fin t hmem, hc.retry t hmem⟩
    | cons op rest =>
      cases hpc : t.pc with
      | front f =>
        simp only [step, htodo, hpc]
        cases (fr.step s.shared.ctr op.isPush op.kind f).2 <;> simp
      | slot q sp =>
        obtain ⟨-, op', rest', e, hfit⟩ := (h.shape t hmem).1 q sp hpc
        rw [htodo] at e; cases e
        have hop := head_kind h hk t hmem htodo
        cases sp with
        | tryLock =>
          by_cases h1 : s.shared.slots.cap ≤ q
          · simp [step, htodo, hpc, slotStep, h1]
          · cases h2 : s.shared.slots.locks q <;> simp [step, htodo, hpc, slotStep, h1, h2]
        | check =>
          have ho := (slot_free h hk ht1 hc hi hpc rfl).1
          rw [← hop] at ho
          cases op with
          | push k x => simp only [Op.isPush] at ho; simp [step, htodo, hpc, slotStep, ho]
          | pop k => simp only [Op.isPush] at ho; simp [step, htodo, hpc, slotStep, ho]
        | construct => cases op <;> simp [step, htodo, hpc, slotStep]
        | setOcc =>
          simp only [SPC.fits] at hfit
          simp only [step, htodo, hpc, slotStep]
          refine ⟨?_, by simp⟩
          intro p r e
          cases e
          simp [upd, ← hop, hfit]
        | resetOcc => simp [step, htodo, hpc, slotStep]
        | take => simp only [step, htodo, hpc, slotStep]; cases s.shared.slots.data q <;> simp
        | destroy v =>
          have hkn := h.knows t hmem
          simp only [Knows, hpc] at hkn
          simp only [SPC.fits] at hfit
          simp only [step, htodo, hpc, slotStep]
          refine ⟨?_, by simp⟩
          intro p r e
          cases e
          rw [← hop, hfit]; exact hkn.1
        | unlockRetry => exact absurd hpc (hc.retry t hmem q)
        | unlockDone r => simp [step, htodo, hpc, slotStep]
  constructor
  · intro u hu p r hpc
    rcases mem_set_cases _ _ _ _ hu with rfl | ⟨j, hj, hju⟩
    · exact own.1 p r hpc
    · exact bits p (hc.fin u (List.mem_of_getElem? hju) p r hpc)
  · intro u hu p
    rcases mem_set_cases _ _ _ _ hu with rfl | ⟨j, hj, hju⟩
    · exact own.2 p
    · exact hc.retry u (List.mem_of_getElem? hju) p

theorem clean_init (m : Mem C α) (programs : List (List (Op K α))) : Clean b (init fr m programs) := by
  constructor
  · intro t ht p r hpc
    simp only [init, List.mem_map] at ht
    obtain ⟨_, -, rfl⟩ := ht
    simp at hpc
  · intro t ht p hpc
    simp only [init, List.mem_map] at ht
    obtain ⟨_, -, rfl⟩ := ht
    simp at hpc

/-! ### Own steps -/

def pcLeft (φ : F → Nat) : PC F α → Nat
  | .front f => φ f + 6
  | .slot _ .tryLock => 6
  | .slot _ .check => 5
  | .slot _ .resetOcc => 4
  | .slot _ .construct | .slot _ .take => 3
  | .slot _ .setOcc | .slot _ (.destroy _) => 2
  | .slot _ .unlockRetry | .slot _ (.unlockDone _) => 1

/-- Bound on the number of steps the thread still needs. -/
def left (φ : F → Nat) (start : F) (t : Thread K F α) : Nat :=
  match t.todo with
  | [] => 0
  | _ :: rest => rest.length * (φ start + 6) + pcLeft φ t.pc

theorem left_next (φ : F → Nat) (start : F) (rest : List (Op K α)) (d : List (Op K α × Res α)) :
    left φ start ⟨rest, .front start, d⟩ = rest.length * (φ start + 6) := by
  cases rest with
  | nil => simp [left]
  | cons a l => simp [left, pcLeft, Nat.add_mul]

theorem pcLeft_pos {φ : F → Nat} (pc : PC F α) : 0 < pcLeft φ pc := by
  cases pc with
  | front f => simp [pcLeft]
  | slot p s => cases s <;> simp [pcLeft]

theorem left_step (φ : F → Nat) (hφ : ∀ c b k f c' f', fr.step c b k f = (c', .cont f') → φ f' < φ f)
    (hφ1 : ∀ f, 0 < φ f) (h : SInv fr cap c₀ programs tick s) (hk : ∀ p ∈ programs, ∀ op ∈ p, op.isPush = b)
    (ht1 : ∀ p, p < cap → 0 ≤ tick p ∧ tick p ≤ 1) (hc : Clean b s) {i : Nat} {t : Thread K F α}
    (hi : s.threads[i]? = some t) (hne : t.todo ≠ []) :
    left φ fr.start (step fr s.shared t).2 < left φ fr.start t := by
  have hmem := List.mem_of_getElem? hi
  cases htodo : t.todo with
  | nil => exact absurd htodo hne
  | cons op rest =>
    cases hpc : t.pc with
    | front f =>
      rcases e : fr.step s.shared.ctr op.isPush op.kind f with ⟨c', o⟩
      cases o with
      | cont f' => have := hφ _ _ _ _ _ _ e; simp [step, htodo, hpc, e, left, pcLeft]; omega
      | fail =>
        have : (step fr s.shared t).2 = ⟨rest, .front fr.start, t.done ++ [(op, failRes op)]⟩ := by
          simp [step, htodo, hpc, e]
        rw [this, left_next]
        simp [left, htodo, hpc, pcLeft]
      | go p => have := hφ1 f; simp [step, htodo, hpc, e, left, pcLeft]; omega
    | slot p sp =>
      obtain ⟨hp, op', rest', e, hfit⟩ := (h.shape t hmem).1 p sp hpc
      rw [htodo] at e; cases e
      have hop := head_kind h hk t hmem htodo
      cases sp with
      | tryLock =>
        have hl := (slot_free h hk ht1 hc hi hpc rfl).2 rfl
        have hcap := h.hcap
        simp [step, htodo, hpc, slotStep, hl, hcap, Nat.not_le.2 hp, left, pcLeft]
      | check =>
        have ho := (slot_free h hk ht1 hc hi hpc rfl).1
        rw [← hop] at ho
        cases op with
        | push k x => simp only [Op.isPush] at ho; simp [step, htodo, hpc, slotStep, ho, left, pcLeft]
        | pop k => simp only [Op.isPush] at ho; simp [step, htodo, hpc, slotStep, ho, left, pcLeft]
      | construct =>
        simp only [SPC.fits] at hfit
        cases op with
        | push k x => simp [step, htodo, hpc, slotStep, left, pcLeft]
        | pop k => simp [Op.isPush] at hfit
      | setOcc => simp [step, htodo, hpc, slotStep, left, pcLeft]
      | resetOcc => simp [step, htodo, hpc, slotStep, left, pcLeft]
      | take =>
        have hkn := h.knows t hmem
        simp only [Knows, hpc] at hkn
        have hx := extra_sum_of_holder h t hmem p hp (by simp [holdsN, hpc, SPC.inCS])
        have hl := h.live p hp
        rw [hx, hkn] at hl
        simp [extraN, hpc, SPC.extra] at hl
        cases hd : s.shared.slots.data p with
        | none => rw [hd] at hl; simp at hl
        | some v => simp [step, htodo, hpc, slotStep, hd, left, pcLeft]
      | destroy v => simp [step, htodo, hpc, slotStep, left, pcLeft]
      | unlockRetry => exact absurd hpc (hc.retry t hmem p)
      | unlockDone r =>
        have : (step fr s.shared t).2 = ⟨rest, .front fr.start, t.done ++ [(op, r)]⟩ := by
          simp [step, htodo, hpc, slotStep]
        rw [this, left_next]
        simp [left, htodo, hpc, pcLeft]

/-- The number of operations a thread has completed after a number of its own steps. -/
theorem wait_free (φ : F → Nat) (hφ : ∀ c b k f c' f', fr.step c b k f = (c', .cont f') → φ f' < φ f)
    (hφ1 : ∀ f, 0 < φ f) (I : Sys (Mem C α) (Thread K F α) → Prop)
    (hI : ∀ s, I s → ∃ tick, SInv fr cap c₀ programs tick s ∧ ∀ p, p < cap → 0 ≤ tick p ∧ tick p ≤ 1)
    (hstep : ∀ s i t, I s → s.threads[i]? = some t → I ⟨(step fr s.shared t).1, s.threads.set i (step fr s.shared t).2⟩)
    (hk : ∀ p ∈ programs, ∀ op ∈ p, op.isPush = b) (m : Mem C α) (h0 : I (init fr m programs)) (sched : List Nat)
    (i : Nat) (p : List (Op K α)) (hp : programs[i]? = some p) :
    ∃ t, (run (step fr) (init fr m programs) sched).threads[i]? = some t ∧
      min p.length (sched.count i / (φ fr.start + 6)) ≤ t.done.length := by
  have key : ∀ (l : List Nat) (s : Sys (Mem C α) (Thread K F α)) (t : Thread K F α), I s → Clean b s →
      s.threads[i]? = some t → ∃ t', (run (step fr) s l).threads[i]? = some t' ∧ I (run (step fr) s l) ∧
        (left φ fr.start t' + l.count i ≤ left φ fr.start t ∨ t'.todo = []) := by
    intro l
    induction l with
    | nil => intro s t hs _ ht; exact ⟨t, ht, hs, .inl (by simp)⟩
    | cons j l ih =>
      intro s t hs hc ht
      rw [run_cons]
      cases hj : s.threads[j]? with
      | none =>
        have : stepAt (step fr) s j = s := by simp [stepAt, hj]
        rw [this]
        obtain ⟨t', h1, h2, h3⟩ := ih s t hs hc ht
        refine ⟨t', h1, h2, ?_⟩
        have hji : j ≠ i := by rintro rfl; rw [ht] at hj; simp at hj
        rwa [List.count_cons_of_ne hji]
      | some u =>
        rw [stepAt_eq _ _ _ _ hj]
        obtain ⟨tick, hv, h01⟩ := hI s hs
        have hs' := hstep s j u hs hj
        have hc' := clean_step hv hk h01 hc hj
        by_cases hji : j = i
        · subst hji
          rw [ht] at hj; cases hj
          have hlt := (List.getElem?_eq_some_iff.1 ht).1
          obtain ⟨t', h1, h2, h3⟩ := ih _ (step fr s.shared t).2 hs' hc' (by simp [hlt])
          refine ⟨t', h1, h2, ?_⟩
          by_cases hne : t.todo = []
          · rcases h3 with h3 | h3
            · have e : step fr s.shared t = (s.shared, t) := by simp [step, hne]
              rw [e] at h3
              right
              have : left φ fr.start t = 0 := by simp [left, hne]
              cases h4 : t'.todo with
              | nil => rfl
              | cons a b =>
                have := pcLeft_pos (φ := φ) t'.pc
                simp only [left, h4, hne] at h3
                omega
            · exact .inr h3
          · have := left_step φ hφ hφ1 hv hk h01 hc ht hne
            rcases h3 with h3 | h3
            · left; rw [List.count_cons_self]; omega
            · exact .inr h3
        · have ht' : (s.threads.set j (step fr s.shared u).2)[i]? = some t := by
            rw [List.getElem?_set_ne hji]; exact ht
          obtain ⟨t', h1, h2, h3⟩ := ih _ t hs' hc' ht'
          refine ⟨t', h1, h2, ?_⟩
          rwa [List.count_cons_of_ne hji]
  have hinit : (init fr m programs).threads[i]? = some ⟨p, .front fr.start, []⟩ := by
    simp [init, hp]
  obtain ⟨t, h1, h2, h3⟩ := key sched _ _ h0 (clean_init m programs) hinit
  refine ⟨t, h1, ?_⟩
  obtain ⟨tick, hv, -⟩ := hI _ h2
  have hprog := hv.prog i t h1
  rw [hp] at hprog
  have hlen : p.length = t.done.length + t.todo.length := by
    have := congrArg (fun o => (o.map List.length)) hprog
    simpa using this
  rcases h3 with h3 | h3
  · rw [left_next] at h3
    cases h4 : t.todo with
    | nil => rw [h4] at hlen; simp at hlen; omega
    | cons a rest =>
      have h5 := pcLeft_pos (φ := φ) t.pc
      simp only [left, h4] at h3
      rw [h4, List.length_cons] at hlen
      have h6 : sched.count i / (φ fr.start + 6) < p.length - rest.length := by
        rw [Nat.div_lt_iff_lt_mul (by omega), Nat.sub_mul]
        omega
      omega
  · rw [h3] at hlen; simp at hlen; omega

end Stdgpu.SlotConc
