import Verif.Proof.Bitset
import Verif.Proof.Mutex
import Verif.Spec.Packed
/-! The packed slot machine simulates the boolean one. -/
namespace Stdgpu.Packed
open Stdgpu.Conc Stdgpu.SlotConc Stdgpu.Spec
open Stdgpu.Bitset (Bitset WF bitAt)

variable {w : Nat} {C K F α : Type}

theorem divUp_eq (n w : Nat) (hw : 0 < w) : Bitset.divUp n w = (n + w - 1) / w := by
  unfold Bitset.divUp
  have hn := Nat.div_add_mod n w
  have hm := Nat.mod_lt n hw
  by_cases h : n % w = 0
  · simp only [h, ne_eq, not_true_eq_false, if_false]
    symm
    rw [Nat.div_eq_iff hw]
    constructor
    · rw [Nat.mul_comm]; omega
    · rw [Nat.mul_comm]; omega
  · simp only [h, ne_eq, not_false_eq_true, if_true]
    symm
    rw [Nat.div_eq_iff hw]
    constructor
    · rw [Nat.add_mul, Nat.mul_comm]; omega
    · rw [Nat.add_mul, Nat.mul_comm]; omega

theorem _root_.Stdgpu.Spec.Bits.wf {b : Bitset w} {n : Nat} {f : Nat → Bool} (h : Bits b n f) : WF b := by
  refine ⟨h.width, ?_, by rw [h.size]; exact h.small⟩
  rw [h.blocks, Bitset.numberBitBlocks, h.size]
  obtain ⟨k, _, hk⟩ := h.width
  exact (divUp_eq n w (by rw [hk]; exact Nat.two_pow_pos k)).symm

theorem test_bitAt {b : Bitset w} (h : WF b) (n : Nat) (hn : n < b.size) : Bitset.test b n = some (bitAt b n) := by
  exact Bitset.test_refines h n hn

theorem _root_.Stdgpu.Spec.Bits.at {b : Bitset w} {n : Nat} {f : Nat → Bool} (h : Bits b n f) (i : Nat) (hi : i < n) : bitAt b i = f i := by
  have := test_bitAt h.wf i (by rw [h.size]; exact hi)
  rw [h.bits i hi] at this
  exact (Option.some.inj this).symm

theorem _root_.Stdgpu.Spec.Bits.of_wf {b : Bitset w} {n : Nat} {f : Nat → Bool} (h : WF b) (hs : b.size = n)
    (hf : ∀ i, i < n → bitAt b i = f i) : Bits b n f := by
  obtain ⟨k, _, hk⟩ := h.width
  refine ⟨h.width, hs, hs ▸ h.size, ?_, ?_⟩
  · rw [h.len, Bitset.numberBitBlocks, hs, divUp_eq n w (by rw [hk]; exact Nat.two_pow_pos k)]
  · intro i hi
    rw [test_bitAt h i (by omega), hf i hi]

theorem _root_.Stdgpu.Spec.Bits.set {b : Bitset w} {n : Nat} {f : Nat → Bool} (h : Bits b n f) (p : Nat) (hp : p < n) (x : Bool) :
    ∃ b', Bitset.set b p x = some (f p, b') ∧ Bits b' n (upd f p x) := by
  obtain ⟨b', h1, h2, h3, h4⟩ := Mutex.set_bitAt h.wf p (by rw [h.size]; exact hp) x
  refine ⟨b', by rw [h1, h.at p hp], Bits.of_wf h3 (h2.trans h.size) ?_⟩
  intro i hi
  rw [h4 i (by rw [h.size]; exact hi), h.at i hi]
  rfl

theorem _root_.Stdgpu.Spec.Bits.congr {b : Bitset w} {n : Nat} {f g : Nat → Bool} (h : Bits b n f) (hg : ∀ i, i < n → f i = g i) :
    Bits b n g :=
  ⟨h.width, h.size, h.small, h.blocks, fun i hi => by rw [h.bits i hi, hg i hi]⟩

theorem _root_.Stdgpu.Spec.Bits.tryLock {b : Bitset w} {n : Nat} {f : Nat → Bool} (h : Bits b n f) (p : Nat) (hp : p < n) :
    ∃ b', Mutex.tryLock1 b p = some (!f p, b') ∧ Bits b' n (upd f p true) := by
  obtain ⟨b', h1, h2⟩ := h.set p hp true
  exact ⟨b', by simp [Mutex.tryLock1, h1], h2⟩

theorem _root_.Stdgpu.Spec.Bits.unlock {b : Bitset w} {n : Nat} {f : Nat → Bool} (h : Bits b n f) (p : Nat) (hp : p < n) :
    ∃ b', Mutex.unlock b p = some b' ∧ Bits b' n (upd f p false) := by
  obtain ⟨b', h1, h2⟩ := h.set p hp false
  exact ⟨b', by simp [Mutex.unlock, h1], h2⟩

theorem _root_.Stdgpu.Spec.Bits.reset {b : Bitset w} {n : Nat} {f : Nat → Bool} (h : Bits b n f) (p : Nat) (hp : p < n) :
    ∃ b', Bitset.reset b p = some (f p, b') ∧ Bits b' n (upd f p false) := h.set p hp false

theorem _root_.Stdgpu.Spec.Bits.create (k n : Nat) (hk : k < 64) (hn : n < 2 ^ 64) : Bits (Bitset.create (2 ^ k) n) n (fun _ => false) := by
  refine Bits.of_wf (Bitset.create_wf k n hk hn) rfl ?_
  intro i hi
  have := congrArg (fun l => l[i]?) (Bitset.create_abs (2 ^ k) n)
  simp only [Bitset.abs_getElem?] at this
  have hs : (Bitset.create (2 ^ k) n).size = n := rfl
  rw [hs, if_pos hi] at this
  simpa [hi] using this

theorem upd_same (f : Nat → Bool) (p : Nat) (x : Bool) (h : f p = x) : upd f p x = f := by
  funext q; unfold upd; split
  · next e => rw [e, h]
  · rfl

/-- The slots. -/
structure PacksS (m : PSlots w α) (v : Slots α) : Prop where
  cap : m.cap = v.cap
  data : m.data = v.data
  err : m.err = v.err
  locks : Bits m.locks v.cap v.locks
  occ : Bits m.occ v.cap v.occ

/-- The program counter is inside the array, or before the check. -/
def PosOK (cap p : Nat) (s : SPC α) : Prop := s = .tryLock ∨ p < cap

theorem slot_sim {m : PSlots w α} {v : Slots α} (h : PacksS m v) (op : Op K α) (p : Nat) (s : SPC α)
    (hp : PosOK v.cap p s) :
    (pslotStep m op p s).2 = (slotStep v op p s).2 ∧ PacksS (pslotStep m op p s).1 (slotStep v op p s).1 ∧
      (slotStep v op p s).1.cap = v.cap ∧
      (∀ s', (slotStep v op p s).2 = .inl s' → PosOK v.cap p s') := by
  obtain ⟨mc, ml, mo, md, me⟩ := m
  obtain ⟨hc, hd, he, hl, ho⟩ := h
  dsimp only at hc hd he hl ho
  subst hc hd he
  cases s with
  | tryLock =>
    by_cases hge : v.cap ≤ p
    · dsimp only [pslotStep, slotStep]; simp only [if_pos hge]
      refine ⟨by first | rfl | trivial, ⟨rfl, rfl, rfl, hl, ho⟩, by first | rfl | trivial, ?_⟩
      intro s' e; cases e; exact Or.inl rfl
    · have hp' : p < v.cap := by omega
      obtain ⟨b', h1, h2⟩ := hl.tryLock p hp'
      dsimp only [pslotStep, slotStep]; simp only [if_neg hge, h1]
      cases hlk : v.locks p with
      | true =>
        rw [upd_same _ _ _ hlk] at h2
        refine ⟨by first | rfl | trivial, ⟨rfl, rfl, rfl, h2, ho⟩, by first | rfl | trivial, ?_⟩
        intro s' e; cases e; exact Or.inl rfl
      | false =>
        refine ⟨by first | rfl | trivial, ⟨rfl, rfl, rfl, h2, ho⟩, by first | rfl | trivial, ?_⟩
        intro s' _; exact Or.inr hp'
  | check =>
    have hp' : p < v.cap := by rcases hp with h | h; · cases h
                               · exact h
    dsimp only [pslotStep, slotStep]; simp only [ho.bits p hp']
    cases op with
    | push k x => exact ⟨by first | rfl | trivial, ⟨rfl, rfl, rfl, hl, ho⟩, by first | rfl | trivial, fun _ _ => Or.inr hp'⟩
    | pop k => exact ⟨by first | rfl | trivial, ⟨rfl, rfl, rfl, hl, ho⟩, by first | rfl | trivial, fun _ _ => Or.inr hp'⟩
  | construct =>
    have hp' : p < v.cap := by rcases hp with h | h; · cases h
                               · exact h
    cases op with
    | push k x =>
      dsimp only [pslotStep, slotStep]
      exact ⟨by first | rfl | trivial, ⟨rfl, rfl, rfl, hl, ho⟩, by first | rfl | trivial, fun _ _ => Or.inr hp'⟩
    | pop k => exact ⟨by first | rfl | trivial, ⟨rfl, rfl, rfl, hl, ho⟩, by first | rfl | trivial, fun _ _ => Or.inr hp'⟩
  | setOcc =>
    have hp' : p < v.cap := by rcases hp with h | h; · cases h
                               · exact h
    obtain ⟨b', h1, h2⟩ := ho.set p hp' true
    dsimp only [pslotStep, slotStep]; simp only [h1]
    exact ⟨by first | rfl | trivial, ⟨rfl, rfl, rfl, hl, h2⟩, by first | rfl | trivial, fun _ _ => Or.inr hp'⟩
  | resetOcc =>
    have hp' : p < v.cap := by rcases hp with h | h; · cases h
                               · exact h
    obtain ⟨b', h1, h2⟩ := ho.reset p hp'
    dsimp only [pslotStep, slotStep]; simp only [h1]
    exact ⟨by first | rfl | trivial, ⟨rfl, rfl, rfl, hl, h2⟩, by first | rfl | trivial, fun _ _ => Or.inr hp'⟩
  | take =>
    have hp' : p < v.cap := by rcases hp with h | h; · cases h
                               · exact h
    dsimp only [pslotStep, slotStep]
    cases hdp : v.data p with
    | none => exact ⟨by first | rfl | trivial, ⟨rfl, rfl, rfl, hl, ho⟩, by first | rfl | trivial, fun _ _ => Or.inr hp'⟩
    | some x => exact ⟨by first | rfl | trivial, ⟨rfl, rfl, rfl, hl, ho⟩, by first | rfl | trivial, fun _ _ => Or.inr hp'⟩
  | destroy x =>
    have hp' : p < v.cap := by rcases hp with h | h; · cases h
                               · exact h
    dsimp only [pslotStep, slotStep]
    exact ⟨by first | rfl | trivial, ⟨rfl, rfl, rfl, hl, ho⟩, by first | rfl | trivial, fun _ _ => Or.inr hp'⟩
  | unlockRetry =>
    have hp' : p < v.cap := by rcases hp with h | h; · cases h
                               · exact h
    obtain ⟨b', h1, h2⟩ := hl.unlock p hp'
    dsimp only [pslotStep, slotStep]; simp only [h1]
    exact ⟨by first | rfl | trivial, ⟨rfl, rfl, rfl, h2, ho⟩, by first | rfl | trivial, fun _ _ => Or.inr hp'⟩
  | unlockDone r =>
    have hp' : p < v.cap := by rcases hp with h | h; · cases h
                               · exact h
    obtain ⟨b', h1, h2⟩ := hl.unlock p hp'
    dsimp only [pslotStep, slotStep]; simp only [h1]
    exact ⟨by first | rfl | trivial, ⟨rfl, rfl, rfl, h2, ho⟩, by first | rfl | trivial, fun _ _ => Or.inr hp'⟩

def PcOK (cap : Nat) : PC F α → Prop
  | .front _ => True
  | .slot p s => PosOK cap p s

theorem _root_.Stdgpu.Spec.Packs.slots {m : PMem w C α} {v : Mem C α} (h : Packs m v) : PacksS m.slots v.slots :=
  ⟨h.cap, h.data, h.err, h.locks, h.occ⟩

theorem _root_.Stdgpu.Spec.Packs.mk' {m : PMem w C α} {v : Mem C α} (h : PacksS m.slots v.slots) (hc : m.ctr = v.ctr) : Packs m v :=
  ⟨h.cap, h.data, h.err, hc, h.locks, h.occ⟩

theorem step_sim (fr : Front C K F) {m : PMem w C α} {v : Mem C α} (h : Packs m v) (t : Thread K F α)
    (ht : PcOK v.slots.cap t.pc) :
    (pstep fr m t).2 = (step fr v t).2 ∧ Packs (pstep fr m t).1 (step fr v t).1 ∧
      (step fr v t).1.slots.cap = v.slots.cap ∧ PcOK v.slots.cap (step fr v t).2.pc := by
  obtain ⟨todo, pc, done⟩ := t
  cases todo with
  | nil => exact ⟨rfl, h, rfl, ht⟩
  | cons op rest =>
    cases pc with
    | front f =>
      simp only [pstep, step, h.ctr]
      generalize fr.step v.ctr op.isPush op.kind f = r
      obtain ⟨c, o⟩ := r
      have hm : Packs ({ m with ctr := c } : PMem w C α) ({ v with ctr := c } : Mem C α) := Packs.mk' (m := { m with ctr := c }) (v := { v with ctr := c }) (h.slots : PacksS m.slots v.slots) rfl
      cases o with
      | cont f' => exact ⟨rfl, hm, rfl, trivial⟩
      | fail => exact ⟨rfl, hm, rfl, trivial⟩
      | go p => exact ⟨rfl, hm, rfl, Or.inl rfl⟩
    | slot p s =>
      obtain ⟨h1, h2, h3, h4⟩ := slot_sim (Packs.slots h) op p s ht
      simp only [pstep, step, h1]
      generalize hr : slotStep v.slots op p s = r at h2 h3 h4
      obtain ⟨v', o⟩ := r
      have hm : Packs ({ m with slots := (pslotStep m.slots op p s).1 } : PMem w C α) ({ v with slots := v' } : Mem C α) :=
        Packs.mk' h2 h.ctr
      cases o with
      | inl s' => exact ⟨rfl, hm, h3, h4 s' rfl⟩
      | inr r => exact ⟨rfl, hm, h3, trivial⟩

theorem run_sim (fr : Front C K F) (sched : List Nat) (s : Sys (PMem w C α) (Thread K F α)) (a : Sys (Mem C α) (Thread K F α))
    (ht : s.threads = a.threads) (hm : Packs s.shared a.shared) (hp : ∀ t ∈ a.threads, PcOK a.shared.slots.cap t.pc) :
    (run (pstep fr) s sched).threads = (run (step fr) a sched).threads ∧
      Packs (run (pstep fr) s sched).shared (run (step fr) a sched).shared := by
  induction sched generalizing s a with
  | nil => exact ⟨ht, hm⟩
  | cons i l ih =>
    rw [run_cons, run_cons]
    cases hi : a.threads[i]? with
    | none =>
      have e1 : stepAt (pstep fr) s i = s := by simp [stepAt, ht, hi]
      have e2 : stepAt (step fr) a i = a := by simp [stepAt, hi]
      rw [e1, e2]; exact ih s a ht hm hp
    | some t =>
      have e1 : stepAt (pstep fr) s i = ⟨(pstep fr s.shared t).1, s.threads.set i (pstep fr s.shared t).2⟩ := by
        simp [stepAt, ht, hi]
      have e2 : stepAt (step fr) a i = ⟨(step fr a.shared t).1, a.threads.set i (step fr a.shared t).2⟩ := by
        simp [stepAt, hi]
      obtain ⟨h1, h2, h3, h4⟩ := step_sim fr hm t (hp t (List.mem_of_getElem? hi))
      rw [e1, e2]
      refine ih _ _ (by simp only [ht, h1]) h2 ?_
      intro x hx
      simp only [h3]
      rcases List.mem_or_eq_of_mem_set hx with hx | rfl
      · exact hp x hx
      · exact h4

end Stdgpu.Packed
