import Verif.Model.Algorithm32
import Verif.Props.Algorithm
/-! C76: ranges of any size, with a 32 bit `index_t`. -/
namespace Stdgpu.Props
open Stdgpu Algorithm Algorithm32

variable {α M R : Type}

theorem index32_eq (x : Int) (h : -2 ^ 31 ≤ x) (h' : x < 2 ^ 31) : index32 x = x := by
  unfold index32 Counter32.wrap
  rw [BitVec.toInt_ofInt, Int.bmod_eq_of_le (by omega) (by omega)]

theorem index32_sub (x : Int) (h : 2 ^ 31 ≤ x) (h' : x < 2 ^ 32 + 2 ^ 31) : index32 x = x - 2 ^ 32 := by
  have e : index32 x = index32 (x - 2 ^ 32) := by
    unfold index32 Counter32.wrap
    rw [BitVec.toInt_ofInt, BitVec.toInt_ofInt]
    unfold Int.bmod
    have : (x - 2 ^ 32) % ((2 ^ 32 : Nat) : Int) = x % ((2 ^ 32 : Nat) : Int) := by omega
    rw [this]
  rw [e, index32_eq _ (by omega) (by omega)]

theorem index32_lt (x : Int) : index32 x < 2 ^ 31 := by
  unfold index32 Counter32.wrap
  have := BitVec.toInt_lt (x := BitVec.ofInt 32 x)
  simpa using this

/-- Loops whose bodies agree on the indices of the loop. -/
theorem forEachIndex_congr {n : Int} {b1 b2 : Nat → Body M R} (h : ∀ i : Nat, (i : Int) < n → b1 i = b2 i) (mem : M) (r : R)
    (sched : List Nat) : forEachIndex n b1 mem r sched = forEachIndex n b2 mem r sched := by
  unfold forEachIndex loopRun
  generalize loopInit mem r = s
  induction sched generalizing s with
  | nil => rfl
  | cons i sched ih =>
    rw [List.foldl_cons, List.foldl_cons]
    have : loopStep n.toNat b1 s i = loopStep n.toNat b2 s i := by
      unfold loopStep
      by_cases hi : i < n.toNat
      · rw [if_pos hi, if_pos hi, h i (by omega)]
      · rw [if_neg hi, if_neg hi]
    rw [this]
    exact ih _

theorem Complete.congr {n : Int} {b1 b2 : Nat → Body M R} (h : ∀ i : Nat, (i : Int) < n → b1 i = b2 i) {s : LoopState M R}
    (hc : Complete n b1 s) : Complete n b2 s := fun i hi => by rw [← h i (by omega)]; exact hc i hi

theorem fillBody_eq (begin_ : Int) (value : α) (i : Nat) (h : (i : Int) < 2 ^ 31) :
    Algorithm32.fillBody begin_ value i = Algorithm.fillBody begin_ value i := by
  unfold Algorithm32.fillBody Algorithm.fillBody; rw [index32_eq _ (by omega) h]

theorem copyBody_eq (begin_ out : Int) (i : Nat) (h : (i : Int) < 2 ^ 31) :
    Algorithm32.copyBody (α := α) begin_ out i = Algorithm.copyBody begin_ out i := by
  unfold Algorithm32.copyBody Algorithm.copyBody; rw [index32_eq _ (by omega) h]; rfl

theorem iotaBody_eq {w : Nat} (begin_ : Int) (value : BitVec w) (i : Nat) (h : (i : Int) < 2 ^ 31) :
    Algorithm32.iotaBody begin_ value i = Algorithm.iotaBody begin_ value i := by
  unfold Algorithm32.iotaBody Algorithm.iotaBody; rw [index32_eq _ (by omega) h, BitVec.ofInt_natCast]

/-- C76: `fill` of a range of fewer than 2^31 elements writes exactly its elements, and so does `fill_n` (of any size
type), for every schedule. -/
theorem C76_fill (begin_ n : Int) (value : α) (mem : Mem α) (sched : List Nat) (h0 : 0 ≤ n) (h : n < 2 ^ 31) :
    (Complete n (Algorithm32.fillBody begin_ value) (Algorithm32.fill begin_ (begin_ + n) value mem sched) →
      ∀ a, (Algorithm32.fill begin_ (begin_ + n) value mem sched).mem a =
        if begin_ ≤ a ∧ a < begin_ + n then value else mem a) ∧
    Algorithm32.fill begin_ (begin_ + n) value mem sched = (Algorithm32.fillN begin_ n value mem sched).1 ∧
    (Algorithm32.fillN begin_ n value mem sched).2 = begin_ + n := by
  have e : Algorithm32.fill begin_ (begin_ + n) value mem sched = (Algorithm32.fillN begin_ n value mem sched).1 := by
    unfold Algorithm32.fill; rw [show begin_ + n - begin_ = n by omega, index32_eq _ (by omega) h]
  refine ⟨fun hc a => ?_, e, rfl⟩
  rw [e] at hc ⊢
  have hb : ∀ i : Nat, (i : Int) < n → Algorithm32.fillBody begin_ value i = Algorithm.fillBody begin_ value i :=
    fun i hi => fillBody_eq _ _ _ (by omega)
  have hs : (Algorithm32.fillN begin_ n value mem sched).1 = (Algorithm.fillN begin_ n value mem sched).1 :=
    forEachIndex_congr hb _ _ _
  rw [hs] at hc ⊢
  exact (C45_fill begin_ n value mem sched (hc.congr hb)).1 a

/-- C76: `copy` of fewer than 2^31 elements to a range that does not overlap (or is the same) writes exactly the copied
elements and returns the end of the output, for every interleaving of the reads and writes. -/
theorem C76_copy (begin_ n out : Int) (mem : Mem α) (sched : List Nat) (h0 : 0 ≤ n) (h : n < 2 ^ 31)
    (hov : begin_ + n ≤ out ∨ out + n ≤ begin_ ∨ out = begin_) :
    (Complete n (Algorithm32.copyBody begin_ out) (Algorithm32.copy begin_ (begin_ + n) out mem sched).1 →
      ∀ a, (Algorithm32.copy begin_ (begin_ + n) out mem sched).1.mem a =
        if out ≤ a ∧ a < out + n then mem (begin_ + (a - out)) else mem a) ∧
    (Algorithm32.copy begin_ (begin_ + n) out mem sched).2 = out + n ∧
    Algorithm32.copy begin_ (begin_ + n) out mem sched = Algorithm32.copyN begin_ n out mem sched := by
  have e : Algorithm32.copy begin_ (begin_ + n) out mem sched = Algorithm32.copyN begin_ n out mem sched := by
    unfold Algorithm32.copy; rw [show begin_ + n - begin_ = n by omega, index32_eq _ (by omega) h]
  refine ⟨fun hc a => ?_, by rw [e]; rfl, e⟩
  rw [e] at hc ⊢
  have hb : ∀ i : Nat, (i : Int) < n → Algorithm32.copyBody (α := α) begin_ out i = Algorithm.copyBody begin_ out i :=
    fun i hi => copyBody_eq _ _ _ (by omega)
  have hs : (Algorithm32.copyN begin_ n out mem sched).1 = (Algorithm.copyN begin_ n out mem sched).1 :=
    forEachIndex_congr hb _ _ _
  rw [hs] at hc ⊢
  exact (C45_copy begin_ n out mem sched hov (hc.congr hb)).1 a

/-- C76: `iota` on a range of fewer than 2^31 elements writes `value, value + 1, …` to exactly its elements. -/
theorem C76_iota {w : Nat} (begin_ n : Int) (value : BitVec w) (mem : Mem (BitVec w)) (sched : List Nat) (h0 : 0 < n)
    (h : n < 2 ^ 31) (hc : Complete n (Algorithm32.iotaBody begin_ value) (Algorithm32.iota begin_ (begin_ + n) value mem sched)) :
    (Algorithm32.iota begin_ (begin_ + n) value mem sched).mem begin_ = value ∧
    (∀ a, begin_ ≤ a → a + 1 < begin_ + n →
      (Algorithm32.iota begin_ (begin_ + n) value mem sched).mem (a + 1) =
        (Algorithm32.iota begin_ (begin_ + n) value mem sched).mem a + 1) ∧
    (∀ a, a < begin_ ∨ begin_ + n ≤ a → (Algorithm32.iota begin_ (begin_ + n) value mem sched).mem a = mem a) := by
  have hb : ∀ i : Nat, (i : Int) < n → Algorithm32.iotaBody begin_ value i = Algorithm.iotaBody begin_ value i :=
    fun i hi => iotaBody_eq _ _ _ (by omega)
  have hs : Algorithm32.iota begin_ (begin_ + n) value mem sched = Algorithm.iota begin_ (begin_ + n) value mem sched := by
    unfold Algorithm32.iota Algorithm.iota
    rw [show begin_ + n - begin_ = n by omega, index32_eq _ (by omega) h]
    exact forEachIndex_congr hb _ _ _
  rw [hs] at hc ⊢
  exact C45_iota begin_ n value mem sched (hc.congr hb) h0

/-- The hypotheses are met: three elements, interleaved. -/
example : Complete 3 (Algorithm32.copyBody (α := Nat) 0 10) (Algorithm32.copy 0 (0 + 3) 10 (fun a => a.toNat) [2, 0, 1, 0, 2, 1]).1 := by
  rw [show Algorithm32.copy 0 (0 + 3) 10 (fun a => a.toNat) [2, 0, 1, 0, 2, 1] =
    Algorithm32.copyN 0 3 10 (fun a => a.toNat) [2, 0, 1, 0, 2, 1] by
      unfold Algorithm32.copy; rw [index32_eq _ (by decide) (by decide)]; rfl]
  intro i hi
  have : i = 0 ∨ i = 1 ∨ i = 2 := by omega
  rcases this with rfl | rfl | rfl <;> decide

/-! ### Longer ranges -/

/-- C76: `fill`, `copy` and `iota` of a range of at least 2^31 and fewer than 2^32 elements do nothing at all (the number of
elements becomes negative), and `copy` returns an iterator before the output. -/
theorem C76_counterexample_nothing (begin_ n out : Int) (value : α) (mem : Mem α) (sched : List Nat) (h0 : 2 ^ 31 ≤ n)
    (h : n < 2 ^ 32) :
    (Algorithm32.fill begin_ (begin_ + n) value mem sched).mem = mem ∧
    (Algorithm32.copy begin_ (begin_ + n) out mem sched).1.mem = mem ∧
    (Algorithm32.copy begin_ (begin_ + n) out mem sched).2 = out + (n - 2 ^ 32) ∧
    ∀ (w : Nat) (v : BitVec w) (mem : Mem (BitVec w)), (Algorithm32.iota begin_ (begin_ + n) v mem sched).mem = mem := by
  have key : ∀ {M R : Type} (body : Nat → Body M R) (mem : M) (r : R),
      (forEachIndex (n - 2 ^ 32) body mem r sched).mem = mem := by
    intro M R body mem r
    have := loop_inv (n := (n - 2 ^ 32).toNat) (body := body) (fun s => s.mem = mem)
      (fun s i f _ hi => by omega) sched (loopInit mem r) rfl
    exact this
  have e : index32 (begin_ + n - begin_) = n - 2 ^ 32 := by
    rw [show begin_ + n - begin_ = n by omega, index32_sub _ h0 (by omega)]
  refine ⟨?_, ?_, ?_, ?_⟩
  · unfold Algorithm32.fill Algorithm32.fillN; rw [e]; exact key _ _ _
  · unfold Algorithm32.copy Algorithm32.copyN; rw [e]; exact key _ _ _
  · unfold Algorithm32.copy Algorithm32.copyN; rw [e]
  · intro w v mem; unfold Algorithm32.iota; rw [e]; exact key _ _ _

/-- C76: `fill` of a range with `2^32 + k` elements writes only the first `k` of them. -/
theorem C76_counterexample_prefix (begin_ k : Int) (value : α) (mem : Mem α) (sched : List Nat) (h0 : 0 ≤ k) (h : k < 2 ^ 31)
    (hc : Complete k (Algorithm32.fillBody begin_ value) (Algorithm32.fill begin_ (begin_ + (2 ^ 32 + k)) value mem sched)) (a : Int) :
    (Algorithm32.fill begin_ (begin_ + (2 ^ 32 + k)) value mem sched).mem a =
      if begin_ ≤ a ∧ a < begin_ + k then value else mem a := by
  have e : Algorithm32.fill begin_ (begin_ + (2 ^ 32 + k)) value mem sched =
      Algorithm32.fill begin_ (begin_ + k) value mem sched := by
    unfold Algorithm32.fill
    rw [show begin_ + (2 ^ 32 + k) - begin_ = 2 ^ 32 + k by omega, index32_sub _ (by omega) (by omega),
      show (2 : Int) ^ 32 + k - 2 ^ 32 = k by omega, show begin_ + k - begin_ = k by omega, index32_eq _ (by omega) h]
  rw [e] at hc ⊢
  exact (C76_fill begin_ k value mem sched h0 h).1 hc a

/-- C76: `fill_n` with a 64 bit size of more than 2^31 (up to 2^32) elements writes before the beginning of the range, and
does not write the elements from number 2^31 on, whatever the schedule. -/
theorem C76_counterexample_fill_n (begin_ n : Int) (value : α) (mem : Mem α) (sched : List Nat) (h0 : 2 ^ 31 < n)
    (hc : Complete n (Algorithm32.fillBody begin_ value) (Algorithm32.fillN begin_ n value mem sched).1) :
    (Algorithm32.fillN begin_ n value mem sched).1.mem (begin_ - 2 ^ 31) = value ∧
    ∀ a, begin_ + 2 ^ 31 ≤ a → (Algorithm32.fillN begin_ n value mem sched).1.mem a = mem a := by
  have hI := loop_inv (n := n.toNat) (body := Algorithm32.fillBody begin_ value)
    (fun s => (0 < s.pc (2 ^ 31) → s.mem (begin_ - 2 ^ 31) = value) ∧ ∀ a, begin_ + 2 ^ 31 ≤ a → s.mem a = mem a) (by
      rintro s i f ⟨h1, h2⟩ hi hf
      obtain ⟨hl, hf⟩ := List.getElem?_eq_some_iff.1 hf
      simp only [Algorithm32.fillBody, List.length_singleton] at hl
      have hp : s.pc i = 0 := by omega
      simp only [Algorithm32.fillBody, hp, List.getElem_cons_zero] at hf
      subst hf
      refine ⟨fun hj => ?_, fun a ha => ?_⟩
      · simp only at hj ⊢
        unfold write
        by_cases hx : begin_ - 2 ^ 31 = begin_ + index32 i
        · rw [if_pos hx]
        · rw [if_neg hx]
          apply h1
          by_cases hi : 2 ^ 31 = i
          · exfalso; apply hx; rw [← hi, index32_sub _ (by decide) (by decide)]; omega
          · rw [if_neg hi] at hj; exact hj
      · simp only [write]
        have := index32_lt i
        rw [if_neg (by omega)]
        exact h2 a ha) sched (loopInit mem ()) ⟨fun h => absurd h (by simp [loopInit]), fun _ _ => rfl⟩
  refine ⟨hI.1 ?_, hI.2⟩
  have hd : (loopRun n.toNat (Algorithm32.fillBody begin_ value) (loopInit mem ()) sched).pc (2 ^ 31) = 1 :=
    hc (2 ^ 31) (by omega)
  rw [hd]; omega

/-- Such a loop can be completed. -/
example (mem : Mem Nat) : ∃ sched, Complete (2 ^ 31 + 1) (Algorithm32.fillBody 0 7) (Algorithm32.fillN 0 (2 ^ 31 + 1) 7 mem sched).1 := by
  obtain ⟨s, hs⟩ := C45_loop_completes (2 ^ 31 + 1) (Algorithm32.fillBody (0 : Int) (7 : Nat)) mem () []
  exact ⟨[] ++ s, hs⟩

/-! ### Algorithms on raw memory -/

def updBody (base : Int) (g : α → α) (i : Nat) : Body (Mem α) Unit := [fun m r => (write m (base + i) (g (m (base + i))), r)]

/-- Loops that update one element per index. -/
theorem upd_loop_done (n : Int) (base : Int) (g : α → α) (mem : Mem α) (sched : List Nat)
    (hc : Complete n (updBody base g) (forEachIndex n (updBody base g) mem () sched)) (a : Int) :
    (forEachIndex n (updBody base g) mem () sched).mem a = if base ≤ a ∧ a < base + n then g (mem a) else mem a := by
  obtain ⟨h1, h2, h3⟩ := loop_inv (n := n.toNat) (body := updBody base g)
    (fun s : LoopState (Mem α) Unit => (∀ i, s.pc i ≤ 1) ∧ (∀ i, n.toNat ≤ i → s.pc i = 0) ∧
      ∀ i : Int, s.mem i = if 0 ≤ i - base ∧ s.pc (i - base).toNat = 1 then g (mem i) else mem i) (by
    rintro s i f ⟨h1, h2, h3⟩ hi hf
    obtain ⟨hl, hf⟩ := List.getElem?_eq_some_iff.1 hf
    simp only [updBody, List.length_singleton] at hl
    have h0 : s.pc i = 0 := by omega
    simp only [updBody, h0, List.getElem_cons_zero] at hf
    subst hf
    refine ⟨fun j => ?_, fun j hj => ?_, fun a => ?_⟩
    · simp only; split
      · omega
      · exact h1 j
    · simp only; rw [if_neg (by omega)]; exact h2 j hj
    · simp only [write, h0]
      by_cases ha : a = base + i
      · subst ha
        have e : (base + (i : Int) - base).toNat = i := by omega
        rw [if_pos rfl, if_pos ⟨by omega, by rw [e]; simp⟩, h3, if_neg (by rw [e, h0]; simp)]
      · rw [if_neg ha, h3 a]
        by_cases hneg : 0 ≤ a - base
        · rw [if_neg (c := (a - base).toNat = i) (by omega)]
        · rw [if_neg (fun hx => hneg hx.1), if_neg (fun hx => hneg hx.1)])
    sched (loopInit mem ()) ⟨fun _ => by simp [loopInit], fun _ _ => rfl, fun i => by simp [loopInit]⟩
  have h3 := h3 a
  unfold forEachIndex at hc ⊢
  rw [h3]
  by_cases ha : base ≤ a ∧ a < base + n
  · have hd := hc (a - base).toNat (by omega)
    rw [if_pos ha, if_pos ⟨by omega, hd⟩]
  · rw [if_neg ha, if_neg]
    rintro ⟨hx, hy⟩
    rw [h2 _ (by omega)] at hy
    omega

/-- C76: `uninitialized_fill` and `uninitialized_fill_n` construct every element of the range exactly once, with the
value, and nothing else, for ranges of every size and every schedule. -/
theorem C76_uninitialized_fill (begin_ n : Int) (value : α) (mem : Mem (Cell α)) (sched : List Nat)
    (hc : Complete n (ufillBody begin_ value) (ufillN begin_ n value mem sched).1) :
    (∀ a, (ufillN begin_ n value mem sched).1.mem a =
      if begin_ ≤ a ∧ a < begin_ + n then ⟨some value, (mem a).made + 1, (mem a).gone⟩ else mem a) ∧
    (ufillN begin_ n value mem sched).2 = begin_ + n ∧
    ufill begin_ (begin_ + n) value mem sched = (ufillN begin_ n value mem sched).1 := by
  refine ⟨fun a => upd_loop_done n begin_ (fun c : Cell α => ⟨some value, c.made + 1, c.gone⟩) mem sched hc a, rfl, ?_⟩
  unfold ufill; rw [show begin_ + n - begin_ = n by omega]

/-- C76: `destroy` and `destroy_n` call the destructor of every element of the range exactly once, and nothing else; for a
type with a trivial destructor they do nothing. -/
theorem C76_destroy (first n : Int) (mem : Mem (Cell α)) (sched : List Nat)
    (hc : Complete n (destroyBody first) (destroyN false first n mem sched).1) :
    (∀ a, (destroyN false first n mem sched).1.mem a =
      if first ≤ a ∧ a < first + n then ⟨none, (mem a).made, (mem a).gone + 1⟩ else mem a) ∧
    (∀ o, (destroyN o first n mem sched).2 = first + n) ∧
    (∀ o, destroy o first (first + n) mem sched = (destroyN o first n mem sched).1) ∧
    (destroyN true first n mem sched).1.mem = mem := by
  refine ⟨?_, fun _ => rfl, fun _ => rfl, rfl⟩
  have e : (destroyN false first n mem sched).1 = forEachIndex n (destroyBody first) mem () sched := by
    unfold destroyN destroy; simp only [Bool.false_eq_true, if_false]; rw [show first + n - first = n by omega]
  rw [e] at hc ⊢
  exact fun a => upd_loop_done n first (fun c : Cell α => ⟨none, c.made, c.gone + 1⟩) mem sched hc a

/-- C76: `uninitialized_copy` and `uninitialized_copy_n` construct every element of the output range exactly once, as a
copy of the corresponding element, if the ranges do not overlap; nothing else is touched. -/
theorem C76_uninitialized_copy (begin_ n out : Int) (mem : Mem (Cell α)) (sched : List Nat)
    (hov : begin_ + n ≤ out ∨ out + n ≤ begin_)
    (hc : Complete n (ucopyBody begin_ out) (ucopyN begin_ n out mem sched).1) :
    (∀ a, (ucopyN begin_ n out mem sched).1.mem a =
      if out ≤ a ∧ a < out + n then ⟨(mem (begin_ + (a - out))).val, (mem a).made + 1, (mem a).gone⟩ else mem a) ∧
    (ucopyN begin_ n out mem sched).2 = out + n ∧
    ucopy begin_ (begin_ + n) out mem sched = ucopyN begin_ n out mem sched := by
  refine ⟨?_, rfl, ?_⟩
  swap
  · unfold ucopy; rw [show begin_ + n - begin_ = n by omega]
  have hI := loop_inv (n := n.toNat) (body := ucopyBody (α := α) begin_ out)
    (fun s => (∀ i, n.toNat ≤ i → s.pc i = 0) ∧ (∀ i, s.pc i ≤ 2) ∧
      (∀ i, s.pc i = 1 → s.reg i = some (mem (begin_ + i)).val) ∧
      ∀ a : Int, s.mem a = if 0 ≤ a - out ∧ s.pc (a - out).toNat = 2 then
        ⟨(mem (begin_ + (a - out))).val, (mem a).made + 1, (mem a).gone⟩ else mem a) (by
      rintro s i f ⟨h1, h2, h3, h4⟩ hi hf
      obtain ⟨hl, hf⟩ := List.getElem?_eq_some_iff.1 hf
      simp only [ucopyBody, List.length_cons, List.length_nil] at hl
      have hpc : s.pc i = 0 ∨ s.pc i = 1 := by omega
      rcases hpc with h0 | h0
      · -- read
        simp only [ucopyBody, h0, List.getElem_cons_zero] at hf
        subst hf
        refine ⟨fun j hj => ?_, fun j => ?_, fun j hj => ?_, fun a => ?_⟩
        · simp only; rw [if_neg (by omega)]; exact h1 j hj
        · simp only; split
          · omega
          · exact h2 j
        · simp only at hj ⊢
          by_cases hji : j = i
          · subst hji
            rw [if_pos rfl, h4]
            rw [if_neg]
            rintro ⟨hx, hy⟩
            rcases hov with ho | ho
            · omega
            · rw [h1 _ (by omega)] at hy; omega
          · rw [if_neg hji] at hj ⊢; exact h3 j hj
        · simp only [h0]
          rw [h4 a]
          by_cases hai : 0 ≤ a - out ∧ (a - out).toNat = i
          · rw [if_neg (by rw [hai.2, h0]; omega), if_neg (by rw [hai.2]; simp)]
          · by_cases hneg : 0 ≤ a - out
            · rw [if_neg (c := (a - out).toNat = i) (fun hx => hai ⟨hneg, hx⟩)]
            · rw [if_neg (fun hx => hneg hx.1), if_neg (fun hx => hneg hx.1)]
      · -- construction
        simp only [ucopyBody, h0, List.getElem_cons_succ, List.getElem_cons_zero] at hf
        subst hf
        have hr := h3 i h0
        refine ⟨fun j hj => ?_, fun j => ?_, fun j hj => ?_, fun a => ?_⟩
        · simp only; rw [if_neg (by omega)]; exact h1 j hj
        · simp only; split
          · omega
          · exact h2 j
        · simp only at hj ⊢
          by_cases hji : j = i
          · subst hji; simp [h0] at hj
          · rw [if_neg hji] at hj ⊢; exact h3 j hj
        · simp only [hr, constructAt, write, h0]
          by_cases ha : a = out + i
          · subst ha
            have e : (out + (i : Int) - out).toNat = i := by omega
            have e2 : out + (i : Int) - out = i := by omega
            rw [if_pos rfl, if_pos ⟨by omega, by rw [e]; simp⟩, h4, if_neg (by rw [e, h0]; simp), e2]
          · rw [if_neg ha, h4 a]
            by_cases hneg : 0 ≤ a - out
            · rw [if_neg (c := (a - out).toNat = i) (by omega)]
            · rw [if_neg (fun hx => hneg hx.1), if_neg (fun hx => hneg hx.1)])
    sched (loopInit mem none) ⟨fun _ _ => rfl, fun _ => by simp [loopInit], fun i h => by simp [loopInit] at h,
      fun a => by simp [loopInit]⟩
  intro a
  obtain ⟨h1, h2, h3, h4⟩ := hI
  have h4 := h4 a
  unfold ucopyN forEachIndex at hc ⊢
  simp only at hc ⊢
  rw [h4]
  by_cases ha : out ≤ a ∧ a < out + n
  · have hd := hc (a - out).toNat (by omega)
    rw [if_pos ha, if_pos ⟨by omega, hd⟩]
  · rw [if_neg ha, if_neg]
    rintro ⟨hx, hy⟩
    rw [h1 _ (by omega)] at hy
    omega

/-- A life cycle: three elements are constructed, copied to raw memory and destroyed. -/
example :
    let m0 : Mem (Cell Nat) := fun _ => ⟨none, 0, 0⟩
    let m1 := (ufillN 0 3 7 m0 [1, 2, 0]).1.mem
    let m2 := (ucopyN 0 3 10 m1 [1, 2, 2, 0, 1, 0]).1.mem
    let m3 := (destroyN false 0 3 m2 [2, 1, 0]).1.mem
    Complete 3 (ufillBody 0 7) (ufillN 0 3 7 m0 [1, 2, 0]).1 ∧
    Complete 3 (ucopyBody 0 10) (ucopyN 0 3 10 m1 [1, 2, 2, 0, 1, 0]).1 ∧
    Complete 3 (destroyBody 0) (destroyN false 0 3 m2 [2, 1, 0]).1 ∧
    m3 12 = ⟨some 7, 1, 0⟩ ∧ m3 2 = ⟨none, 1, 1⟩ ∧ m3 3 = ⟨none, 0, 0⟩ := by
  refine ⟨?_, ?_, ?_, by decide, by decide, by decide⟩
  all_goals
    intro i hi
    have : i = 0 ∨ i = 1 ∨ i = 2 := by omega
    rcases this with rfl | rfl | rfl <;> decide

end Stdgpu.Props
