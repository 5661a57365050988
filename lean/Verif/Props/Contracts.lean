import Verif.Proof.Contracts
import Verif.Proof.Contracts2
import Verif.Props.Boundary
import Verif.Props.UMixed
import Verif.Props.Sizes
import Verif.Props.Bit
import Verif.Props.Bitset
/-!
C84: the contract checks (`STDGPU_EXPECTS`, `STDGPU_ENSURES`). In a debug build a failed check ends the program. The checks are
listed, place by place, in Model/Contracts.lean; here: they never fail when the API is used as documented, and the uses in
which they do fail.
-/
namespace Stdgpu.Props
open Stdgpu.Contracts Stdgpu.Conc Stdgpu.Spec

/-! ### Bits and bitsets -/

/-- C84: the checks of the bit functions hold for all arguments; those of `bit_mod` exactly if the divisor is a power of two. -/
theorem C84_bit_functions {w : Nat} (hw : 0 < w) (x d : BitVec w) :
    bitCeilPost x = true ∧ bitFloorPost x = true ∧ bitWidthPost x = true ∧ popcountPost x = true ∧
      (bitModChecks x d = true ↔ ∃ k, k < w ∧ d.toNat = 2 ^ k) := by
  refine ⟨?_, ?_, ?_, ?_, ?_⟩
  · unfold bitCeilPost
    by_cases hx : x.toNat ≤ 2 ^ (w - 1)
    · obtain ⟨k, e, -⟩ := C02_bit_ceil hw x hx
      have hk : k < w := (Nat.pow_lt_pow_iff_right (a := 2) (by omega)).1 (by rw [← e]; exact (Bit.bitCeil x).isLt)
      rw [(C01_has_single_bit _).2 ⟨k, hk, e⟩, Bool.or_true]
    · have h1 : 1 < w := by
        by_contra h1
        have : w = 1 := by omega
        subst this
        have := x.isLt
        omega
      rw [C02_bit_ceil_overflow x (by omega)]
      simp
  · unfold bitFloorPost
    by_cases hx : x = 0
    · simp [hx]
    · obtain ⟨k, e, -⟩ := (C02_bit_floor x).2 hx
      have hk : k < w := (Nat.pow_lt_pow_iff_right (a := 2) (by omega)).1 (by rw [← e]; exact (Bit.bitFloor x).isLt)
      rw [(C01_has_single_bit _).2 ⟨k, hk, e⟩, Bool.or_true]
  · unfold bitWidthPost
    rw [decide_eq_true_eq, BitVec.toNat_ofNat, Nat.mod_eq_of_lt (Nat.lt_two_pow_self)]
    by_cases hx : x = 0
    · rw [(C04_bit_width x).1 hx]; simp
    · exact ((C04_bit_width x).2 hx).2.2.2
  · simp only [popcountPost, Bool.and_eq_true, decide_eq_true_eq]
    exact ⟨by omega, (C04_popcount x).2⟩
  · simp only [bitModChecks, Bool.and_eq_true, decide_eq_true_eq, ← C01_has_single_bit]
    exact ⟨fun h => h.1, fun h => ⟨h, (C03_bit_mod x d h).2⟩⟩

example : bitModChecks (5 : BitVec 32) 6 = false ∧ bitModChecks (5 : BitVec 32) 4 = true ∧ bitCeilPost (5 : BitVec 8) = true := by
  decide

/-- C84: an access to a bit passes all checks exactly if the index is inside the bitset (or the array of mutexes). -/
theorem C84_bit_access (k size : Nat) (hk : k < 64) (hs : size < 2 ^ 64) (n : Int) :
    bitAccess (2 ^ k) size n = true ↔ 0 ≤ n ∧ n < size := by
  constructor
  · intro h
    simp only [bitAccess, Bool.and_eq_true, decide_eq_true_eq] at h
    exact h.1.1
  · rintro ⟨h1, h2⟩
    obtain ⟨m, rfl⟩ := Int.eq_ofNat_of_zero_le h1
    exact bitAccess_ok ⟨k, hk, rfl⟩ hs (by omega)

example : bitAccess 32 40 39 = true ∧ bitAccess 32 40 40 = false := by decide

/-- C84: after any history of operations with valid indices on a new bitset the checks at the end of `set()` and `reset()`
hold, and so do those of `div_up`, which computes the number of blocks. -/
theorem C84_bitset (k size : Nat) (hk : k < 64) (hsz : size < 2 ^ 64) (ops : List Bitset.Op) (os : List Bitset.Out) (l : List Bool)
    (hs : boolsExecAll (List.replicate size false) ops = some (os, l)) :
    divUpChecks size (2 ^ k) = true ∧ ∃ b, Bitset.execAll (Bitset.create (2 ^ k) size) ops = some (os, b) ∧
      setAllPost b = true ∧ resetAllPost b = true := by
  refine ⟨?_, ?_⟩
  · have := Bitset.divUp_le size (2 ^ k) (Nat.two_pow_pos k)
    have := Nat.two_pow_pos k
    simp [divUpChecks, *]
  · obtain ⟨b, h1, h2, h3, -⟩ := execAll_refines _ (Bitset.create_wf k size hk hsz) ops os l
      (by rw [Bitset.create_abs]; exact hs)
    refine ⟨b, h1, ?_, ?_⟩
    · obtain ⟨b', e1, e2, e3, e4⟩ := Bitset.exec_refines h2 .setAll
      simp only [Bitset.exec, Option.some.injEq, Prod.mk.injEq] at e1
      obtain ⟨-, rfl⟩ := e1
      unfold setAllPost
      rw [Bitset.count_eq e2, e4]
      simp [Bitset.abs_length]
    · obtain ⟨b', e1, e2, e3, e4⟩ := Bitset.exec_refines h2 .resetAll
      simp only [Bitset.exec, Option.some.injEq, Prod.mk.injEq] at e1
      obtain ⟨-, rfl⟩ := e1
      unfold resetAllPost
      rw [Bitset.count_eq e2, e4]
      simp [List.count_replicate]

example : boolsExecAll (List.replicate 40 false) [.set 33 true, .flip 1] ≠ none := by decide

/-- C84: with a 32 bit `index_t` the check at the end of `div_up` holds for all sizes up to `2^31 - w` … -/
theorem C84_div_up_32 (k size : Nat) (hk : k < 31) (h : size ≤ 2 ^ 31 - 2 ^ k) : divUpPost32 size (2 ^ k) = true := by
  have h1 := Bitset.divUp_le size (2 ^ k) (Nat.two_pow_pos k)
  have h2 : Bitset.divUp size (2 ^ k) * 2 ^ k < 2 ^ 31 := by
    have h3 : 2 ^ 31 = 2 ^ (31 - k) * 2 ^ k := by rw [← Nat.pow_add]; congr 1; omega
    have h4 : 2 ^ k < 2 ^ 31 := Nat.pow_lt_pow_right (by omega) hk
    have h5 := Nat.two_pow_pos k
    have h6 : Bitset.divUp size (2 ^ k) ≤ 2 ^ (31 - k) - 1 := by
      have h7 : size / 2 ^ k ≤ 2 ^ (31 - k) - 1 := by
        rw [Nat.div_le_iff_le_mul_add_pred h5, Nat.mul_sub, Nat.mul_comm, ← h3]; omega
      unfold Bitset.divUp
      split
      · rename_i hm
        have h8 : size / 2 ^ k < 2 ^ (31 - k) - 1 := by
          rcases Nat.lt_or_ge (size / 2 ^ k) (2 ^ (31 - k) - 1) with h8 | h8
          · exact h8
          · exfalso
            have h9 := Nat.div_add_mod size (2 ^ k)
            have h10 : size / 2 ^ k = 2 ^ (31 - k) - 1 := by omega
            rw [h10, Nat.mul_sub, Nat.mul_comm, ← h3] at h9
            omega
        omega
      · exact h7
    calc Bitset.divUp size (2 ^ k) * 2 ^ k ≤ (2 ^ (31 - k) - 1) * 2 ^ k := Nat.mul_le_mul_right _ h6
      _ = 2 ^ 31 - 2 ^ k := by rw [Nat.sub_mul, ← h3, Nat.one_mul]
      _ < 2 ^ 31 := by omega
  simp only [divUpPost32, decide_eq_true_eq, Counter32.wrap, BitVec.toInt_ofInt]
  have e : ((Bitset.divUp size (2 ^ k) : Int) * ((2 ^ k : Nat) : Int)) = ((Bitset.divUp size (2 ^ k) * 2 ^ k : Nat) : Int) := by push_cast; rfl
  rw [e, Int.bmod_eq_of_le (by omega) (by omega)]
  exact_mod_cast h1

/-- … and fails for every larger size, although such a bitset has a valid number of bits: the product is `2^31`, which is
negative with 32 bits (a defect of debug builds with `STDGPU_USE_32_BIT_INDEX`). -/
theorem C84_counterexample_div_up_32 (size : Nat) (h1 : 2 ^ 31 - 32 < size) (h2 : size < 2 ^ 31) :
    divUpPost32 size 32 = false ∧ Bitset.divUp size 32 < 2 ^ 31 := by
  have e : Bitset.divUp size 32 = 2 ^ 26 := by unfold Bitset.divUp; split <;> omega
  unfold divUpPost32
  rw [e]
  refine ⟨?_, by decide⟩
  have : Counter32.wrap (((2 ^ 26 : Nat) : Int) * ((32 : Nat) : Int)) = -2147483648 := by decide
  rw [this]
  simp only [decide_eq_false_iff_not]
  omega

example : divUpPost32 (2 ^ 31 - 1) 32 = false ∧ divUpPost32 (2 ^ 31 - 32) 32 = true := by decide +kernel

/-! ### Vector and deque -/

section
open Stdgpu.Vector Stdgpu.SlotConc
variable {α : Type}

/-- C84: concurrent pushes and pops of a vector: in every state of every execution the next access of every thread passes all
checks. -/
theorem C84_vector_concurrent {v : Vec α} {l : List α} (h : Holds v l) (programs : List (List (Op Unit α))) (sched : List Nat)
    (k : Nat) (hk : k < 64) (hc : cap v < 2 ^ 64) :
    ∀ t ∈ (vrun v programs sched).threads, slotChecks (2 ^ k) id (vrun v programs sched).shared t = true := by
  intro t ht
  have hI := vinv_run h programs sched
  refine slotChecks_ok ⟨k, hk, rfl⟩ ?_ ?_
  · rw [hI.hcap]; exact hc
  · intro p x e
    rw [hI.hcap]
    exact ((hI.shape t ht).1 p x e).1

/-- C84: the same for a deque (and so for queue and stack, which are deques). -/
theorem C84_deque_concurrent {d : Deque.Deq α} {l : List α} (h : Deque.Holds d l) (programs : List (List (Op Deque.Side α)))
    (sched : List Nat) (k : Nat) (hk : k < 64) (hc : Deque.cap d < 2 ^ 64) :
    ∀ t ∈ (drun d programs sched).threads, slotChecks (2 ^ k) Deque.Ctr.size (drun d programs sched).shared t = true := by
  intro t ht
  obtain ⟨w, hI⟩ := Deque.winv_run h programs sched
  refine slotChecks_ok ⟨k, hk, rfl⟩ ?_ ?_
  · rw [hI.v.hcap]; exact hc
  · intro p x e
    rw [hI.v.hcap]
    exact ((hI.v.shape t ht).1 p x e).1

/-- C84: element access in a vector passes its checks exactly for the indices of its elements. -/
theorem C84_vector_access {v : Vec α} {l : List α} (h : Holds v l) (k : Nat) (hk : k < 64) (hc : cap v < 2 ^ 64) (n : Int) :
    vgetChecks (2 ^ k) v n = true ↔ 0 ≤ n ∧ n < l.length := by
  simp only [vgetChecks, sizePost_true, Vector.size_eq h, Bool.and_eq_true, decide_eq_true_eq, Bool.and_true]
  constructor
  · exact fun h => h.1.1
  · rintro ⟨h1, h2⟩
    obtain ⟨m, rfl⟩ := Int.eq_ofNat_of_zero_le h1
    have h3 := h.len
    refine ⟨⟨⟨h1, h2⟩, bitAccess_ok ⟨k, hk, rfl⟩ hc (by omega)⟩, ?_⟩
    have := h.occ m (by omega)
    rw [Int.toNat_natCast, this, decide_eq_true_eq]
    omega

example : vgetChecks 32 (Vector.clearIota (Vector.create 3) 7) 2 = true ∧ vgetChecks 32 (Vector.clearIota (Vector.create 3) 7) 3 = false := by
  decide

/-- C84: access with `at` to a deque: the checks pass for the index of an element exactly if the slot with this number, which is not
the slot of the element unless the deque begins in slot 0, is occupied. If it begins there, or is full, they pass exactly for the
indices of its elements. -/
theorem C84_deque_access {d : Deque.Deq α} {l : List α} (h : Deque.Holds d l) (k : Nat) (hk : k < 64) (hc : Deque.cap d < 2 ^ 64)
    (n : Int) :
    (dgetChecks (2 ^ k) d n = true → 0 ≤ n ∧ n < l.length) ∧
    (0 ≤ n → n < l.length → (dgetChecks (2 ^ k) d n = true ↔ (n.toNat + Deque.cap d - d.ctr.begin) % Deque.cap d < l.length)) ∧
    (d.ctr.begin = 0 ∨ l.length = Deque.cap d → 0 ≤ n → n < l.length → dgetChecks (2 ^ k) d n = true) := by
  have hp := h.pos
  have hlen := h.len
  have hb := h.begin
  have key : ∀ m : Nat, m < l.length → (dgetChecks (2 ^ k) d m = true ↔ (m + Deque.cap d - d.ctr.begin) % Deque.cap d < l.length) := by
    intro m hm
    have ho := h.occ m (by omega)
    have hring : Deque.ringIdx (Deque.cap d) d.ctr.begin m = (m + Deque.cap d - d.ctr.begin) % Deque.cap d := by
      unfold Deque.ringIdx
      split
      · rw [show m + Deque.cap d - d.ctr.begin = (m - d.ctr.begin) + Deque.cap d by omega, Nat.add_mod_right, Nat.mod_eq_of_lt (by omega)]
      · rw [Nat.mod_eq_of_lt (by omega)]
    rw [hring] at ho
    simp only [dgetChecks, sizePost_true, Deque.size_eq h, Bool.and_true, bitAccess_ok ⟨k, hk, rfl⟩ hc (show m < Deque.cap d by omega),
      Int.toNat_natCast, ho, Bool.and_eq_true, decide_eq_true_eq]
    constructor
    · exact fun h => h.2
    · exact fun h => ⟨⟨by omega, by omega⟩, h⟩
  refine ⟨?_, ?_, ?_⟩
  · simp only [dgetChecks, sizePost_true, Deque.size_eq h, Bool.and_eq_true, decide_eq_true_eq, Bool.and_true]
    exact fun h => h.1.1
  · intro h1 h2
    obtain ⟨m, rfl⟩ := Int.eq_ofNat_of_zero_le h1
    exact key m (by omega)
  · intro h3 h1 h2
    obtain ⟨m, rfl⟩ := Int.eq_ofNat_of_zero_le h1
    refine (key m (by omega)).2 ?_
    rcases h3 with h3 | h3
    · rw [h3, Nat.sub_zero, Nat.add_mod_right, Nat.mod_eq_of_lt (by omega)]; omega
    · rw [h3]; exact Nat.mod_lt _ hp

/-- C84 fails for `at` of a deque: after two pushes and a pop at the other end, `at(0)` of the one element ends a debug build. -/
theorem C84_counterexample_deque_access : ∃ d : Deque.Deq Nat, Deque.Holds d [2] ∧ dgetChecks 32 d 0 = false ∧ Deque.get d 0 = some 2 :=
  ⟨⟨⟨2, fun _ => false, fun p => p == 1, fun p => if p = 1 then some 2 else none, false⟩, ⟨1, 1, 0⟩⟩,
    ⟨by decide, by decide, rfl, by decide, by decide, by decide, by decide, rfl, by decide⟩, by decide, by decide⟩

/-- Hypotheses of `C84_deque_access`: a full deque that begins in slot 1. -/
example : dgetChecks 32 (⟨⟨2, fun _ => false, fun _ => true, fun p => if p = 1 then some 5 else some 6, false⟩, ⟨2, 1, 1⟩⟩ : Deque.Deq Nat) 1 = true :=
  (C84_deque_access (l := [5, 6]) ⟨by decide, by decide, rfl, by decide, by decide, by decide, by decide, rfl, by decide⟩ 5 (by decide)
    (by decide) 1).2.2 (.inr rfl) (by decide) (by decide)

/-- C84: the checks at the end of `clear()` of a vector hold in every proper state, whatever the order of its loop. -/
theorem C84_vector_clear {v : Vec α} {l : List α} (h : Holds v l) {ord : Nat → List Nat} (ho : ∀ n, (ord n).Perm (List.range n)) :
    vclearPost (ord (Vector.size v).toNat) v = true := by
  unfold vclearPost
  split
  · rfl
  · obtain ⟨v', e, -, h'⟩ := Vector.clear_holds h ho
    rw [e]
    have : Vector.empty v' = true := by simp [Vector.empty, Vector.size_eq h']
    simp [this, Vector.valid_of_holds h']

/-- C84: and those of `clear()` of a deque. -/
theorem C84_deque_clear {d : Deque.Deq α} {l : List α} (h : Deque.Holds d l) {ord : Nat → Nat → List Nat} (ho : Deque.OrdOK ord) :
    dclearPost ord d = true := by
  unfold dclearPost
  split
  · rfl
  · obtain ⟨d', e, -, h', -⟩ := Deque.clear_holds h ho
    rw [e]
    have : Deque.empty d' = true := by simp [Deque.empty, Deque.size_eq h']
    simp [this, Deque.valid_of_holds h']

end

/-! ### Unordered containers -/

section
open Stdgpu.Unordered Stdgpu.UnorderedConc
variable {K V : Type} {P : Params K V} {bc ec : Nat} {t : Tab V}

section
variable (hl : KeyLaws P) (h0 : 0 < bc) (h1 : bc < 2 ^ 63) (hr : PReachable P bc ec t) (h2 : bc + ec < 2 ^ 64)
  (progs : List (List (Op K V)))
include hl h0 h1 hr h2

/-- C84: in any execution of any operations, `insert` and `erase` together as well: a check can only fail in a step in which
something undefined happens, or after such a step. -/
theorem C84_unordered_any (sched : List Nat) (i : Nat) (u : UnorderedConc.Thread K V)
    (hu : (uexec P t progs sched).threads[i]? = some u) (k : Nat) (hk : k < 64)
    (hub : (uexec P t progs (sched ++ [i])).shared.ub = false) : uChecks (2 ^ k) P (uexec P t progs sched).shared u = true := by
  obtain ⟨⟨chain, free, h⟩, hb, ht⟩ := preachable_rep hl h0 h1 hr
  have e : (uexec P t progs (sched ++ [i])).shared = (step P (uexec P t progs sched).shared u).1 := by
    unfold uexec at hu ⊢
    rw [run_append]
    generalize run (step P) (init t progs) sched = s at hu
    show (stepAt (step P) s i).shared = _
    simp [stepAt, hu]
  rw [e] at hub
  have hub0 : (uexec P t progs sched).shared.ub = false := by
    rw [← Bool.not_eq_true]
    intro hx
    rw [An.ub_mono hx] at hub
    cases hub
  rcases Ct.cinv_run h progs sched with hx | hI
  · rw [hub0] at hx; cases hx
  · refine uChecks_ok ⟨k, hk, rfl⟩ hI (by omega) (by omega) h.bc_le (by omega) ?_ (List.mem_of_getElem? hu) hub
    rw [Ct.run_cap]
    have : t.excess.slots.cap = t.total - t.bc := h.excessCap
    omega

/-- C84: in particular in any execution the value of `size()` is between 0 and `max_size()` as long as nothing undefined has
happened. -/
theorem C84_size_in_range (sched : List Nat) (hub : (uexec P t progs sched).shared.ub = false) :
    0 ≤ (uexec P t progs sched).shared.tab.count ∧ (uexec P t progs sched).shared.tab.count ≤ bc + ec := by
  obtain ⟨⟨chain, free, h⟩, hb, ht⟩ := preachable_rep hl h0 h1 hr
  rcases Ct.cinv_run h progs sched with hx | hI
  · rw [hub] at hx; cases hx
  · have := hI.count
    omega

/-- C84: threads that insert and look up, or erase and look up, or do everything as long as different keys have different
buckets: in every state the next step of every thread passes all checks. -/
theorem C84_unordered_concurrent (hp : NoErase progs ∨ NoInsert progs ∨ Separated P t progs) (sched : List Nat) (k : Nat)
    (hk : k < 64) : ∀ u ∈ (uexec P t progs sched).threads, uChecks (2 ^ k) P (uexec P t progs sched).shared u = true := by
  intro u hu
  obtain ⟨i, hi⟩ := List.getElem?_of_mem hu
  refine C84_unordered_any hl h0 h1 hr h2 progs sched i u hi k hk ?_
  rcases hp with hp | hp | hp
  · exact (C38_safe hl h0 h1 hr hp _).1
  · exact (C39_safe hl h0 h1 hr hp _).1
  · exact (C75_mixed_defined hl h0 h1 hr hp _).1

end

/-- The hypotheses of the three cases are met (Props/UMixed.lean); a state in the middle of this execution. -/
example : ∀ u ∈ (uexec exP mixTab mixProgs (mixSched.take 9)).threads,
    uChecks 32 exP (uexec exP mixTab mixProgs (mixSched.take 9)).shared u = true :=
  C84_unordered_concurrent exP_laws (by omega) (by omega) (exTab_reachable _ _ _ _) (by omega) _ (.inr (.inr mix_separated)) _ 5 (by omega)

/-- C84 is false for unrestricted concurrent insertions and erasures: after the execution of C40_counterexample_out_of_bounds, in
which all operations were successful and all checks held, the check of the position in a later lookup fails. -/
theorem C84_counterexample_mixed :
    ∃ (t : Tab (Nat × Nat)) (sched : List Nat), PReachable exP 2 5 t ∧
      (uexec exP t mixedProgs sched).shared.ub = false ∧
      (uexec exP t mixedProgs sched).threads.map (uChecks 32 exP (uexec exP t mixedProgs sched).shared) =
        [true, true, true, true, false] := by
  refine ⟨exTab exP 2 5 [.insert (0, 10), .insert (2, 10), .insert (4, 10), .insert (5, 10), .insert (7, 10),
      .insert (10, 10), .erase 7, .erase 2, .erase 10, .erase 4, .erase 5, .insert (2, 10), .insert (4, 10),
      .insert (5, 10), .insert (7, 10), .insert (1, 10)], mixedSched ++ List.replicate 12 4, exTab_reachable _ _ _ _, by decide +kernel,
    by decide +kernel⟩

theorem bucketLoop_ok {k : Nat} (hk : k < 64) {t : Tab V} (ht : t.total < 2 ^ 64) (l : List Nat) : ∀ (fuel p : Nat), Linked t.off p l →
    l.length < fuel → p < t.total → (∀ x ∈ l, x < t.total) → bucketLoopChecks (2 ^ k) t fuel p = true := by
  induction l with
  | nil =>
    intro fuel p h hf hp hr
    obtain ⟨fuel, rfl⟩ : ∃ f, fuel = f + 1 := ⟨fuel - 1, by simp at hf; omega⟩
    have h0 : t.off p = 0 := h
    simp [bucketLoopChecks, bitAccess_ok ⟨k, hk, rfl⟩ ht hp, h0]
  | cons q l ih =>
    intro fuel p h hf hp hr
    obtain ⟨fuel, rfl⟩ : ∃ f, fuel = f + 1 := ⟨fuel - 1, by simp at hf; omega⟩
    obtain ⟨h1, h2, h3⟩ := h
    have := ih fuel q h3 (by simpa using hf) (hr q (by simp)) (fun x hx => hr x (List.mem_cons_of_mem _ hx))
    simp only [bucketLoopChecks, bitAccess_ok ⟨k, hk, rfl⟩ ht hp, Int.toNat_natCast, Bool.true_and, Bool.or_eq_true]
    right
    rw [h2]; exact this

/-- C84: the checks of `bucket_size(n)` hold for every bucket of a container, and for no other `n`. -/
theorem C84_bucket_size (hl : KeyLaws P) (h0 : 0 < bc) (h1 : bc < 2 ^ 63) (hr : PReachable P bc ec t) (h2 : bc + ec < 2 ^ 64)
    (k : Nat) (hk : k < 64) (n : Int) : bucketSizeChecks (2 ^ k) t n = true ↔ 0 ≤ n ∧ n < bc := by
  obtain ⟨⟨chain, free, h⟩, hb, ht⟩ := preachable_rep hl h0 h1 hr
  have htot : t.total < 2 ^ 64 := by omega
  simp only [bucketSizeChecks, Bool.and_eq_true, decide_eq_true_eq]
  constructor
  · rintro ⟨h3, h4⟩
    refine ⟨?_, by omega⟩
    simp only [bucketLoopChecks, Bool.and_eq_true] at h4
    have := h4.1
    simp only [bitAccess, Bool.and_eq_true, decide_eq_true_eq] at this
    omega
  · rintro ⟨h3, h4⟩
    obtain ⟨m, rfl⟩ := Int.eq_ofNat_of_zero_le h3
    have hm : m < t.bc := by omega
    have hc := h.chain_length hm
    have hbc := h.bc_le
    exact ⟨by omega, bucketLoop_ok hk htot (chain m) _ m (h.linked m hm) (by omega) (by omega) (fun x hx => (h.rng m hm x hx).2)⟩

/-- A bucket with a chain of two entries. -/
example : bucketSizeChecks 32 (exTab exP 2 5 [.insert (0, 10), .insert (2, 10), .insert (4, 10), .insert (5, 10)]) 0 = true :=
  (C84_bucket_size (bc := 2) (ec := 5) exP_laws (by decide) (by decide) (exTab_reachable _ _ _ _) (by decide) 5 (by decide) 0).2 (by decide)

/-- C84: the checks of `createDeviceObject`. -/
theorem C84_unordered_create (n : Nat) (h0 : 0 < n) (h1 : n ≤ 2 ^ 62) :
    createChecks (V := V) n (bucketCount n) (excessCount n) = true := by
  obtain ⟨k, -, e, -⟩ := C37_bucket_count_partial n h0 h1
  have hb : 0 < bucketCount n := by rw [e]; exact Nat.pow_pos (by omega)
  obtain ⟨e1, -, -⟩ := C37_excess_and_total n h0 h1
  simp only [createChecks, sizePost_true, Bool.and_true, Bool.and_eq_true, decide_eq_true_eq]
  refine ⟨⟨⟨h0, hb⟩, by omega⟩, ?_⟩
  simp [Unordered.create, Vector.clearIota, Vector.create, Vector.full, Vector.size, Vector.cap, Vector.clampSize]

end

/-! ### Memory -/

section
open Stdgpu.Memory

/-- C84: after any history of calls of the memory API: the checks of an allocation hold if no allocation of this type of memory
has failed before, and also after one failed allocation if this one succeeds. The checks of a deallocation hold, with any
pointer, if at most one allocation has failed. The checks of `register_memory` and `deregister_memory` always hold. -/
theorem C84_memory {ops : List AOp} {s : Memory.Sys} (h : AfterCalls ops s) (ty : MemType) :
    (∀ n esz addr, s.failed ty = 0 → safeAllocateChecks s n esz ty addr = true) ∧
    (∀ (n : Int) (esz addr : Nat), s.failed ty = 1 → Room s addr (n * esz) → safeAllocateChecks s n esz ty addr = true) ∧
    (∀ p, s.failed ty ≤ 1 → safeDeallocateChecks s p ty = true) ∧
    (∀ p n, registerMemoryChecks s p n ty = true) ∧ (∀ p, deregisterMemoryChecks s p ty = true) := by
  have hi := reachable_inv h
  have hz := reachable_szi h
  refine ⟨?_, ?_, ?_, fun p n => registerMemoryChecks_ok hz p n ty, fun p => deregisterMemoryChecks_ok hz p ty⟩
  · intro n esz addr hf
    simp only [safeAllocateChecks, Bool.and_eq_true]
    refine ⟨(allocateChecks_iff hi _ ty addr).2 ?_, registerMemoryChecks_ok (hz.allocate _ _ _) _ _ _⟩
    cases hr : fresh s.heap addr (n * esz)
    · exact .inr (.inr (.inr ⟨rfl, hf⟩))
    · exact .inr (.inr (.inl ⟨rfl, by omega⟩))
  · intro n esz addr hf hr
    simp only [safeAllocateChecks, Bool.and_eq_true]
    exact ⟨(allocateChecks_iff hi _ ty addr).2 (.inr (.inr (.inl ⟨room_iff.2 hr, by omega⟩))),
      registerMemoryChecks_ok (hz.allocate _ _ _) _ _ _⟩
  · intro p hf
    simp only [safeDeallocateChecks, Bool.and_eq_true]
    refine ⟨deregisterMemoryChecks_ok hz p ty, (deallocateChecks_iff (inv_deregister hi p ty) p ty).2 (.inr ?_)⟩
    rw [(deregister_heap s p ty).2.2.2]
    exact hf

/-- C84 is false after failures: the second allocation that fails violates the check that the pointer (null both times) is not
registered yet. -/
theorem C84_counterexample_memory {ops : List AOp} {s : Memory.Sys} (h : AfterCalls ops s) (ty : MemType) (ht : ty ≠ .invalid)
    (hf : 0 < s.failed ty) (n : Int) (esz addr : Nat) (hn : 0 < n * esz) (hr : ¬ Room s addr (n * esz)) :
    safeAllocateChecks s n esz ty addr = false := by
  have hi := reachable_inv h
  rw [← Bool.not_eq_true]
  intro hk
  simp only [safeAllocateChecks, Bool.and_eq_true] at hk
  rcases (allocateChecks_iff hi _ ty addr).1 hk.1 with h1 | h1 | h1 | h1
  · omega
  · exact ht h1
  · exact hr (room_iff.1 h1.1)
  · omega

/-- A history with one failed allocation: then the checks of a successful one hold, those of another failed one do not. -/
example : ∃ s, AfterCalls [.allocate .device 5 8 100, .allocate .device 5 8 100] s ∧ s.failed .device = 1 ∧
    safeAllocateChecks s 5 8 .device 200 = true ∧ safeAllocateChecks s 5 8 .device 100 = false := by
  refine ⟨_, ⟨fun _ => 0, fun _ => List.range, _, fun _ _ => .refl _, rfl⟩, ?_, ?_, ?_⟩ <;> decide

end

end Stdgpu.Props
