import Verif.Proof.Memory
/-! Sizes, copies and arrays. -/
namespace Stdgpu.Memory
open Stdgpu.Spec
open Stdgpu.Vector (Fault)

/-! ### sizes -/

theorem findSize_live {s : Sys} (h : Inv s) (hs : SInv s) {ty : MemType} {p : Nat} {n : Int} (hl : Live s ty p n) :
    (s.sizes ty).findSize p = n := by
  unfold Mgr.findSize
  cases hf : (s.sizes ty).ptrs.find? (fun e => e.1 == p) with
  | none =>
    have := List.find?_eq_none.1 hf (p, n) (hs.mem_sizes.2 hl)
    simp at this
  | some e =>
    obtain ⟨q, m⟩ := e
    have h1 := List.mem_of_find?_eq_some hf
    have h2 := List.find?_some hf
    simp only [beq_iff_eq] at h2
    subst h2
    have := h.unique (hs.mem_sizes.1 h1) hl rfl
    simp only [Block.mk.injEq] at this
    exact this.2.1

theorem type_live {s : Sys} (h : Inv s) (hs : SInv s) {ty : MemType} {p : Nat} {n : Int} (hl : Live s ty p n) :
    dynamicMemoryType s p = ty := by
  have hc : ∀ t, (s.sizes t).contains p = true → t = ty := by
    intro t ht
    obtain ⟨m, hm⟩ := (contains_iff _ _).1 ht
    have := h.unique (hs.mem_sizes.1 hm) hl rfl
    simp only [Block.mk.injEq] at this
    exact this.2.2
  have hty : (s.sizes ty).contains p = true := (contains_iff _ _).2 ⟨n, hs.mem_sizes.2 hl⟩
  have hne := (h.pos _ hl).2.2
  unfold dynamicMemoryType
  split
  · next h1 => exact hc _ h1
  · split
    · next h1 => exact hc _ h1
    · next h1 h2 =>
      cases ty
      · exact absurd hty h1
      · exact absurd hty h2
      · exact absurd rfl hne

theorem type_dead {s : Sys} (hs : SInv s) {p : Nat} (hl : ∀ ty n, ¬ Live s ty p n) :
    dynamicMemoryType s p = .invalid := by
  have hc : ∀ t, (s.sizes t).contains p = false := by
    intro t
    by_contra hc
    rw [Bool.not_eq_false, contains_iff] at hc
    obtain ⟨n, hn⟩ := hc
    exact hl t n (hs.mem_sizes.1 hn)
  unfold dynamicMemoryType
  simp [hc]

theorem sizeBytes_live {s : Sys} (h : Inv s) (hs : SInv s) {ty : MemType} {p : Nat} {n : Int} (hl : Live s ty p n) :
    sizeBytes s p = n := by
  unfold sizeBytes
  rw [type_live h hs hl]
  exact findSize_live h hs hl

theorem sizeBytes_dead {s : Sys} (hs : SInv s) {p : Nat} (hl : ∀ ty n, ¬ Live s ty p n) : sizeBytes s p = 0 := by
  unfold sizeBytes
  rw [type_dead hs hl]
  unfold Mgr.findSize
  cases hf : (s.sizes .invalid).ptrs.find? (fun e => e.1 == p) with
  | none => rfl
  | some e =>
    obtain ⟨q, m⟩ := e
    have h1 := List.mem_of_find?_eq_some hf
    have h2 := List.find?_some hf
    simp only [beq_iff_eq] at h2
    subst h2
    exact absurd (hs.mem_sizes.1 h1) (hl _ _)

theorem sizeOf_live {s : Sys} (h : Inv s) (hs : SInv s) {ty : MemType} {p : Nat} {n esz : Nat} (he : 0 < esz)
    (hl : Live s ty p ((n : Int) * esz)) : arraySize s p esz = n := by
  unfold arraySize
  rw [sizeBytes_live h hs hl]
  simp only [Int.mul_emod_left, ne_eq, not_true_eq_false, if_false]
  exact Int.mul_ediv_cancel _ (by omega)

/-! ### memcpy -/

theorem covers_iff {s : Sys} {ty : MemType} {p : Nat} {bytes : Int} :
    covers s.heap ty p bytes = true ↔ Inside s ty p bytes := by
  unfold covers Inside Live
  simp only [List.any_eq_true, Bool.and_eq_true, beq_iff_eq, decide_eq_true_eq]
  constructor
  · rintro ⟨⟨q, n, t⟩, hb, ⟨rfl, h1⟩, h2⟩; exact ⟨q, n, hb, h1, h2⟩
  · rintro ⟨q, n, hb, h1, h2⟩; exact ⟨_, hb, ⟨rfl, h1⟩, h2⟩

theorem no_null {s : Sys} (h : Inv s) (hf : NoFailure s) (ty : MemType) : ∀ e ∈ (s.alloc ty).ptrs, e.1 ≠ 0 := by
  have := h.allocZ ty
  rw [hf ty] at this
  simp only [Nat.lt_irrefl, if_false, List.length_eq_zero_iff] at this
  unfold zs at this
  rw [List.filter_eq_nil_iff] at this
  intro e he
  simpa using this e he

theorem containsSub_inside {s : Sys} (h : Inv s) (hf : NoFailure s) {ty : MemType} {p : Nat} {bytes : Int}
    (hc : (s.alloc ty).containsSub p bytes = true) : Inside s ty p bytes := by
  unfold Mgr.containsSub at hc
  simp only [List.any_eq_true, Bool.and_eq_true, decide_eq_true_eq] at hc
  obtain ⟨⟨q, n⟩, he, h1, h2, h3⟩ := hc
  exact ⟨q, n, (h.mem_alloc (no_null h hf ty _ he)).1 he, h2, h3⟩

theorem inside_containsSub {s : Sys} (h : Inv s) {ty : MemType} {p : Nat} {bytes : Int} (hb : 0 < bytes)
    (hi : Inside s ty p bytes) : (s.alloc ty).containsSub p bytes = true := by
  obtain ⟨q, n, hl, h1, h2⟩ := hi
  have hq : q ≠ 0 := by have := (h.pos _ hl).1; simp only at this; omega
  unfold Mgr.containsSub
  simp only [List.any_eq_true, Bool.and_eq_true, decide_eq_true_eq]
  exact ⟨(q, n), (h.mem_alloc hq).2 hl, by simp only; omega, h1, h2⟩

theorem inside_type {s : Sys} (h : Inv s) {ty : MemType} {p : Nat} {bytes : Int} (hi : Inside s ty p bytes) : ty ≠ .invalid := by
  obtain ⟨q, n, hl, -⟩ := hi
  exact (h.pos _ hl).2.2

/-- The memory after a copy. -/
def copied (s : Sys) (dst src : Nat) (bytes : Int) : Sys :=
  { s with mem := fun a => if dst ≤ a ∧ (a : Int) < dst + bytes then s.mem (src + (a - dst)) else s.mem a }

theorem memcpy_checked {s : Sys} (h : Inv s) (hf : NoFailure s) (dst src : Nat) (bytes : Int) (dty sty : MemType)
    (hb : 0 < bytes) (ho : ¬ Overlap dst src bytes) :
    (Inside s dty dst bytes ∧ Inside s sty src bytes →
      memcpy s dst src bytes dty sty false = .ok (true, copied s dst src bytes)) ∧
    (¬ (Inside s dty dst bytes ∧ Inside s sty src bytes) → memcpy s dst src bytes dty sty false = .ok (false, s)) := by
  constructor
  · rintro ⟨h1, h2⟩
    have a1 := inside_containsSub h hb h1
    have a2 := inside_containsSub h hb h2
    have a3 : ¬ (dty = .invalid ∨ sty = .invalid) := by
      rintro (e | e)
      · exact inside_type h h1 e
      · exact inside_type h h2 e
    have a4 := covers_iff.2 h1
    have a5 := covers_iff.2 h2
    unfold Overlap at ho
    have a6 : ¬ (0 < bytes ∧ (dst : Int) < src + bytes ∧ (src : Int) < dst + bytes) := fun hc => ho hc.2
    simp only [memcpy, a1, a2, a4, a5, if_neg a3, backendCopy, if_neg (show ¬ bytes < 0 by omega), if_neg a6]
    rfl
  · intro hn
    unfold memcpy
    by_cases c1 : (s.alloc dty).containsSub dst bytes = true
    · by_cases c2 : (s.alloc sty).containsSub src bytes = true
      · exact absurd ⟨containsSub_inside h hf c1, containsSub_inside h hf c2⟩ hn
      · rw [Bool.not_eq_true] at c2
        simp [c1, c2]
    · rw [Bool.not_eq_true] at c1
      simp [c1]

/-! ### Allocation of arrays -/

theorem safeAllocate_nonpos (s : Sys) (n : Int) (esz : Nat) (ty : MemType) (addr : Nat) (hn : n ≤ 0) :
    safeAllocate s n esz ty addr = (0, s) := by
  have : n * (esz : Int) ≤ 0 := Int.mul_nonpos_of_nonpos_of_nonneg hn (by omega)
  unfold safeAllocate
  have e : allocate s (n * esz) ty addr = (0, s) := by unfold allocate; rw [if_pos this]
  rw [e]
  simp [register_null]

theorem safeAllocate_room {s : Sys} (h : Inv s) (hs : SInv s) {bytes n : Int} {esz : Nat} {ty : MemType} {addr : Nat}
    (hbe : n * esz = bytes) (hb : 0 < bytes) (ht : ty ≠ .invalid) (hr : Room s addr bytes) :
    ∃ s1, safeAllocate s n esz ty addr = (addr, s1) ∧ Inv s1 ∧ SInv s1 ∧ s1.mem = s.mem ∧ s1.failed = s.failed ∧
      s1.heap = ⟨addr, bytes, ty⟩ :: s.heap := by
  subst hbe
  have hinv := inv_safeAllocate h n esz ty addr
  have hsinv := sinv_safeAllocate h hs n esz ty addr
  obtain ⟨e1, -⟩ := register_new (ty := ty) h hs hb hr
  have e : safeAllocate s n esz ty addr = (addr, registerMemory (allocated s (n * esz) ty addr) addr (n * esz) ty) := by
    unfold safeAllocate
    rcases allocate_cases s (n * esz) ty addr with ⟨-, hx | hx⟩ | ⟨-, -, -, e⟩ | ⟨-, -, hx, -⟩
    · omega
    · exact absurd hx ht
    · rw [e]
    · exact absurd hr hx
  rw [e] at hinv hsinv
  exact ⟨_, e, hinv, hsinv, by rw [e1]; rfl, by rw [e1]; rfl, by rw [e1]; rfl⟩

theorem idx_unique {e i j k : Nat} (hj : j < e) (h1 : k * e ≤ i * e + j) (h2 : i * e + j < k * e + e) : i = k := by
  have a : (i * e + j) / e = i := by
    rw [Nat.add_comm, Nat.add_mul_div_right _ _ (by omega), Nat.div_eq_of_lt hj]; omega
  have b : (i * e + j) / e = k := by
    rw [Nat.div_eq_iff (by omega)]
    constructor
    · exact h1
    · omega
  omega

theorem fill_loop (ty : MemType) (p esz N : Nat) (v : Nat → BitVec 8) (order : List Nat) : ∀ (s : Sys),
    Inside s ty p ((N : Int) * esz) → (∀ i ∈ order, i < N) → ∃ s', order.foldlM (constructElem ty p esz v) s = .ok s' ∧
      s' = { s with mem := s'.mem } ∧ (∀ i ∈ order, ∀ j, j < esz → s'.mem (p + i * esz + j) = v j) ∧
      (∀ a, (∀ i ∈ order, ∀ j, j < esz → a ≠ p + i * esz + j) → s'.mem a = s.mem a) := by
  induction order with
  | nil => intro s _ _; exact ⟨s, rfl, rfl, by simp, fun _ _ => rfl⟩
  | cons i order ih =>
    intro s hi hr
    obtain ⟨q, n, hl, hq1, hq2⟩ := hi
    have hiN := hr i (by simp)
    have hmul : ((i : Int) + 1) * esz ≤ (N : Int) * esz := Int.mul_le_mul_of_nonneg_right (by omega) (by omega)
    have hcov : covers s.heap ty (p + i * esz) esz = true := by
      rw [covers_iff]
      refine ⟨q, n, hl, by omega, ?_⟩
      push_cast
      have : ((i : Int) + 1) * esz = (i : Int) * esz + esz := by ring
      omega
    obtain ⟨s1, hs1⟩ : ∃ s1 : Sys, s1 = { s with mem := fun a => if p + i * esz ≤ a ∧ a < p + i * esz + esz then v (a - (p + i * esz)) else s.mem a } := ⟨_, rfl⟩
    have e1 : constructElem ty p esz v s i = .ok s1 := by
      unfold constructElem
      rw [if_pos hcov, hs1]
    obtain ⟨s', e, h1, h2, h3⟩ := ih s1 ⟨q, n, by rw [hs1]; exact hl, hq1, hq2⟩
      (fun k hk => hr k (List.mem_cons_of_mem _ hk))
    refine ⟨s', ?_, ?_, ?_, ?_⟩
    · rw [List.foldlM_cons, e1]; exact e
    · rw [h1, hs1]
    · intro k hk j hj
      by_cases hko : k ∈ order
      · exact h2 k hko j hj
      · have hki : k = i := by
          rcases List.mem_cons.1 hk with hx | hx
          · exact hx
          · exact absurd hx hko
        subst hki
        rw [h3 (p + k * esz + j)]
        · rw [hs1]
          show (if p + k * esz ≤ p + k * esz + j ∧ p + k * esz + j < p + k * esz + esz then _ else _) = _
          rw [if_pos (by omega)]
          congr 1
          omega
        · intro l hl j' hj' he
          have : k = l := idx_unique hj (by omega) (by omega)
          subst this
          exact hko hl
    · intro a ha
      rw [h3 a (fun k hk j hj => ha k (List.mem_cons_of_mem _ hk) j hj), hs1]
      show (if p + i * esz ≤ a ∧ a < p + i * esz + esz then _ else _) = _
      rw [if_neg]
      rintro ⟨g1, g2⟩
      exact ha i (by simp) (a - (p + i * esz)) (by omega) (by omega)

theorem elem_of_bytes {s : Sys} {p esz i : Nat} {v : Nat → BitVec 8} (h : ∀ j, j < esz → s.mem (p + i * esz + j) = v j) :
    elem s p esz i = bytesOf esz v := by
  unfold elem bytesOf
  apply List.map_congr_left
  intro j hj
  exact h j (List.mem_range.1 hj)

theorem allocateFilled_spec {s : Sys} (h : Inv s) (hs : SInv s) (n esz : Nat) (hn : 0 < n) (he : 0 < esz)
    (v : Nat → BitVec 8) (ty : MemType) (ht : ty ≠ .invalid) (addr : Nat) (hr : Room s addr ((n : Int) * esz))
    (ord : Nat → List Nat) (ho : ∀ n, (ord n).Perm (List.range n)) :
    ∃ s', allocateFilled ord s n esz v ty addr = .ok (addr, s') ∧ Inv s' ∧ SInv s' ∧ s'.failed = s.failed ∧
      s'.heap = ⟨addr, (n : Int) * esz, ty⟩ :: s.heap ∧
      arrayAt s' addr esz n = List.replicate n (bytesOf esz v) ∧
      (∀ a, a < addr ∨ addr + n * esz ≤ a → s'.mem a = s.mem a) := by
  have hpos : 0 < (n : Int) * esz := Int.mul_pos (by omega) (by omega)
  obtain ⟨s1, e1, i1, i2, hm, hf, hh⟩ := safeAllocate_room (n := n) (esz := esz) h hs rfl hpos ht hr
  have hlive : Live s1 ty addr ((n : Int) * esz) := by unfold Live; rw [hh]; simp
  have hsz := sizeOf_live i1 i2 he hlive
  obtain ⟨s', e2, f1, f2, f3⟩ := fill_loop ty addr esz n v (ord n) s1 ⟨addr, _, hlive, le_refl _, le_refl _⟩
    (fun i hi => List.mem_range.1 ((ho n).mem_iff.1 hi))
  refine ⟨s', ?_, ?_, ?_, ?_, ?_, ?_, ?_⟩
  · unfold allocateFilled
    rw [e1]
    simp only [ne_eq, hr.1, not_false_eq_true, if_true, hsz, Int.toNat_natCast, e2, bind, Except.bind, pure, Except.pure]
  · rw [f1]; exact ⟨i1.pos, i1.disj, i1.allocP, i1.allocZ, i1.cnt⟩
  · rw [f1]; exact i2
  · rw [f1]; exact hf
  · rw [f1]; exact hh
  · unfold arrayAt
    rw [List.eq_replicate_iff]
    refine ⟨by simp, fun b hb => ?_⟩
    obtain ⟨i, hi, rfl⟩ := List.mem_map.1 hb
    exact elem_of_bytes (f2 i ((ho n).mem_iff.2 hi))
  · intro a ha
    rw [f3 a, hm]
    intro i hi j hj hx
    have hi := List.mem_range.1 ((ho n).mem_iff.1 hi)
    have : (i + 1) * esz ≤ n * esz := Nat.mul_le_mul_right _ hi
    rw [Nat.succ_mul] at this
    omega

theorem copied_array {s s1 : Sys} (hm : s1.mem = s.mem) (src dst esz n : Nat) :
    arrayAt (copied s1 dst src ((n : Int) * esz)) dst esz n = arrayAt s src esz n ∧
    (∀ a, a < dst ∨ dst + n * esz ≤ a → (copied s1 dst src ((n : Int) * esz)).mem a = s.mem a) := by
  constructor
  · unfold arrayAt
    apply List.map_congr_left
    intro i hi
    have hi := List.mem_range.1 hi
    unfold elem
    apply List.map_congr_left
    intro j hj
    have hj := List.mem_range.1 hj
    have : (i + 1) * esz ≤ n * esz := Nat.mul_le_mul_right _ hi
    rw [Nat.succ_mul] at this
    show (if dst ≤ dst + i * esz + j ∧ ((dst + i * esz + j : Nat) : Int) < dst + (n : Int) * esz then _ else _) = _
    rw [if_pos (by constructor; omega; exact_mod_cast (by omega : dst + i * esz + j < dst + n * esz)), hm]
    congr 1
    omega
  · intro a ha
    show (if dst ≤ a ∧ (a : Int) < dst + (n : Int) * esz then _ else _) = _
    rw [if_neg, hm]
    rintro ⟨h1, h2⟩
    have : a < dst + n * esz := by exact_mod_cast h2
    omega

theorem copyCreate_spec {s : Sys} (h : Inv s) (hs : SInv s) (hf : NoFailure s) (n esz : Nat) (hn : 0 < n) (he : 0 < esz)
    (dty sty : MemType) (ht : dty ≠ .invalid) (src addr : Nat) (hsrc : Inside s sty src ((n : Int) * esz))
    (hr : Room s addr ((n : Int) * esz)) :
    ∃ s', copyCreateArray s src n esz dty sty true addr = .ok (addr, s') ∧ Inv s' ∧ SInv s' ∧ s'.failed = s.failed ∧
      s'.heap = ⟨addr, (n : Int) * esz, dty⟩ :: s.heap ∧ arrayAt s' addr esz n = arrayAt s src esz n ∧
      (∀ a, a < addr ∨ addr + n * esz ≤ a → s'.mem a = s.mem a) := by
  have hpos : 0 < (n : Int) * esz := Int.mul_pos (by omega) (by omega)
  obtain ⟨s1, e1, i1, i2, hm, hf1, hh⟩ := safeAllocate_room (n := n) (esz := esz) h hs rfl hpos ht hr
  have hlive : Live s1 dty addr ((n : Int) * esz) := by unfold Live; rw [hh]; simp
  have hsrc1 : Inside s1 sty src ((n : Int) * esz) := by
    obtain ⟨q, m, hl, g⟩ := hsrc
    exact ⟨q, m, by unfold Live; rw [hh]; exact List.mem_cons_of_mem _ hl, g⟩
  have hno : ¬ Overlap addr src ((n : Int) * esz) := by
    obtain ⟨q, m, hl, g1, g2⟩ := hsrc
    have := hr.2 _ _ _ hl
    unfold Overlap
    omega
  obtain ⟨c1, -⟩ := memcpy_checked i1 (fun t => by rw [hf1]; exact hf t) addr src ((n : Int) * esz) dty sty hpos hno
  have e2 := c1 ⟨⟨addr, _, hlive, le_refl _, le_refl _⟩, hsrc1⟩
  obtain ⟨k1, k2⟩ := copied_array hm src addr esz n
  refine ⟨copied s1 addr src ((n : Int) * esz), ?_, ⟨i1.pos, i1.disj, i1.allocP, i1.allocZ, i1.cnt⟩, i2, hf1, hh, k1, k2⟩
  unfold copyCreateArray
  rw [e1]
  simp only [hr.1, if_false, copyArray, Bool.not_true, e2, bind, Except.bind, pure, Except.pure]

end Stdgpu.Memory
