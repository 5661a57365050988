import Verif.Proof.Memory3
import Mathlib.Data.List.Pairwise
/-! C41-C44, C49: memory API. -/
namespace Stdgpu.Props
open Stdgpu.Spec Stdgpu.Memory
open Stdgpu.Vector (Fault)

/-! ### A history used as example: two device arrays and a host array are created, one device array is destroyed, and an
already freed and a foreign pointer are deallocated. -/

def exOps : List AOp :=
  [.createDevice 3 4 (fun j => BitVec.ofNat 8 j) 100, .createHost 2 8 (fun _ => 7) 200, .allocate .device 5 2 300,
    .destroyDevice 100, .deallocate .device 100, .deallocate .host 300, .deallocate .device 99999]

/-- The state after a history, for examples. -/
def stateAfter (ops : List AOp) : Sys := match execAll (fun _ => List.range) (init (fun _ => 0)) ops with
  | .ok (_, s) => s | .error _ => init (fun _ => 0)

theorem stateAfter_after {ops : List AOp}
    (h : (execAll (fun _ => List.range) (init (fun _ => 0)) ops).toOption.isSome = true) : AfterCalls ops (stateAfter ops) := by
  unfold stateAfter
  cases e : execAll (fun _ => List.range) (init (fun _ => 0)) ops with
  | error x => rw [e] at h; simp [Except.toOption] at h
  | ok x => obtain ⟨rs, s⟩ := x; exact ⟨fun _ => 0, fun _ => List.range, rs, fun _ _ => List.Perm.refl _, e⟩

/-! ### C41 -/

/-- C41, partial: after every history of allocations, deallocations, registrations, array creations and destructions, with
any arguments, the difference of the counters is the number of live blocks plus the number of allocations that the backend
refused. What is missing is that a refused allocation is counted although there is no block. -/
theorem C41_counters_balance_partial (ops : List AOp) (s : Sys) (h : AfterCalls ops s) (ty : MemType) :
    allocationCount s ty - deallocationCount s ty = liveCount s ty + s.failed ty := (reachable_inv h).cnt ty

/-- Without refused allocations the difference is the number of live blocks, and the manager is consistent. -/
theorem C41_counters_balance (ops : List AOp) (s : Sys) (h : AfterCalls ops s) (hf : NoFailure s) (ty : MemType) :
    allocationCount s ty - deallocationCount s ty = liveCount s ty ∧ (s.alloc ty).valid = true := by
  have := (reachable_inv h).cnt ty
  rw [hf ty] at this
  exact ⟨by simpa [allocationCount, deallocationCount] using this, (valid_iff (reachable_inv h) ty).2 (by rw [hf ty]; omega)⟩

example : AfterCalls exOps (stateAfter exOps) ∧ (stateAfter exOps).heap = [⟨300, 10, .device⟩, ⟨200, 16, .host⟩] ∧
    allocationCount (stateAfter exOps) .device = 2 ∧ deallocationCount (stateAfter exOps) .device = 1 ∧
    (stateAfter exOps).failed .device = 0 ∧ (stateAfter exOps).failed .host = 0 ∧ (stateAfter exOps).failed .invalid = 0 :=
  ⟨stateAfter_after (by decide +kernel), by decide +kernel, by decide +kernel, by decide +kernel, by decide +kernel,
    by decide +kernel, by decide +kernel⟩

/-- The live blocks are really blocks: not null, of positive size, and disjoint. -/
theorem C41_live_blocks_disjoint (ops : List AOp) (s : Sys) (h : AfterCalls ops s) :
    (∀ ty p n, Live s ty p n → 0 < p ∧ 0 < n ∧ ty ≠ .invalid) ∧
    (∀ ty p n ty' p' n', Live s ty p n → Live s ty' p' n' → (p : Int) + n ≤ p' ∨ (p' : Int) + n' ≤ p ∨
      (ty = ty' ∧ p = p' ∧ n = n')) := by
  have hi := reachable_inv h
  refine ⟨fun ty p n hl => hi.pos _ hl, fun ty p n ty' p' n' h1 h2 => ?_⟩
  have hd := hi.disj
  by_cases he : (⟨p, n, ty⟩ : Block) = ⟨p', n', ty'⟩
  · simp only [Block.mk.injEq] at he
    right; right; exact ⟨he.2.2, he.1, he.2.1⟩
  · have hsym : Std.Symm (fun b c : Block => (b.addr : Int) + b.bytes ≤ c.addr ∨ (c.addr : Int) + c.bytes ≤ b.addr) :=
      ⟨fun x y hxy => hxy.symm⟩
    have := hd.forall h1 h2 he
    simp only at this
    omega

/-- Deallocating a pointer that is not the start of a live block of that type (double free, foreign, null, interior,
wrong memory type) does not fault and changes neither the live blocks, nor the memory, nor the counters. -/
theorem C41_bad_deallocation_no_effect (ops : List AOp) (s : Sys) (h : AfterCalls ops s) (p : Nat) (ty : MemType)
    (hp : ∀ n, ¬ Live s ty p n) :
    ∃ s', safeDeallocate s p ty = .ok s' ∧ s'.heap = s.heap ∧ s'.mem = s.mem ∧
      (∀ t, allocationCount s' t = allocationCount s t ∧ deallocationCount s' t = deallocationCount s t) ∧
      ((∀ op ∈ ops, AllocatorCall op) → ∀ q, sizeBytes s' q = sizeBytes s q ∧ dynamicMemoryType s' q = dynamicMemoryType s q) := by
  have hd := deregister_heap s p ty
  rcases safeDeallocate_cases (reachable_inv h) p ty with ⟨e, -⟩ | ⟨n, hl, -⟩
  · refine ⟨_, e, hd.1, hd.2.1, ?_, ?_⟩
    · intro t; unfold allocationCount deallocationCount; rw [hd.2.2.1]; exact ⟨rfl, rfl⟩
    · intro ho
      have hs := reachable_sinv h ho
      have : (s.sizes ty).contains p = false := by
        by_contra hc
        rw [Bool.not_eq_false, contains_iff] at hc
        obtain ⟨n, hn⟩ := hc
        exact hp n (hs.mem_sizes.1 hn)
      intro q
      unfold deregisterMemory
      rw [this]
      exact ⟨rfl, rfl⟩
  · exact absurd hl (hp n)

example : (∀ n, ¬ Live (stateAfter exOps) .device 100 n) ∧ (∀ n, ¬ Live (stateAfter exOps) .host 300 n) := by
  have : (stateAfter exOps).heap = [⟨300, 10, .device⟩, ⟨200, 16, .host⟩] := by decide +kernel
  constructor <;> intro n hl <;> unfold Live at hl <;> rw [this] at hl <;> simp at hl

/-- Deallocating a live block does not fault, removes exactly it, and counts one deallocation. -/
theorem C41_deallocation (ops : List AOp) (s : Sys) (h : AfterCalls ops s) (p : Nat) (ty : MemType) (n : Int)
    (hp : Live s ty p n) :
    ∃ s', safeDeallocate s p ty = .ok s' ∧ (∀ t q m, Live s' t q m ↔ Live s t q m ∧ q ≠ p) ∧ s'.mem = s.mem ∧
      (∀ t, allocationCount s' t = allocationCount s t ∧
        deallocationCount s' t = deallocationCount s t + (if t = ty then 1 else 0)) := by
  have hi := reachable_inv h
  have hd := deregister_heap s p ty
  obtain ⟨s', e, -, -, hm, hL⟩ := inv_safeDeallocate hi p ty
  refine ⟨s', e, ?_, hm, ?_⟩
  · intro t q m
    rw [hL]
    constructor
    · rintro ⟨h1, h2⟩
      refine ⟨h1, fun hq => h2 ⟨hq, ?_⟩⟩
      have := hi.unique h1 hp hq
      simp only [Block.mk.injEq] at this
      exact this.2.2
    · rintro ⟨h1, h2⟩; exact ⟨h1, fun hq => h2 hq.1⟩
  · rcases safeDeallocate_cases hi p ty with ⟨-, hn⟩ | ⟨n', -, e'⟩
    · exact absurd hp (hn n)
    · rw [e] at e'
      cases e'
      intro t
      unfold allocationCount deallocationCount freed
      simp only
      rw [hd.2.2.1]
      by_cases ht : t = ty
      · subst ht; rw [setMgr_same]; simp [Mgr.deregister]
      · rw [setMgr_ne _ _ ht]; simp [ht]

example : Live (stateAfter exOps) .device 300 10 := by
  have : (stateAfter exOps).heap = [⟨300, 10, .device⟩, ⟨200, 16, .host⟩] := by decide +kernel
  unfold Live; rw [this]; simp

/-- Calls of the allocators and of (de)register_memory. -/
def PlainCall : AOp → Prop
  | .allocate _ _ _ _ | .deallocate _ _ | .register _ _ _ | .deregister _ _ | .destroyHost _ | .destroyDevice _ => True
  | _ => False

/-- No history of allocations and deallocations, however erroneous its arguments, frees memory twice or frees memory that
is not its own. -/
theorem C41_no_double_free (ops : List AOp) (ho : ∀ op ∈ ops, PlainCall op) : ∃ s, AfterCalls ops s := by
  have key : ∀ (ops : List AOp) (s : Sys) (ords : Nat → Nat → List Nat), Inv s → (∀ op ∈ ops, PlainCall op) →
      ∃ rs s', execAll ords s ops = .ok (rs, s') := by
    intro ops
    induction ops with
    | nil => intro s _ _ _; exact ⟨[], s, rfl⟩
    | cons op ops ih =>
      intro s ords hi ho
      have h1 : ∃ r s1, exec (ords 0) s op = .ok (r, s1) := by
        have hop := ho op (by simp)
        cases op with
        | deallocate ty p =>
          obtain ⟨s', e, -⟩ := inv_safeDeallocate hi p ty
          exact ⟨0, s', by simp only [exec]; rw [e]; rfl⟩
        | destroyHost p =>
          obtain ⟨s', e, -⟩ := inv_safeDeallocate hi p .host
          exact ⟨0, s', by simp only [exec, destroyHostArray]; rw [e]; rfl⟩
        | destroyDevice p =>
          obtain ⟨s', e, -⟩ := inv_safeDeallocate hi p .device
          exact ⟨0, s', by simp only [exec, destroyDeviceArray]; rw [e]; rfl⟩
        | allocate ty n esz addr => exact ⟨_, _, rfl⟩
        | register p n ty => exact ⟨_, _, rfl⟩
        | deregister p ty => exact ⟨_, _, rfl⟩
        | _ => exact hop.elim
      obtain ⟨r, s1, e1⟩ := h1
      obtain ⟨rs, s2, e2⟩ := ih s1 (fun k => ords (k + 1)) (good_exec (b := false) ⟨hi, by simp⟩ (by simp) e1).1
        (fun o h => ho o (by simp [h]))
      refine ⟨r :: rs, s2, ?_⟩
      rw [execAll, e1]
      show (execAll (fun k => ords (k + 1)) s1 ops >>= fun x => (pure (r :: x.1, x.2) : Except Fault _)) = _
      rw [e2]; rfl
  obtain ⟨rs, s, e⟩ := key ops _ (fun _ => List.range) (inv_init (fun _ => 0)).1 ho
  exact ⟨s, fun _ => 0, fun _ => List.range, rs, fun _ _ => List.Perm.refl _, e⟩

example : ∀ op ∈ [AOp.allocate .device 3 4 100, .deallocate .device 100, .deallocate .device 100], PlainCall op := by
  simp [PlainCall]

/-- What is missing in `C41_counters_balance_partial`: an allocation that the backend refuses (possible with OpenMP) is
counted, so the difference of the counters is 1 although nothing is live; after a second one the manager reports itself
invalid. -/
theorem C41_failed_allocation_counterexample :
    (∃ s, AfterCalls [.allocate .host 3 4 0] s ∧ liveCount s .host = 0 ∧ allocationCount s .host - deallocationCount s .host = 1 ∧
      (s.alloc .host).valid = true) ∧
    (∃ s, AfterCalls [.allocate .host 3 4 0, .allocate .host 3 4 0] s ∧ liveCount s .host = 0 ∧
      allocationCount s .host - deallocationCount s .host = 2 ∧ (s.alloc .host).valid = false) :=
  ⟨⟨stateAfter [.allocate .host 3 4 0], stateAfter_after (by decide +kernel), by decide +kernel, by decide +kernel,
    by decide +kernel⟩,
   ⟨stateAfter [.allocate .host 3 4 0, .allocate .host 3 4 0], stateAfter_after (by decide +kernel), by decide +kernel,
    by decide +kernel, by decide +kernel⟩⟩

/-! ### C42 -/

/-- C42: after every history of calls except `register_memory` and `deregister_memory`, the size and the type of a pointer
are those of the live block it starts, and 0 and invalid if there is none; also when an address is used again. -/
theorem C42_size_bytes_and_type (ops : List AOp) (s : Sys) (h : AfterCalls ops s) (ho : ∀ op ∈ ops, AllocatorCall op) (p : Nat) :
    (∀ ty n, Live s ty p n → sizeBytes s p = n ∧ dynamicMemoryType s p = ty) ∧
    ((∀ ty n, ¬ Live s ty p n) → sizeBytes s p = 0 ∧ dynamicMemoryType s p = .invalid) := by
  have hi := reachable_inv h
  have hs := reachable_sinv h ho
  exact ⟨fun ty n hl => ⟨sizeBytes_live hi hs hl, type_live hi hs hl⟩, fun hl => ⟨sizeBytes_dead hs hl, type_dead hs hl⟩⟩

example : (∀ op ∈ exOps, AllocatorCall op) ∧ sizeBytes (stateAfter exOps) 300 = 10 ∧ sizeBytes (stateAfter exOps) 304 = 0 := by
  refine ⟨by simp [exOps, AllocatorCall], by decide +kernel, by decide +kernel⟩

/-- The requested size and type are those of the block that an allocation returns. -/
theorem C42_allocation (ops : List AOp) (s : Sys) (h : AfterCalls ops s) (ho : ∀ op ∈ ops, AllocatorCall op)
    (n esz : Nat) (hn : 0 < n) (he : 0 < esz) (ty : MemType) (ht : ty ≠ .invalid) (addr : Nat)
    (hr : Room s addr ((n : Int) * esz)) :
    ∃ s1, safeAllocate s n esz ty addr = (addr, s1) ∧ sizeBytes s1 addr = n * esz ∧ dynamicMemoryType s1 addr = ty ∧
      s1.mem = s.mem ∧ (∀ t q m, Live s1 t q m ↔ Live s t q m ∨ (t = ty ∧ q = addr ∧ m = n * esz)) := by
  have hpos : 0 < (n : Int) * esz := Int.mul_pos (by omega) (by omega)
  obtain ⟨s1, e, i1, i2, hm, -, hh⟩ := safeAllocate_room (n := n) (esz := esz) (reachable_inv h) (reachable_sinv h ho) rfl hpos ht hr
  have hl : Live s1 ty addr ((n : Int) * esz) := by unfold Live; rw [hh]; simp
  refine ⟨s1, e, sizeBytes_live i1 i2 hl, type_live i1 i2 hl, hm, ?_⟩
  intro t q m
  unfold Live
  rw [hh, List.mem_cons, Block.mk.injEq]
  constructor
  · rintro (⟨rfl, rfl, rfl⟩ | h)
    · right; exact ⟨rfl, rfl, rfl⟩
    · exact Or.inl h
  · rintro (h | ⟨rfl, rfl, rfl⟩)
    · exact Or.inr h
    · exact Or.inl ⟨rfl, rfl, rfl⟩

example : Room (stateAfter exOps) 100 12 := by
  have : (stateAfter exOps).heap = [⟨300, 10, .device⟩, ⟨200, 16, .host⟩] := by decide +kernel
  refine ⟨by decide, fun ty p n hl => ?_⟩
  unfold Live at hl; rw [this] at hl; simp at hl
  omega

/-- Manual registration: a pointer that is not registered with the type gets the given size; a null pointer, a
non-positive size and a registered pointer change nothing. Other pointers keep their size. -/
theorem C42_register_memory (s : Sys) (p : Nat) (n : Int) (ty : MemType) (hp : p ≠ 0) (hn : 0 < n) (ht : ty ≠ .invalid)
    (hnew : dynamicMemoryType s p = .invalid) :
    sizeBytes (registerMemory s p n ty) p = n ∧ dynamicMemoryType (registerMemory s p n ty) p = ty ∧
    (∀ q, q ≠ p → sizeBytes (registerMemory s p n ty) q = sizeBytes s q ∧
      dynamicMemoryType (registerMemory s p n ty) q = dynamicMemoryType s q) := by
  have hd : (s.sizes .device).contains p = false := by
    unfold dynamicMemoryType at hnew
    by_contra hc; rw [Bool.not_eq_false] at hc; simp [hc] at hnew
  have hh : (s.sizes .host).contains p = false := by
    unfold dynamicMemoryType at hnew
    by_contra hc; rw [Bool.not_eq_false] at hc; simp [hc, hd] at hnew
  have hc : (s.sizes ty).contains p = false := by cases ty <;> simp_all
  have e : registerMemory s p n ty = { s with sizes := setMgr s.sizes ty ((s.sizes ty).register p n) } := by
    unfold registerMemory
    rw [if_neg hp, if_neg (by omega), hc]; rfl
  rw [e]
  have hcont : ∀ t q, (setMgr s.sizes ty ((s.sizes ty).register p n) t).contains q =
      if t = ty ∧ q = p then true else (s.sizes t).contains q := by
    intro t q
    by_cases h1 : t = ty
    · subst h1
      rw [setMgr_same]
      by_cases h2 : q = p
      · simp [h2, Mgr.register, Mgr.contains]
      · rw [Bool.eq_iff_iff, contains_iff]
        simp only [h2, and_false, if_false, contains_iff, Mgr.register, List.mem_cons, List.mem_filter, Prod.mk.injEq]
        simp [h2]
    · rw [setMgr_ne _ _ h1]; simp [h1]
  have hfind : ∀ t q, (setMgr s.sizes ty ((s.sizes ty).register p n) t).findSize q =
      if t = ty ∧ q = p then n else (s.sizes t).findSize q := by
    intro t q
    by_cases h1 : t = ty
    · subst h1
      rw [setMgr_same]
      by_cases h2 : q = p
      · simp [h2, Mgr.register, Mgr.findSize]
      · have h3 : ¬ p = q := fun hx => h2 hx.symm
        simp only [h2, and_false, if_false, Mgr.register, Mgr.findSize]
        rw [List.find?_cons_of_neg (by simpa using h3), List.find?_filter]
        have : (fun a : Nat × Int => decide ((a.1 != p) = true ∧ (a.1 == q) = true)) = (fun a => a.1 == q) := by
          funext a
          by_cases ha : a.1 = q
          · simp [ha, h2]
          · simp [ha]
        rw [this]
    · rw [setMgr_ne _ _ h1]; simp [h1]
  have hty : ∀ q, dynamicMemoryType { s with sizes := setMgr s.sizes ty ((s.sizes ty).register p n) } q =
      if q = p then ty else dynamicMemoryType s q := by
    intro q
    unfold dynamicMemoryType
    simp only [hcont]
    by_cases hq : q = p
    · subst hq
      cases ty <;> simp_all
    · simp [hq]
  refine ⟨?_, by rw [hty]; simp, ?_⟩
  · unfold sizeBytes; rw [hty]; simp [hfind]
  · intro q hq
    unfold sizeBytes
    rw [hty, if_neg hq]
    refine ⟨?_, rfl⟩
    show (setMgr s.sizes ty _ (dynamicMemoryType s q)).findSize q = _
    rw [hfind]; simp [hq]

example : dynamicMemoryType (stateAfter exOps) 5000 = .invalid := by decide +kernel

/-! ### C43 -/

/-- C43, partial: as long as no allocation was refused, a checked copy of a positive number of bytes is performed only if
both ranges lie inside live blocks of the given types, otherwise it changes nothing; and it is performed, and transfers
exactly the bytes, if both ranges do and do not overlap. Missing: sizes that are not positive, see
`C43_negative_size_counterexample`, and states with refused allocations, see `C43_null_counterexample`. -/
theorem C43_checked_copy_partial (ops : List AOp) (s : Sys) (h : AfterCalls ops s) (hf : NoFailure s) (dst src : Nat) (bytes : Int)
    (dty sty : MemType) (hb : 0 < bytes) :
    (¬ (Inside s dty dst bytes ∧ Inside s sty src bytes) → memcpy s dst src bytes dty sty false = .ok (false, s)) ∧
    (Inside s dty dst bytes ∧ Inside s sty src bytes → ¬ Overlap dst src bytes →
      ∃ s', memcpy s dst src bytes dty sty false = .ok (true, s') ∧ s'.heap = s.heap ∧
        (∀ i : Nat, (i : Int) < bytes → s'.mem (dst + i) = s.mem (src + i)) ∧
        (∀ a : Nat, a < dst ∨ (dst : Int) + bytes ≤ a → s'.mem a = s.mem a)) := by
  have hi := reachable_inv h
  constructor
  · intro hn
    by_cases ho : Overlap dst src bytes
    · unfold memcpy
      by_cases h1 : (s.alloc dty).containsSub dst bytes = true
      · by_cases h2 : (s.alloc sty).containsSub src bytes = true
        · exact absurd ⟨containsSub_inside hi hf h1, containsSub_inside hi hf h2⟩ hn
        · simp [h1, h2]
      · simp [h1]
    · exact (memcpy_checked hi hf dst src bytes dty sty hb ho).2 hn
  · intro hin ho
    refine ⟨_, (memcpy_checked hi hf dst src bytes dty sty hb ho).1 hin, rfl, ?_, ?_⟩
    · intro i hib
      show (if dst ≤ dst + i ∧ ((dst + i : Nat) : Int) < dst + bytes then s.mem (src + (dst + i - dst)) else _) = _
      rw [if_pos ⟨by omega, by push_cast; omega⟩]
      congr 1; omega
    · intro a ha
      show (if dst ≤ a ∧ (a : Int) < dst + bytes then _ else s.mem a) = _
      rw [if_neg (by omega)]

example : NoFailure (stateAfter exOps) ∧ Inside (stateAfter exOps) .device 302 6 ∧ Inside (stateAfter exOps) .host 204 6 ∧
    ¬ Overlap 302 204 6 ∧ ¬ Inside (stateAfter exOps) .device 305 6 := by
  have : (stateAfter exOps).heap = [⟨300, 10, .device⟩, ⟨200, 16, .host⟩] := by decide +kernel
  refine ⟨?_, ⟨300, 10, ?_, by omega, by omega⟩, ⟨200, 16, ?_, by omega, by omega⟩, by unfold Overlap; omega, ?_⟩
  · intro ty; cases ty <;> decide +kernel
  · unfold Live; rw [this]; simp
  · unfold Live; rw [this]; simp
  · rintro ⟨q, n, hl, h1, h2⟩
    unfold Live at hl; rw [this] at hl; simp at hl
    omega

/-- A negative size passes the range check when the pointers are inside blocks; the backend then gets a huge unsigned
size. -/
theorem C43_negative_size_counterexample : ∃ s, AfterCalls [.allocate .host 4 4 100, .allocate .device 4 4 200] s ∧ NoFailure s ∧
    memcpy s 208 108 (-4) .device .host false = .error .ub := by
  refine ⟨stateAfter [.allocate .host 4 4 100, .allocate .device 4 4 200], stateAfter_after (by decide +kernel), ?_, ?_⟩
  · intro ty; cases ty <;> decide +kernel
  · have h : (match memcpy (stateAfter [.allocate .host 4 4 100, .allocate .device 4 4 200]) 208 108 (-4) .device .host false with
      | .error .ub => true | _ => false) = true := by decide +kernel
    revert h
    cases memcpy (stateAfter [.allocate .host 4 4 100, .allocate .device 4 4 200]) 208 108 (-4) .device .host false with
    | error e => cases e <;> simp
    | ok x => simp

/-- After a refused allocation the null pointer counts as a block, so the check lets copies from it pass: creating a device
array through the host (host compiler) dereferences the null pointer when the host allocation is refused. -/
theorem C43_null_counterexample : ∃ s, AfterCalls [] s ∧
    exec List.range s (.createDeviceViaHost 3 4 (fun _ => 1) 0 200) = .error .ub := by
  refine ⟨stateAfter [], stateAfter_after (by decide +kernel), ?_⟩
  have h : (match exec List.range (stateAfter []) (.createDeviceViaHost 3 4 (fun _ => 1) 0 200) with
    | .error .ub => true | _ => false) = true := by decide +kernel
  revert h
  cases exec List.range (stateAfter []) (.createDeviceViaHost 3 4 (fun _ => 1) 0 200) with
  | error e => cases e <;> simp
  | ok x => simp

/-! ### C44 -/

section C44
variable (ops : List AOp) (s : Sys) (h : AfterCalls ops s) (ho : ∀ op ∈ ops, AllocatorCall op)
include h ho

/-- C44: `createHostArray` and `createDeviceArray` (device compiler) return a new array of `n` copies of the value and
change nothing else, whatever the order in which the elements are constructed. -/
theorem C44_create (ord : Nat → List Nat) (hord : ∀ n, (ord n).Perm (List.range n)) (n esz : Nat) (hn : 0 < n) (he : 0 < esz)
    (v : Nat → BitVec 8) (addr : Nat) (hr : Room s addr ((n : Int) * esz)) :
    (∃ s', createHostArray ord s n esz v addr = .ok (addr, s') ∧ arrayAt s' addr esz n = List.replicate n (bytesOf esz v) ∧
      (∀ ty p m, Live s' ty p m ↔ Live s ty p m ∨ (ty = .host ∧ p = addr ∧ m = n * esz)) ∧
      (∀ a, a < addr ∨ addr + n * esz ≤ a → s'.mem a = s.mem a)) ∧
    (∃ s', createDeviceArray ord s n esz v addr = .ok (addr, s') ∧ arrayAt s' addr esz n = List.replicate n (bytesOf esz v) ∧
      (∀ ty p m, Live s' ty p m ↔ Live s ty p m ∨ (ty = .device ∧ p = addr ∧ m = n * esz)) ∧
      (∀ a, a < addr ∨ addr + n * esz ≤ a → s'.mem a = s.mem a)) := by
  have hi := reachable_inv h
  have hs := reachable_sinv h ho
  have hlive : ∀ (s' : Sys) t0, s'.heap = ⟨addr, (n : Int) * esz, t0⟩ :: s.heap → ∀ ty p m,
      Live s' ty p m ↔ Live s ty p m ∨ (ty = t0 ∧ p = addr ∧ m = n * esz) := by
    intro s' t0 hh ty p m
    unfold Live
    rw [hh, List.mem_cons, Block.mk.injEq]
    constructor
    · rintro (⟨rfl, rfl, rfl⟩ | h)
      · right; exact ⟨rfl, rfl, rfl⟩
      · exact Or.inl h
    · rintro (h | ⟨rfl, rfl, rfl⟩)
      · exact Or.inr h
      · exact Or.inl ⟨rfl, rfl, rfl⟩
  obtain ⟨s1, e1, -, -, -, hh1, ha1, hf1⟩ := allocateFilled_spec hi hs n esz hn he v .host (by simp) addr hr ord hord
  obtain ⟨s2, e2, -, -, -, hh2, ha2, hf2⟩ := allocateFilled_spec hi hs n esz hn he v .device (by simp) addr hr ord hord
  exact ⟨⟨s1, e1, ha1, hlive s1 _ hh1, hf1⟩, ⟨s2, e2, ha2, hlive s2 _ hh2, hf2⟩⟩

/-- `createDeviceArray` with a host compiler: through a temporary host array, which is gone afterwards. -/
theorem C44_create_via_host (hf : NoFailure s) (ord : Nat → List Nat) (hord : ∀ n, (ord n).Perm (List.range n)) (n esz : Nat)
    (hn : 0 < n) (he : 0 < esz) (v : Nat → BitVec 8) (addr1 addr2 : Nat) (hr1 : Room s addr1 ((n : Int) * esz))
    (hr2 : Room s addr2 ((n : Int) * esz)) (h12 : addr1 + n * esz ≤ addr2 ∨ addr2 + n * esz ≤ addr1) :
    ∃ s', createDeviceArrayViaHost ord s n esz v addr1 addr2 = .ok (addr2, s') ∧
      arrayAt s' addr2 esz n = List.replicate n (bytesOf esz v) ∧
      (∀ ty p m, Live s' ty p m ↔ Live s ty p m ∨ (ty = .device ∧ p = addr2 ∧ m = n * esz)) ∧
      (∀ a, a < addr2 ∨ addr2 + n * esz ≤ a → a < addr1 ∨ addr1 + n * esz ≤ a → s'.mem a = s.mem a) := by
  have hi := reachable_inv h
  have hs := reachable_sinv h ho
  obtain ⟨s1, e1, i1, i1s, hf1, hh1, ha1, hm1⟩ := allocateFilled_spec hi hs n esz hn he v .host (by simp) addr1 hr1 ord hord
  have hpos : 0 < (n : Int) * esz := Int.mul_pos (by omega) (by omega)
  have hcast : ((n * esz : Nat) : Int) = (n : Int) * esz := by push_cast; rfl
  have hl1 : Live s1 .host addr1 ((n : Int) * esz) := by unfold Live; rw [hh1]; simp
  have hr2' : Room s1 addr2 ((n : Int) * esz) := by
    refine ⟨hr2.1, fun ty p m hl => ?_⟩
    unfold Live at hl; rw [hh1, List.mem_cons, Block.mk.injEq] at hl
    rcases hl with ⟨rfl, rfl, -⟩ | hl
    · omega
    · exact hr2.2 ty p m hl
  obtain ⟨s2, e2, i2, i2s, hf2, hh2, ha2, hm2⟩ := copyCreate_spec i1 i1s (fun t => by rw [hf1]; exact hf t) n esz hn he
    .device .host (by simp) addr1 addr2 ⟨addr1, _, hl1, le_refl _, le_refl _⟩ hr2'
  obtain ⟨s3, e3, i3, -, hm3, hL3⟩ := inv_safeDeallocate i2 addr1 .host
  refine ⟨s3, ?_, ?_, ?_, ?_⟩
  · unfold createDeviceArrayViaHost createHostArray
    rw [e1]
    show (copyCreateArray s1 addr1 n esz .device .host true addr2 >>= fun x => destroyHostArray x.2 addr1 >>= fun y =>
        (pure (x.1, y.2) : Except Fault _)) = _
    rw [e2]
    show (destroyHostArray s2 addr1 >>= fun y => (pure (addr2, y.2) : Except Fault _)) = _
    unfold destroyHostArray
    rw [e3]; rfl
  · rw [← ha1, ← ha2]
    unfold arrayAt elem; rw [hm3]
  · intro ty p m
    rw [hL3]
    have hnot : ∀ t m, ¬ Live s t addr1 m := by
      intro t m hl
      have := hr1.2 t addr1 m hl
      have := (hi.pos _ hl).2.1
      simp only at this
      omega
    have hne12 : addr1 ≠ addr2 := by omega
    unfold Live
    rw [hh2, hh1, List.mem_cons, List.mem_cons, Block.mk.injEq, Block.mk.injEq]
    constructor
    · rintro ⟨⟨rfl, rfl, rfl⟩ | ⟨rfl, rfl, rfl⟩ | h, h2⟩
      · right; exact ⟨rfl, rfl, rfl⟩
      · exact absurd ⟨rfl, rfl⟩ h2
      · exact Or.inl h
    · rintro (h | ⟨rfl, rfl, rfl⟩)
      · exact ⟨Or.inr (Or.inr h), fun hx => hnot ty m (by rw [← hx.1]; exact h)⟩
      · exact ⟨Or.inl ⟨rfl, rfl, rfl⟩, fun hx => hne12 hx.1.symm⟩
  · intro a h2 h1
    rw [hm3, hm2 a h2, hm1 a h1]

/-- `copyCreate*Array`, any of the four: the new array has the contents of the source, nothing else changes. -/
theorem C44_copy_create (hf : NoFailure s) (n esz : Nat) (hn : 0 < n) (he : 0 < esz) (dty sty : MemType) (ht : dty ≠ .invalid)
    (src addr : Nat) (hsrc : Inside s sty src ((n : Int) * esz)) (hr : Room s addr ((n : Int) * esz)) :
    ∃ s', copyCreateArray s src n esz dty sty true addr = .ok (addr, s') ∧ arrayAt s' addr esz n = arrayAt s src esz n ∧
      arrayAt s' src esz n = arrayAt s src esz n ∧
      (∀ ty p m, Live s' ty p m ↔ Live s ty p m ∨ (ty = dty ∧ p = addr ∧ m = n * esz)) ∧
      (∀ a, a < addr ∨ addr + n * esz ≤ a → s'.mem a = s.mem a) := by
  obtain ⟨s', e, -, -, -, hh, ha, hm⟩ := copyCreate_spec (reachable_inv h) (reachable_sinv h ho) hf n esz hn he dty sty ht src addr hsrc hr
  obtain ⟨q, m, hl, hq1, hq2⟩ := hsrc
  have hroom := hr.2 _ _ _ hl
  have hcast : ((n * esz : Nat) : Int) = (n : Int) * esz := by push_cast; rfl
  refine ⟨s', e, ha, ?_, ?_, hm⟩
  · unfold arrayAt
    apply List.map_congr_left
    intro i hi
    unfold elem
    apply List.map_congr_left
    intro j hj
    have hi := List.mem_range.1 hi
    have hj := List.mem_range.1 hj
    have hmul : (i + 1) * esz ≤ n * esz := Nat.mul_le_mul_right _ hi
    rw [Nat.add_mul] at hmul
    apply hm
    omega
  · intro ty p m
    unfold Live
    rw [hh, List.mem_cons, Block.mk.injEq]
    constructor
    · rintro (⟨rfl, rfl, rfl⟩ | h)
      · right; exact ⟨rfl, rfl, rfl⟩
      · exact Or.inl h
    · rintro (h | ⟨rfl, rfl, rfl⟩)
      · exact Or.inr h
      · exact Or.inl ⟨rfl, rfl, rfl⟩

/-- Host to device and back to the host is the identity. -/
theorem C44_round_trip (hf : NoFailure s) (n esz : Nat) (hn : 0 < n) (he : 0 < esz) (src addr1 addr2 : Nat)
    (hsrc : Inside s .host src ((n : Int) * esz)) (hr1 : Room s addr1 ((n : Int) * esz)) (hr2 : Room s addr2 ((n : Int) * esz))
    (h12 : addr1 + n * esz ≤ addr2 ∨ addr2 + n * esz ≤ addr1) :
    ∃ s1 s2, copyCreateArray s src n esz .device .host true addr1 = .ok (addr1, s1) ∧
      copyCreateArray s1 addr1 n esz .host .device true addr2 = .ok (addr2, s2) ∧
      arrayAt s2 addr2 esz n = arrayAt s src esz n := by
  obtain ⟨s1, e1, i1, i1s, hf1, hh1, ha1, -⟩ := copyCreate_spec (reachable_inv h) (reachable_sinv h ho) hf n esz hn he
    .device .host (by simp) src addr1 hsrc hr1
  have hcast : ((n * esz : Nat) : Int) = (n : Int) * esz := by push_cast; rfl
  have hl1 : Live s1 .device addr1 ((n : Int) * esz) := by unfold Live; rw [hh1]; simp
  have hr2' : Room s1 addr2 ((n : Int) * esz) := by
    refine ⟨hr2.1, fun ty p m hl => ?_⟩
    unfold Live at hl; rw [hh1, List.mem_cons, Block.mk.injEq] at hl
    rcases hl with ⟨rfl, rfl, -⟩ | hl
    · omega
    · exact hr2.2 ty p m hl
  obtain ⟨s2, e2, -, -, -, -, ha2, -⟩ := copyCreate_spec i1 i1s (fun t => by rw [hf1]; exact hf t) n esz hn he
    .host .device (by simp) addr1 addr2 ⟨addr1, _, hl1, le_refl _, le_refl _⟩ hr2'
  exact ⟨s1, s2, e1, e2, by rw [ha2, ha1]⟩

/-- `copy*Array` between two arrays: the destination gets exactly the contents of the source, nothing else changes. -/
theorem C44_copy (hf : NoFailure s) (n esz : Nat) (hn : 0 < n) (he : 0 < esz) (dty sty : MemType) (src dst : Nat)
    (hsrc : Inside s sty src ((n : Int) * esz)) (hdst : Inside s dty dst ((n : Int) * esz))
    (hov : ¬ Overlap dst src ((n : Int) * esz)) :
    ∃ s', copyArray s src n esz dst dty sty true = .ok (true, s') ∧ arrayAt s' dst esz n = arrayAt s src esz n ∧
      s'.heap = s.heap ∧ (∀ a, a < dst ∨ dst + n * esz ≤ a → s'.mem a = s.mem a) := by
  have hpos : 0 < (n : Int) * esz := Int.mul_pos (by omega) (by omega)
  refine ⟨_, (memcpy_checked (reachable_inv h) hf dst src _ dty sty hpos hov).1 ⟨hdst, hsrc⟩, ?_, rfl, ?_⟩
  · exact (copied_array (s := s) rfl src dst esz n).1
  · exact (copied_array (s := s) rfl src dst esz n).2

/-- A non-positive size yields the null pointer and no allocation. -/
theorem C44_empty (ord : Nat → List Nat) (n : Int) (hn : n ≤ 0) (esz : Nat) (v : Nat → BitVec 8) (src addr : Nat) (dty sty : MemType) :
    createHostArray ord s n esz v addr = .ok (0, s) ∧ createDeviceArray ord s n esz v addr = .ok (0, s) ∧
    createDeviceArrayViaHost ord s n esz v addr addr = .ok (0, s) ∧ copyCreateArray s src n esz dty sty true addr = .ok (0, s) := by
  have e1 : ∀ ty, allocateFilled ord s n esz v ty addr = .ok (0, s) := by
    intro ty; unfold allocateFilled; rw [safeAllocate_nonpos s n esz ty addr hn]; rfl
  have e2 : ∀ src dty sty, copyCreateArray s src n esz dty sty true addr = .ok (0, s) := by
    intro src dty sty; unfold copyCreateArray; rw [safeAllocate_nonpos s n esz dty addr hn]; rfl
  refine ⟨e1 _, e1 _, ?_, e2 _ _ _⟩
  unfold createDeviceArrayViaHost createHostArray
  rw [e1]
  show (copyCreateArray s 0 n esz .device .host true addr >>= fun x => destroyHostArray x.2 0 >>= fun y =>
        (pure (x.1, y.2) : Except Fault _)) = _
  rw [e2]
  show (destroyHostArray s 0 >>= fun y => (pure (0, y.2) : Except Fault _)) = _
  have hc : (s.sizes .host).contains 0 = false := by
    by_contra hc
    rw [Bool.not_eq_false, contains_iff] at hc
    obtain ⟨n, hn⟩ := hc
    exact absurd ((reachable_inv h).pos _ ((reachable_sinv h ho).mem_sizes.1 hn)).1 (by simp)
  have hd : deregisterMemory s 0 .host = s := by unfold deregisterMemory; rw [hc]; rfl
  have : destroyHostArray s 0 = .ok (0, s) := by
    unfold destroyHostArray safeDeallocate
    rw [hd]; rfl
  rw [this]; rfl

/-- After `destroyHostArray` and `destroyDeviceArray` (both variants) of an array the pointer is null, the block is no
longer live, and all other blocks are as before. -/
theorem C44_destroy (p : Nat) (n : Int) :
    (Live s .host p n → ∃ s', destroyHostArray s p = .ok (0, s') ∧ s'.mem = s.mem ∧
      (∀ t q m, Live s' t q m ↔ Live s t q m ∧ q ≠ p) ∧ sizeBytes s' p = 0) ∧
    (Live s .device p n → ∃ s', destroyDeviceArray s p = .ok (0, s') ∧ s'.mem = s.mem ∧
      (∀ t q m, Live s' t q m ↔ Live s t q m ∧ q ≠ p) ∧ sizeBytes s' p = 0) := by
  have hi := reachable_inv h
  have hs := reachable_sinv h ho
  have key : ∀ ty, Live s ty p n → ∃ s', safeDeallocate s p ty = .ok s' ∧ s'.mem = s.mem ∧
      (∀ t q m, Live s' t q m ↔ Live s t q m ∧ q ≠ p) ∧ sizeBytes s' p = 0 := by
    intro ty hl
    obtain ⟨s', e, hL, hm, -⟩ := C41_deallocation ops s h p ty n hl
    refine ⟨s', e, hm, hL, sizeBytes_dead (sinv_safeDeallocate hi hs p ty e) ?_⟩
    intro t m hx
    exact ((hL t p m).1 hx).2 rfl
  constructor
  · intro hl
    obtain ⟨s', e, h1, h2, h3⟩ := key _ hl
    exact ⟨s', by unfold destroyHostArray; rw [e]; rfl, h1, h2, h3⟩
  · intro hl
    obtain ⟨s', e, h1, h2, h3⟩ := key _ hl
    exact ⟨s', by unfold destroyDeviceArray; rw [e]; rfl, h1, h2, h3⟩

/-- `destroyDeviceArray` with a host compiler and a type with a destructor: the elements are copied to a temporary host
array and destroyed there; both are gone afterwards. -/
theorem C44_destroy_via_host (hf : NoFailure s) (p n esz : Nat) (hn : 0 < n) (he : 0 < esz) (addr : Nat)
    (hl : Live s .device p ((n : Int) * esz)) (hr : Room s addr ((n : Int) * esz)) :
    ∃ s', destroyDeviceArrayViaHost s p esz addr = .ok (0, s') ∧
      (∀ t q m, Live s' t q m ↔ Live s t q m ∧ q ≠ p) ∧
      (∀ a, a < addr ∨ addr + n * esz ≤ a → s'.mem a = s.mem a) := by
  have hi := reachable_inv h
  have hs := reachable_sinv h ho
  have hpos : 0 < (n : Int) * esz := Int.mul_pos (by omega) (by omega)
  obtain ⟨s1, e1, i1, i1s, hf1, hh1, ha1, hm1⟩ := copyCreate_spec hi hs hf n esz hn he
    .host .device (by simp) p addr ⟨p, _, hl, le_refl _, le_refl _⟩ hr
  obtain ⟨s2, e2, i2, -, hm2, hL2⟩ := inv_safeDeallocate i1 addr .host
  obtain ⟨s3, e3, i3, -, hm3, hL3⟩ := inv_safeDeallocate i2 p .device
  refine ⟨s3, ?_, ?_, ?_⟩
  · unfold destroyDeviceArrayViaHost
    rw [sizeOf_live hi hs he hl, e1]
    show (destroyHostArray s1 addr >>= fun x => safeDeallocate x.2 p .device >>= fun y =>
        (pure (0, y) : Except Fault _)) = _
    unfold destroyHostArray
    rw [e2]
    show (safeDeallocate s2 p .device >>= fun y => (pure (0, y) : Except Fault _)) = _
    rw [e3]; rfl
  · intro t q m
    rw [hL3, hL2]
    have hnot : ∀ t m, ¬ Live s t addr m := by
      intro t m hl
      have := hr.2 t addr m hl
      have := (hi.pos _ hl).2.1
      simp only at this
      omega
    have h1 : Live s1 t q m ↔ Live s t q m ∨ (t = .host ∧ q = addr ∧ m = n * esz) := by
      unfold Live
      rw [hh1, List.mem_cons, Block.mk.injEq]
      constructor
      · rintro (⟨rfl, rfl, rfl⟩ | h)
        · right; exact ⟨rfl, rfl, rfl⟩
        · exact Or.inl h
      · rintro (h | ⟨rfl, rfl, rfl⟩)
        · exact Or.inr h
        · exact Or.inl ⟨rfl, rfl, rfl⟩
    rw [h1]
    constructor
    · rintro ⟨⟨h1 | ⟨rfl, rfl, rfl⟩, h2⟩, h3⟩
      · refine ⟨h1, fun hq => h3 ⟨hq, ?_⟩⟩
        have := hi.unique h1 hl hq
        simp only [Block.mk.injEq] at this
        exact this.2.2
      · exact absurd ⟨rfl, rfl⟩ h2
    · rintro ⟨h1, h2⟩
      exact ⟨⟨Or.inl h1, fun hq => hnot t m (by rw [← hq.1]; exact h1)⟩, fun hq => h2 hq.1⟩
  · intro a ha
    rw [hm3, hm2, hm1 a ha]

end C44

/-! An example for all of C44: arrays on the host and the device, and room for two further ones. -/
example : AfterCalls exOps (stateAfter exOps) ∧ (∀ op ∈ exOps, AllocatorCall op) ∧ NoFailure (stateAfter exOps) ∧
    Room (stateAfter exOps) 1000 ((2 : Nat) * (8 : Nat)) ∧ Room (stateAfter exOps) 2000 ((2 : Nat) * (8 : Nat)) ∧
    Inside (stateAfter exOps) .host 200 ((2 : Nat) * (8 : Nat)) ∧
    Live (stateAfter exOps) .device 300 ((5 : Nat) * (2 : Nat)) ∧
    arrayAt (stateAfter exOps) 200 8 2 = [[7, 7, 7, 7, 7, 7, 7, 7], [7, 7, 7, 7, 7, 7, 7, 7]] := by
  have hh : (stateAfter exOps).heap = [⟨300, 10, .device⟩, ⟨200, 16, .host⟩] := by decide +kernel
  refine ⟨stateAfter_after (by decide +kernel), by simp [exOps, AllocatorCall], ?_, ?_, ?_, ⟨200, 16, ?_, by omega, by omega⟩, ?_,
    by decide +kernel⟩
  · intro ty; cases ty <;> decide +kernel
  · refine ⟨by decide, fun ty p n hl => ?_⟩
    unfold Live at hl; rw [hh] at hl; simp at hl; omega
  · refine ⟨by decide, fun ty p n hl => ?_⟩
    unfold Live at hl; rw [hh] at hl; simp at hl; omega
  · unfold Live; rw [hh]; simp
  · unfold Live; rw [hh]; simp

/-! ### C49 -/

/-- C49: the size of a live array is its number of elements, and `[begin, end)` are these elements; a pointer that starts
no live block has size 0 and an empty range; and so has a block whose size is no multiple of the element size. -/
theorem C49_size (ops : List AOp) (s : Sys) (h : AfterCalls ops s) (ho : ∀ op ∈ ops, AllocatorCall op) (p esz : Nat) (he : 0 < esz) :
    (∀ ty (n : Nat), Live s ty p ((n : Int) * esz) → arraySize s p esz = n ∧ arrayEnd s p esz - arrayBegin p = n * esz) ∧
    ((∀ ty n, ¬ Live s ty p n) → arraySize s p esz = 0 ∧ arrayEnd s p esz = arrayBegin p) ∧
    (∀ ty n, Live s ty p n → ¬ (esz : Int) ∣ n → arraySize s p esz = 0 ∧ arrayEnd s p esz = arrayBegin p) := by
  have hi := reachable_inv h
  have hs := reachable_sinv h ho
  refine ⟨?_, ?_, ?_⟩
  · intro ty n hl
    have e := sizeOf_live hi hs he hl
    refine ⟨e, ?_⟩
    unfold arrayEnd arrayBegin; rw [e]; omega
  · intro hl
    have e : arraySize s p esz = 0 := by unfold arraySize; rw [sizeBytes_dead hs hl]; simp
    refine ⟨e, ?_⟩
    unfold arrayEnd arrayBegin; rw [e]; omega
  · intro ty n hl hd
    have e : arraySize s p esz = 0 := by
      unfold arraySize; rw [sizeBytes_live hi hs hl]
      simp only
      rw [if_pos (fun hx => hd (Int.dvd_of_emod_eq_zero hx))]
    refine ⟨e, ?_⟩
    unfold arrayEnd arrayBegin; rw [e]; omega

example : Live (stateAfter exOps) .host 200 ((2 : Nat) * (8 : Nat)) ∧ arraySize (stateAfter exOps) 200 8 = 2 ∧
    arraySize (stateAfter exOps) 200 5 = 0 ∧ arraySize (stateAfter exOps) 204 4 = 0 ∧ arrayEnd (stateAfter exOps) 200 8 = 216 := by
  have hh : (stateAfter exOps).heap = [⟨300, 10, .device⟩, ⟨200, 16, .host⟩] := by decide +kernel
  refine ⟨?_, by decide +kernel, by decide +kernel, by decide +kernel, by decide +kernel⟩
  unfold Live; rw [hh]; simp

end Stdgpu.Props
