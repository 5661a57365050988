import Verif.Spec.Bytes64
import Verif.Spec.Memory
import Mathlib.Tactic.NormNum
import Mathlib.Tactic.Linarith
/-
C100: numbers of bytes of allocations and copies in 64-bit integers.
-/
namespace Stdgpu.Props
open Stdgpu.Spec Stdgpu.Memory Stdgpu.Bytes64
open Stdgpu.Vector (Fault)

theorem maxSize_eq {esz : Nat} (h0 : 0 < esz) (h1 : esz < 2 ^ 63) : maxSize esz = (2 ^ 63 - 1) / (esz : Int) := by
  unfold maxSize
  have h : (BitVec.ofNat 64 (2 ^ 63 - 1) / BitVec.ofNat 64 esz).toNat = (2 ^ 63 - 1) / esz := by
    rw [BitVec.toNat_udiv, BitVec.toNat_ofNat, BitVec.toNat_ofNat, Nat.mod_eq_of_lt (by omega), Nat.mod_eq_of_lt (by omega)]
  have h2 : (2 ^ 63 - 1) / esz ≤ 2 ^ 63 - 1 := Nat.div_le_self _ _
  rw [BitVec.toInt_eq_toNat_of_lt (by omega), h]
  norm_num

/-- **C100**. `max_size()` is the largest number of elements whose bytes can be counted in 64-bit integers. -/
theorem C100_max_size {esz : Nat} (h0 : 0 < esz) (h1 : esz < 2 ^ 63) (n : Int) : n ≤ maxSize esz ↔ n * esz ≤ 2 ^ 63 - 1 := by
  rw [maxSize_eq h0 h1, Int.le_ediv_iff_mul_le (by omega)]

example : maxSize 1 = 9223372036854775807 ∧ maxSize 12 = 768614336404564650 := by decide

/-- **C100**. The arrays of the containers, of which the number of elements is an `int` with 32 bits, never have more, if an element has
at most 4 GiB. -/
theorem C100_container_sizes {esz : Nat} (h0 : 0 < esz) (h1 : esz ≤ 2 ^ 32) (n : Int) (h2 : -2 ^ 31 < n) (h3 : n < 2 ^ 31) :
    AtMostMaxSize n esz := by
  have h4 : esz < 2 ^ 63 := by omega
  have key : ∀ m : Int, m ≤ 2 ^ 31 - 1 → m * esz ≤ 2 ^ 63 - 1 := fun m hm =>
    calc m * esz ≤ (2 ^ 31 - 1) * esz := Int.mul_le_mul_of_nonneg_right hm (by omega)
      _ ≤ 2 ^ 63 - 1 := by omega
  refine ⟨h0, h4, ?_, ?_⟩
  · have := (C100_max_size h0 h4 (-n)).2 (key _ (by omega))
    omega
  · exact (C100_max_size h0 h4 n).2 (key _ (by omega))

example : AtMostMaxSize (2 ^ 31 - 1) 64 := C100_container_sizes (by decide) (by decide) _ (by decide) (by decide)

section
variable {s s' : Sys} {n : Int} {esz : Nat}

theorem mul64_ok (h : AtMostMaxSize n esz) : mul64 n esz = .ok (n * esz) := by
  obtain ⟨h0, h1, h2, h3⟩ := h
  have h4 := (C100_max_size h0 h1 n).1 h3
  have h5 := (C100_max_size h0 h1 (-n)).1 (by omega)
  unfold mul64
  rw [if_pos ⟨by rw [Int.neg_mul] at h5; omega, by omega⟩]

theorem mul64_bound (h : AtMostMaxSize n esz) : n * esz < 2 ^ 63 := by
  have := (C100_max_size h.1 h.2.1 n).1 h.2.2.2; omega

theorem mul64_ub (h0 : 0 < esz) (h1 : esz < 2 ^ 63) (h : maxSize esz < n) : mul64 n esz = .error .ub := by
  have h2 : ¬ n * esz ≤ 2 ^ 63 - 1 := fun h3 => by have := (C100_max_size h0 h1 n).2 h3; omega
  unfold mul64
  rw [if_neg (by omega)]

theorem findSize_bound (h : SizesFit s) (ty : MemType) (p : Nat) : 0 ≤ (s.sizes ty).findSize p ∧ (s.sizes ty).findSize p < 2 ^ 63 := by
  unfold Mgr.findSize
  split
  · rename_i e he
    have := h ty e (List.mem_of_find?_eq_some he)
    omega
  · omega

theorem mul64_size (h : SizesFit s) (p : Nat) : mul64 (arraySize s p esz) esz = .ok (arraySize s p esz * esz) := by
  have hb := findSize_bound h (dynamicMemoryType s p) p
  have : 0 ≤ arraySize s p esz * esz ∧ arraySize s p esz * esz < 2 ^ 63 := by
    unfold arraySize sizeBytes
    simp only
    split
    · simp
    · rename_i hm
      have hm : (s.sizes (dynamicMemoryType s p)).findSize p % (esz : Int) = 0 := by simpa using hm
      rw [Int.ediv_mul_cancel (Int.dvd_of_emod_eq_zero hm)]
      exact hb
  unfold mul64
  rw [if_pos ⟨by omega, this.2⟩]

/-! ### Sizes stay in range -/

theorem sizes_backendMalloc (b : Int) (ty : MemType) (a : Nat) : (backendMalloc s b ty a).2.sizes = s.sizes := by
  unfold backendMalloc; split <;> rfl

theorem sizes_allocate (b : Int) (ty : MemType) (a : Nat) : (allocate s b ty a).2.sizes = s.sizes := by
  unfold allocate
  split
  · rfl
  · split
    · rfl
    · exact sizes_backendMalloc b ty a

theorem fit_of_sizes (h : SizesFit s) (e : s'.sizes = s.sizes) : SizesFit s' := by unfold SizesFit; rw [e]; exact h

theorem fit_register (h : SizesFit s) (p : Nat) {b : Int} (hb : b < 2 ^ 63) (ty : MemType) : SizesFit (registerMemory s p b ty) := by
  unfold registerMemory
  split
  · exact h
  split
  · exact h
  split
  · exact h
  intro t e he
  simp only [setMgr] at he
  split at he
  · simp only [Mgr.register, List.mem_cons, List.mem_filter] at he
    rcases he with rfl | ⟨he, _⟩
    · exact ⟨by simpa using ‹¬ b ≤ 0›, hb⟩
    · exact h _ _ he
  · exact h t e he

theorem fit_deregister (h : SizesFit s) (p : Nat) (ty : MemType) : SizesFit (deregisterMemory s p ty) := by
  unfold deregisterMemory
  split
  · exact h
  intro t e he
  simp only [setMgr] at he
  split at he
  · simp only [Mgr.deregister, List.mem_filter] at he
    exact h _ _ he.1
  · exact h t e he

theorem fit_safeAllocate (h : SizesFit s) (hb : n * esz < 2 ^ 63) (ty : MemType) (a : Nat) : SizesFit (safeAllocate s n esz ty a).2 :=
  fit_register (fit_of_sizes h (sizes_allocate (n * esz) ty a)) _ hb ty

theorem fit_deallocate (h : SizesFit s) {p : Nat} {ty : MemType} (e : deallocate s p ty = .ok s') : SizesFit s' := by
  unfold deallocate at e
  split at e
  · cases e; exact h
  split at e
  · cases e; exact h
  split at e
  · cases e; exact h
  · unfold backendFree at e
    simp only at e
    split at e
    · cases e; exact h
    · cases e

theorem fit_safeDeallocate (h : SizesFit s) {p : Nat} {ty : MemType} (e : safeDeallocate s p ty = .ok s') : SizesFit s' :=
  fit_deallocate (fit_deregister h p ty) e

theorem fit_memcpy (h : SizesFit s) {d c : Nat} {b : Int} {t t' : MemType} {x r : Bool} (e : memcpy s d c b t t' x = .ok (r, s')) :
    SizesFit s' := by
  unfold memcpy at e
  split at e
  · cases e; exact h
  split at e
  · cases e; exact h
  split at e
  · cases e; exact h
  split at e
  · cases e
  · unfold backendCopy at e
    split at e
    · cases e
    split at e
    · cases e
    · cases e; exact h

theorem bind_ok {α β : Type} {x : Except Fault α} {f : α → Except Fault β} {r : β} (e : (x >>= f) = .ok r) :
    ∃ a, x = .ok a ∧ f a = .ok r := by
  cases x with
  | error _ => cases e
  | ok a => exact ⟨a, rfl, e⟩

theorem fit_construct (ty : MemType) (p : Nat) (v : Nat → BitVec 8) (l : List Nat) : ∀ {s s' : Sys}, SizesFit s →
    l.foldlM (constructElem ty p esz v) s = .ok s' → SizesFit s' := by
  induction l with
  | nil => intro s s' h e; cases e; exact h
  | cons i l ih =>
    intro s s' h e
    rw [List.foldlM_cons] at e
    obtain ⟨s1, e1, e2⟩ := bind_ok e
    unfold constructElem at e1
    split at e1
    · cases e1
      refine ih ?_ e2
      exact fit_of_sizes h rfl
    · cases e1

theorem fit_allocateFilled (h : SizesFit s) (hb : n * esz < 2 ^ 63) {ord : Nat → List Nat} {v : Nat → BitVec 8} {ty : MemType}
    {a r : Nat} (e : allocateFilled ord s n esz v ty a = .ok (r, s')) : SizesFit s' := by
  have h1 := fit_safeAllocate h hb ty a
  unfold allocateFilled at e
  simp only at e
  split at e
  · obtain ⟨s2, e1, e2⟩ := bind_ok e
    cases e2
    exact fit_construct _ _ _ _ h1 e1
  · cases e; exact h1

theorem fit_copyCreate (h : SizesFit s) (hb : n * esz < 2 ^ 63) {src : Nat} {dty sty : MemType} {ch : Bool} {a r : Nat}
    (e : copyCreateArray s src n esz dty sty ch a = .ok (r, s')) : SizesFit s' := by
  have h1 := fit_safeAllocate h hb dty a
  unfold copyCreateArray at e
  simp only at e
  split at e
  · cases e; exact h1
  · obtain ⟨⟨b, s2⟩, e1, e2⟩ := bind_ok e
    cases e2
    exact fit_memcpy h1 e1

theorem fit_destroyHost (h : SizesFit s) {p r : Nat} (e : destroyHostArray s p = .ok (r, s')) : SizesFit s' := by
  obtain ⟨s1, e1, e2⟩ := bind_ok e
  cases e2
  exact fit_safeDeallocate h e1

theorem fit_destroyDevice (h : SizesFit s) {p r : Nat} (e : destroyDeviceArray s p = .ok (r, s')) : SizesFit s' := by
  obtain ⟨s1, e1, e2⟩ := bind_ok e
  cases e2
  exact fit_safeDeallocate h e1

/-! ### The 64-bit functions are those of the unbounded model -/

theorem alloc64 (h : AtMostMaxSize n esz) (ty : MemType) (a : Nat) : safeAllocate64 s n esz ty a = .ok (safeAllocate s n esz ty a) := by
  unfold safeAllocate64 safeAllocate
  rw [mul64_ok h]; rfl

theorem dealloc64 {m : Int} (h : mul64 m esz = .ok (m * esz)) (p : Nat) (ty : MemType) :
    safeDeallocate64 s p m esz ty = safeDeallocate s p ty := by
  unfold safeDeallocate64 safeDeallocate
  rw [h]; rfl

theorem filled64 (h : AtMostMaxSize n esz) (ord : Nat → List Nat) (v : Nat → BitVec 8) (ty : MemType) (a : Nat) :
    allocateFilled64 ord s n esz v ty a = allocateFilled ord s n esz v ty a := by
  unfold allocateFilled64 allocateFilled
  rw [alloc64 h]; rfl

theorem copyCreate64' (h : mul64 n esz = .ok (n * esz)) (src : Nat) (dty sty : MemType) (ch : Bool) (a : Nat) :
    copyCreateArray64 s src n esz dty sty ch a = copyCreateArray s src n esz dty sty ch a := by
  unfold copyCreateArray64 copyCreateArray copyArray64 copyArray safeAllocate64 safeAllocate
  rw [h]; rfl

theorem destroy64 (h : SizesFit s) (p : Nat) (ty : MemType) :
    destroyArray64 s p esz ty = (do let s1 ← safeDeallocate s p ty; return (0, s1)) := by
  unfold destroyArray64
  rw [dealloc64 (mul64_size h p)]

end

/-- **C100**. One call: if the sizes known so far are `index64_t` and the arguments at most `max_size()`, no multiplication overflows,
the call does what it does with unbounded integers, and the sizes are `index64_t` again. -/
theorem C100_call {s : Sys} (h : SizesFit s) (c : Call) (hc : ArgsFit c) (ord : Nat → List Nat) :
    exec64 ord s c = exec ord s c.op ∧ ∀ r s', exec ord s c.op = .ok (r, s') → SizesFit s' := by
  obtain ⟨op, m, z⟩ := c
  cases op with
  | allocate ty n esz addr =>
    refine ⟨alloc64 hc ty addr, fun r s' e => ?_⟩
    have := fit_safeAllocate h (mul64_bound hc) ty addr
    cases e; exact this
  | deallocate ty p =>
    refine ⟨?_, fun r s' e => ?_⟩
    · show (do let s' ← safeDeallocate64 s p m z ty; return (0, s')) = _
      rw [dealloc64 (mul64_ok hc)]; rfl
    · obtain ⟨s1, e1, e2⟩ := bind_ok e
      cases e2; exact fit_safeDeallocate h e1
  | register p n ty => exact ⟨rfl, fun r s' e => by cases e; exact fit_register h p hc ty⟩
  | deregister p ty => exact ⟨rfl, fun r s' e => by cases e; exact fit_deregister h p ty⟩
  | createHost n esz v addr => exact ⟨filled64 hc ord v _ addr, fun r s' e => fit_allocateFilled h (mul64_bound hc) e⟩
  | createDevice n esz v addr => exact ⟨filled64 hc ord v _ addr, fun r s' e => fit_allocateFilled h (mul64_bound hc) e⟩
  | createDeviceViaHost n esz v a b =>
    have hc : AtMostMaxSize n esz := hc
    refine ⟨?_, fun r s' e => ?_⟩
    · show createDeviceArrayViaHost64 ord s n esz v a b = createDeviceArrayViaHost ord s n esz v a b
      unfold createDeviceArrayViaHost64 createDeviceArrayViaHost
      rw [filled64 hc]
      unfold createHostArray
      cases e1 : allocateFilled ord s n esz v .host a with
      | error f => rfl
      | ok r1 =>
        obtain ⟨q, s1⟩ := r1
        have h1 := fit_allocateFilled h (mul64_bound hc) e1
        show (copyCreateArray64 s1 q n esz .device .host true b >>= _) = (copyCreateArray s1 q n esz .device .host true b >>= _)
        rw [copyCreate64' (mul64_ok hc)]
        cases e2 : copyCreateArray s1 q n esz .device .host true b with
        | error f => rfl
        | ok r2 =>
          obtain ⟨d, s2⟩ := r2
          have h2 := fit_copyCreate h1 (mul64_bound hc) e2
          show (destroyArray64 s2 q esz .host >>= _) = (destroyHostArray s2 q >>= _)
          rw [destroy64 h2]; rfl
    · obtain ⟨⟨q, s1⟩, e1, e⟩ := bind_ok e
      obtain ⟨⟨d, s2⟩, e2, e⟩ := bind_ok e
      obtain ⟨⟨x, s3⟩, e3, e⟩ := bind_ok e
      cases e
      exact fit_destroyHost (fit_copyCreate (fit_allocateFilled h (mul64_bound hc) e1) (mul64_bound hc) e2) e3
  | copyCreate src n esz dty sty addr =>
    exact ⟨copyCreate64' (mul64_ok hc) src dty sty true addr, fun r s' e => fit_copyCreate h (mul64_bound hc) e⟩
  | destroyHost p => exact ⟨destroy64 h p .host, fun r s' e => fit_destroyHost h e⟩
  | destroyDevice p => exact ⟨destroy64 h p .device, fun r s' e => fit_destroyDevice h e⟩
  | destroyDeviceViaHost p esz addr =>
    have hm := mul64_size (esz := esz) h p
    have hb : arraySize s p esz * esz < 2 ^ 63 := by
      unfold mul64 at hm
      split at hm
      · rename_i hx; exact hx.2
      · cases hm
    refine ⟨?_, fun r s' e => ?_⟩
    · show destroyDeviceArrayViaHost64 s p esz addr = destroyDeviceArrayViaHost s p esz addr
      unfold destroyDeviceArrayViaHost64 destroyDeviceArrayViaHost
      rw [copyCreate64' hm]
      cases e1 : copyCreateArray s p (arraySize s p esz) esz .host .device true addr with
      | error f => rfl
      | ok r1 =>
        obtain ⟨q, s1⟩ := r1
        have h1 := fit_copyCreate h hb e1
        show (destroyArray64 s1 q esz .host >>= _) = (destroyHostArray s1 q >>= _)
        rw [destroy64 h1]
        cases e2 : destroyHostArray s1 q with
        | error f =>
          have e2' : (do let s1 ← safeDeallocate s1 q .host; return (0, s1) : Except Fault (Nat × Sys)) = .error f := e2
          rw [e2']; rfl
        | ok r2 =>
          obtain ⟨d, s2⟩ := r2
          have h2 := fit_destroyHost h1 e2
          have e2' : (do let s1 ← safeDeallocate s1 q .host; return (0, s1) : Except Fault (Nat × Sys)) = .ok (d, s2) := e2
          rw [e2']
          show (safeDeallocate64 s2 p (arraySize s2 p esz) esz .device >>= _) = (safeDeallocate s2 p .device >>= _)
          rw [dealloc64 (mul64_size h2 p)]
    · obtain ⟨⟨q, s1⟩, e1, e⟩ := bind_ok e
      obtain ⟨⟨d, s2⟩, e2, e⟩ := bind_ok e
      obtain ⟨s3, e3, e⟩ := bind_ok e
      cases e
      exact fit_safeDeallocate (fit_destroyHost (fit_copyCreate h hb e1) e2) e3

/-- **C100**. Every history of calls whose numbers of elements are at most `max_size()`: with 64-bit integers it is what it is with
unbounded integers, so what is proved of the memory functions (C41 to C44) holds with 64-bit integers. Destroying arrays needs no
condition: the sizes come from the allocations. -/
theorem C100_histories (cs : List Call) (hc : ∀ c ∈ cs, ArgsFit c) (ords : Nat → Nat → List Nat) (mem : Nat → BitVec 8) :
    execAll64 ords (init mem) cs = execAll ords (init mem) (cs.map Call.op) := by
  have key : ∀ (cs : List Call) (ords : Nat → Nat → List Nat) (s : Sys), SizesFit s → (∀ c ∈ cs, ArgsFit c) →
      execAll64 ords s cs = execAll ords s (cs.map Call.op) := by
    intro cs
    induction cs with
    | nil => intro ords s _ _; rfl
    | cons c cs ih =>
      intro ords s h hc
      obtain ⟨e, hf⟩ := C100_call h c (hc c (by simp)) (ords 0)
      show (exec64 (ords 0) s c >>= _) = (exec (ords 0) s c.op >>= _)
      rw [e]
      cases e1 : exec (ords 0) s c.op with
      | error f => rfl
      | ok r =>
        obtain ⟨r, s1⟩ := r
        show (execAll64 _ s1 cs >>= _) = (execAll _ s1 (cs.map Call.op) >>= _)
        rw [ih _ s1 (hf r s1 e1) (fun c' h' => hc c' (by simp [h']))]
  exact key cs ords _ (fun ty e he => by simp [init, Mgr.init] at he) hc

/-- The hypotheses are met by a history in which an array is created, destroyed, and a size at the limit is asked for. -/
example : ∀ c ∈ ([⟨.createHost 3 4 (fun _ => 7) 100, 0, 0⟩, ⟨.destroyHost 100, 0, 4⟩, ⟨.allocate .host (2 ^ 60 - 1) 8 100, 0, 0⟩,
    ⟨.allocate .host (-5) 8 100, 0, 0⟩, ⟨.deallocate .host 100, 2 ^ 60 - 1, 8⟩] : List Call), ArgsFit c := by
  intro c hc
  simp only [List.mem_cons, List.not_mem_nil, or_false] at hc
  rcases hc with rfl | rfl | rfl | rfl | rfl
  · exact ⟨by decide, by decide, by decide, by decide⟩
  · trivial
  · exact ⟨by decide, by decide, by decide, by decide⟩
  · exact ⟨by decide, by decide, by decide, by decide⟩
  · exact ⟨by decide, by decide, by decide, by decide⟩

/-- Beyond `max_size()` nothing is checked: the number of bytes overflows, whatever has been allocated and whatever the allocator can give. -/
theorem C100_counterexample_overflow (s : Sys) (n : Int) (esz : Nat) (h0 : 0 < esz) (h1 : esz < 2 ^ 63) (h : maxSize esz < n)
    (ord : Nat → List Nat) (v : Nat → BitVec 8) (ty sty : MemType) (a b src : Nat) (m : Int) (z : Nat) :
    exec64 ord s ⟨.allocate ty n esz a, m, z⟩ = .error .ub ∧ exec64 ord s ⟨.createHost n esz v a, m, z⟩ = .error .ub ∧
    exec64 ord s ⟨.createDevice n esz v a, m, z⟩ = .error .ub ∧ exec64 ord s ⟨.createDeviceViaHost n esz v a b, m, z⟩ = .error .ub ∧
    exec64 ord s ⟨.copyCreate src n esz ty sty a, m, z⟩ = .error .ub := by
  have e := mul64_ub h0 h1 h
  have ea : ∀ ty, safeAllocate64 s n esz ty a = .error .ub := fun ty => by unfold safeAllocate64; rw [e]; rfl
  refine ⟨ea ty, ?_, ?_, ?_, ?_⟩
  · show allocateFilled64 ord s n esz v .host a = _; unfold allocateFilled64; rw [ea]; rfl
  · show allocateFilled64 ord s n esz v .device a = _; unfold allocateFilled64; rw [ea]; rfl
  · show createDeviceArrayViaHost64 ord s n esz v a b = _
    unfold createDeviceArrayViaHost64 allocateFilled64; rw [ea]; rfl
  · show copyCreateArray64 s src n esz ty sty true a = _; unfold copyCreateArray64; rw [ea]; rfl

/-- Such a number of elements is an `index64_t`: 2^61 elements of 8 bytes. -/
example : maxSize 8 < 2 ^ 61 ∧ (2 : Int) ^ 61 < 2 ^ 63 := by decide

/-- **C100**. Copies between existing arrays: at most `max_size()` elements are copied as with unbounded integers, in every state, with and
without range check; more overflow. -/
theorem C100_copy (s : Sys) (src dst : Nat) (n : Int) (esz : Nat) (dty sty : MemType) (check : Bool) :
    (AtMostMaxSize n esz → copyArray64 s src n esz dst dty sty check = copyArray s src n esz dst dty sty check) ∧
    (0 < esz → esz < 2 ^ 63 → maxSize esz < n → copyArray64 s src n esz dst dty sty check = .error .ub) := by
  refine ⟨fun h => ?_, fun h0 h1 h => ?_⟩
  · unfold copyArray64 copyArray; rw [mul64_ok h]; rfl
  · unfold copyArray64; rw [mul64_ub h0 h1 h]; rfl

example : AtMostMaxSize (2 ^ 60 - 1) 8 ∧ maxSize 8 < 2 ^ 60 := ⟨⟨by decide, by decide, by decide, by decide⟩, by decide⟩

end Stdgpu.Props
