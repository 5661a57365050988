import Verif.Model.Contracts
import Verif.Proof.Memory3
/-! The contract checks of the memory functions. -/
namespace Stdgpu.Contracts
open Stdgpu.Memory Stdgpu.Spec
open Stdgpu.Vector (Fault)

/-- No key twice, and the counters fit. -/
structure MOK (m : Mgr) : Prop where
  nodup : (m.ptrs.map Prod.fst).Nodup
  cnt : m.ins - m.era = m.ptrs.length

theorem MOK.valid {m : Mgr} (h : MOK m) : m.valid = true := by
  unfold Mgr.valid Mgr.size; rw [beq_iff_eq]; exact h.cnt

theorem MOK.register {m : Mgr} (h : MOK m) {p : Nat} (hp : m.contains p = false) (n : Int) : MOK (m.register p n) := by
  have hnot : ∀ k, (p, k) ∉ m.ptrs := by
    intro k hk
    have := (contains_iff m p).2 ⟨k, hk⟩
    rw [hp] at this; cases this
  refine ⟨?_, ?_⟩
  · simp only [Mgr.register, filter_ne_self hnot, List.map_cons, List.nodup_cons]
    refine ⟨fun hm => ?_, h.nodup⟩
    obtain ⟨⟨q, k⟩, hk, rfl⟩ := List.mem_map.1 hm
    exact hnot k hk
  · simp only [Mgr.register, filter_ne_self hnot, List.length_cons]
    have := h.cnt
    omega

theorem MOK.deregister {m : Mgr} (h : MOK m) {p : Nat} (hp : m.contains p = true) : MOK (m.deregister p) := by
  obtain ⟨n, hn⟩ := (contains_iff m p).1 hp
  refine ⟨(List.filter_sublist.map _).nodup h.nodup, ?_⟩
  have := filter_key_length hn h.nodup
  have := h.cnt
  simp only [Mgr.deregister]
  omega

theorem contains_register (m : Mgr) (p : Nat) (n : Int) : (m.register p n).contains p = true :=
  (contains_iff _ _).2 ⟨n, by simp [Mgr.register]⟩

theorem contains_deregister (m : Mgr) (p : Nat) : (m.deregister p).contains p = false := by
  rw [← Bool.not_eq_true]
  intro h
  obtain ⟨n, hn⟩ := (contains_iff _ _).1 h
  simp [Mgr.deregister] at hn

theorem registerChecks_ok {m : Mgr} (h : MOK m) {p : Nat} (hp : m.contains p = false) (n : Int) : registerChecks m p n = true := by
  simp only [registerChecks, hp, h.valid, contains_register, (h.register hp n).valid, Bool.not_false, Bool.and_self]

theorem deregisterChecks_ok {m : Mgr} (h : MOK m) {p : Nat} (hp : m.contains p = true) : deregisterChecks m p = true := by
  simp only [deregisterChecks, hp, h.valid, contains_deregister, (h.deregister hp).valid, Bool.not_false, Bool.and_self]

/-! ### The managers of the allocations -/

theorem alloc_ok {s : Memory.Sys} (h : Inv s) {ty : MemType} (hf : s.failed ty ≤ 1) : MOK (s.alloc ty) := by
  refine ⟨?_, ?_⟩
  · have h1 := h.entries_nodup ty
    have h2 : ((nz (s.alloc ty).ptrs).map Prod.fst).Nodup := ((h.allocP ty).map _).nodup_iff.2 h1
    have h3 : (zs (s.alloc ty).ptrs).length ≤ 1 := by rw [h.allocZ ty]; split <;> omega
    revert h2 h3
    generalize (s.alloc ty).ptrs = l
    induction l with
    | nil => simp
    | cons a l ih =>
      intro h2 h3
      by_cases ha : a.1 = 0
      · rw [show nz (a :: l) = nz l by simp [nz, ha]] at h2
        rw [show zs (a :: l) = a :: zs l by simp [zs, ha]] at h3
        simp only [List.length_cons] at h3
        rw [List.map_cons, List.nodup_cons]
        refine ⟨fun hm => ?_, ih h2 (by omega)⟩
        obtain ⟨b, hb, he⟩ := List.mem_map.1 hm
        have : b ∈ zs l := by simp [zs, hb, he, ha]
        have := List.length_pos_of_mem this
        omega
      · rw [show nz (a :: l) = a :: nz l by simp [nz, ha]] at h2
        rw [show zs (a :: l) = zs l by simp [zs, ha]] at h3
        rw [List.map_cons, List.nodup_cons] at h2 ⊢
        refine ⟨fun hm => h2.1 ?_, ih h2.2 h3⟩
        obtain ⟨b, hb, he⟩ := List.mem_map.1 hm
        exact List.mem_map.2 ⟨b, by simp [nz, hb, he, ha], he⟩
  · have := (valid_iff h ty).2 hf
    unfold Mgr.valid Mgr.size at this
    rw [beq_iff_eq] at this
    exact this

theorem contains_null {s : Memory.Sys} (h : Inv s) (ty : MemType) : (s.alloc ty).contains 0 = true ↔ 0 < s.failed ty := by
  have h1 := h.allocZ ty
  constructor
  · intro hc
    obtain ⟨n, hn⟩ := (contains_iff _ _).1 hc
    have : (0, n) ∈ zs (s.alloc ty).ptrs := by simp [zs, hn]
    have := List.length_pos_of_mem this
    by_contra h0
    rw [if_neg h0] at h1
    omega
  · intro hf
    rw [if_pos hf] at h1
    obtain ⟨⟨q, n⟩, he⟩ := List.exists_mem_of_length_pos (l := zs (s.alloc ty).ptrs) (by omega)
    simp only [zs, List.mem_filter, beq_iff_eq] at he
    obtain ⟨he, rfl⟩ := he
    exact (contains_iff _ _).2 ⟨n, he⟩

/-- The checks of an allocation: with room for the block they hold exactly if at most one allocation failed before, without
room exactly if no allocation failed before. -/
theorem allocateChecks_iff {s : Memory.Sys} (h : Inv s) (bytes : Int) (ty : MemType) (addr : Nat) :
    allocateChecks s bytes ty addr = true ↔
      (bytes ≤ 0 ∨ ty = .invalid ∨ (fresh s.heap addr bytes = true ∧ s.failed ty ≤ 1) ∨
        (fresh s.heap addr bytes = false ∧ s.failed ty = 0)) := by
  unfold allocateChecks
  by_cases hb : bytes ≤ 0
  · simp [hb]
  by_cases ht : ty = .invalid
  · simp [hb, ht]
  simp only [hb, ht, if_false, false_or]
  unfold backendMalloc
  by_cases hr : fresh s.heap addr bytes = true
  · simp only [hr, if_true, true_and, Bool.true_eq_false, false_and, or_false]
    have hne := h.fresh_ne (by omega) hr
    have hc : (s.alloc ty).contains addr = false := by
      rw [← Bool.not_eq_true]
      intro hc
      obtain ⟨n, hn⟩ := (contains_iff _ _).1 hc
      exact hne _ ((h.mem_alloc (room_iff.1 hr).1).1 hn) rfl
    constructor
    · intro hk
      simp only [registerChecks, Bool.and_eq_true] at hk
      exact (valid_iff h ty).1 hk.1.1.2
    · intro hf
      exact registerChecks_ok (alloc_ok h hf) hc _
  · simp only [hr, Bool.false_eq_true, if_false, false_and, false_or, true_and]
    constructor
    · intro hk
      simp only [registerChecks, Bool.and_eq_true, Bool.not_eq_true'] at hk
      by_contra h0
      have := (contains_null h ty).2 (by omega)
      rw [hk.1.1.1] at this
      cases this
    · intro hf
      refine registerChecks_ok (alloc_ok h (by omega)) ?_ _
      rw [← Bool.not_eq_true, contains_null h ty]
      omega

theorem deallocateChecks_iff {s : Memory.Sys} (h : Inv s) (p : Nat) (ty : MemType) :
    deallocateChecks s p ty = true ↔ ((∀ n, ¬ Live s ty p n) ∨ s.failed ty ≤ 1) := by
  unfold deallocateChecks
  by_cases hp : p = 0
  · simp only [hp, if_true, true_iff]
    left
    intro n hn
    have := (h.pos _ hn).1
    simp at this
  rw [if_neg hp]
  by_cases hc : (s.alloc ty).contains p = true
  · simp only [hc, Bool.not_true, Bool.false_eq_true, if_false]
    obtain ⟨n, hn⟩ := (contains_iff _ _).1 hc
    have hl := (h.mem_alloc hp).1 hn
    constructor
    · intro hk
      simp only [deregisterChecks, Bool.and_eq_true] at hk
      exact .inr ((valid_iff h ty).1 hk.1.1.2)
    · rintro (h1 | h1)
      · exact absurd hl (h1 n)
      · exact deregisterChecks_ok (alloc_ok h h1) hc
  · rw [Bool.not_eq_true] at hc
    simp only [hc, Bool.not_false, if_true, true_iff]
    left
    intro n hl
    have := (contains_iff _ _).2 ⟨n, (h.mem_alloc hp).2 hl⟩
    rw [hc] at this
    cases this

/-! ### The managers of the sizes -/

def SzI (s : Memory.Sys) : Prop := ∀ ty, MOK (s.sizes ty)

theorem registerMemoryChecks_ok {s : Memory.Sys} (h : SzI s) (p : Nat) (n : Int) (ty : MemType) :
    registerMemoryChecks s p n ty = true := by
  unfold registerMemoryChecks
  split
  · rfl
  split
  · rfl
  split
  · rfl
  · next hc => exact registerChecks_ok (h ty) (by simpa using hc) n

theorem deregisterMemoryChecks_ok {s : Memory.Sys} (h : SzI s) (p : Nat) (ty : MemType) :
    deregisterMemoryChecks s p ty = true := by
  unfold deregisterMemoryChecks
  split
  · rfl
  · next hc => exact deregisterChecks_ok (h ty) (by simpa using hc)

theorem SzI.register {s : Memory.Sys} (h : SzI s) (p : Nat) (n : Int) (ty : MemType) : SzI (registerMemory s p n ty) := by
  unfold registerMemory
  split
  · exact h
  split
  · exact h
  split
  · exact h
  · next hc =>
    intro t
    by_cases e : t = ty
    · subst e; simp only [setMgr_same]; exact (h t).register (by simpa using hc) n
    · simp only [setMgr_ne _ _ e]; exact h t

theorem SzI.deregister {s : Memory.Sys} (h : SzI s) (p : Nat) (ty : MemType) : SzI (deregisterMemory s p ty) := by
  unfold deregisterMemory
  split
  · exact h
  · next hc =>
    intro t
    by_cases e : t = ty
    · subst e; simp only [setMgr_same]; exact (h t).deregister (by simpa using hc)
    · simp only [setMgr_ne _ _ e]; exact h t

theorem SzI.frame {s s' : Memory.Sys} (h : SzI s) (e : s'.sizes = s.sizes) : SzI s' := by
  intro ty; rw [e]; exact h ty

theorem SzI.allocate {s : Memory.Sys} (h : SzI s) (bytes : Int) (ty : MemType) (addr : Nat) :
    SzI (allocate s bytes ty addr).2 := by
  rcases allocate_cases s bytes ty addr with ⟨e, -⟩ | ⟨-, -, -, e⟩ | ⟨-, -, -, e⟩ <;> rw [e] <;> exact h

theorem SzI.safeAllocate {s : Memory.Sys} (h : SzI s) (n : Int) (esz : Nat) (ty : MemType) (addr : Nat) :
    SzI (safeAllocate s n esz ty addr).2 := (h.allocate (n * esz) ty addr).register _ _ _

theorem SzI.safeDeallocate {s s' : Memory.Sys} (h : SzI s) {p : Nat} {ty : MemType} (e : safeDeallocate s p ty = .ok s') : SzI s' := by
  refine (h.deregister p ty).frame ?_
  unfold Memory.safeDeallocate deallocate at e
  split at e
  · cases e; rfl
  split at e
  · cases e; rfl
  dsimp only at e
  split at e
  · cases e; rfl
  · unfold backendFree at e
    split at e
    · cases e; rfl
    · cases e

theorem SzI.mem {s s' : Memory.Sys} (h : SzI s) (e : s' = { s with mem := s'.mem }) : SzI s' := by
  refine h.frame ?_
  rw [e]

theorem SzI.allocateFilled {s s' : Memory.Sys} {ord : Nat → List Nat} {n : Int} {esz : Nat} {v : Nat → BitVec 8}
    {ty : MemType} {addr r : Nat} (h : SzI s) (e : allocateFilled ord s n esz v ty addr = .ok (r, s')) : SzI s' := by
  unfold Memory.allocateFilled at e
  have hg := h.safeAllocate n esz ty addr
  generalize Memory.safeAllocate s n esz ty addr = x at hg e
  obtain ⟨p, s1⟩ := x
  simp only at hg e
  split at e
  · cases h1 : (ord (arraySize s1 p esz).toNat).foldlM (constructElem ty p esz v) s1 with
    | error x => rw [h1] at e; cases e
    | ok s2 => rw [h1] at e; cases e; exact hg.mem (fold_frame _ _ _ _ _ _ _ h1)
  · cases e; exact hg

theorem SzI.copyCreate {s s' : Memory.Sys} {src : Nat} {n : Int} {esz : Nat} {dty sty : MemType} {check : Bool}
    {addr r : Nat} (h : SzI s) (e : copyCreateArray s src n esz dty sty check addr = .ok (r, s')) : SzI s' := by
  unfold copyCreateArray at e
  have hg := h.safeAllocate n esz dty addr
  generalize Memory.safeAllocate s n esz dty addr = x at hg e
  obtain ⟨p, s1⟩ := x
  simp only at hg e
  split at e
  · cases e; exact hg
  · cases h1 : copyArray s1 src n esz p dty sty check with
    | error x => rw [h1] at e; cases e
    | ok y => obtain ⟨c, s2⟩ := y; rw [h1] at e; cases e; exact hg.mem (memcpy_frame h1)

theorem SzI.destroyHost {s s' : Memory.Sys} {p r : Nat} (h : SzI s) (e : destroyHostArray s p = .ok (r, s')) : SzI s' := by
  unfold destroyHostArray at e
  cases h1 : Memory.safeDeallocate s p .host with
  | error x => rw [h1] at e; cases e
  | ok s1 => rw [h1] at e; cases e; exact h.safeDeallocate h1

theorem SzI.destroyDevice {s s' : Memory.Sys} {p r : Nat} (h : SzI s) (e : destroyDeviceArray s p = .ok (r, s')) : SzI s' := by
  unfold destroyDeviceArray at e
  cases h1 : Memory.safeDeallocate s p .device with
  | error x => rw [h1] at e; cases e
  | ok s1 => rw [h1] at e; cases e; exact h.safeDeallocate h1

theorem SzI.exec {s s' : Memory.Sys} {ord : Nat → List Nat} {op : AOp} {r : Nat} (h : SzI s)
    (e : exec ord s op = .ok (r, s')) : SzI s' := by
  cases op with
  | allocate ty n esz addr =>
    have := h.safeAllocate n esz ty addr
    simp only [Memory.exec, Except.ok.injEq] at e; rw [e] at this; exact this
  | deallocate ty p =>
    simp only [Memory.exec] at e
    cases h1 : Memory.safeDeallocate s p ty with
    | error x => rw [h1] at e; cases e
    | ok s1 => rw [h1] at e; cases e; exact h.safeDeallocate h1
  | register p n ty => simp only [Memory.exec] at e; cases e; exact h.register p n ty
  | deregister p ty => simp only [Memory.exec] at e; cases e; exact h.deregister p ty
  | createHost n esz v addr => exact h.allocateFilled e
  | createDevice n esz v addr => exact h.allocateFilled e
  | createDeviceViaHost n esz v a c =>
    simp only [Memory.exec, createDeviceArrayViaHost] at e
    cases h1 : createHostArray ord s n esz v a with
    | error x => rw [h1] at e; cases e
    | ok x =>
      obtain ⟨p, s1⟩ := x
      rw [h1] at e
      have g1 : SzI s1 := h.allocateFilled h1
      replace e : (copyCreateArray s1 p n esz .device .host true c >>= fun x => destroyHostArray x.2 p >>= fun y =>
        (pure (x.1, y.2) : Except Fault _)) = .ok (r, s') := e
      cases h2 : copyCreateArray s1 p n esz .device .host true c with
      | error x => rw [h2] at e; cases e
      | ok x =>
        obtain ⟨d, s2⟩ := x
        rw [h2] at e
        have g2 : SzI s2 := g1.copyCreate h2
        replace e : (destroyHostArray s2 p >>= fun y => (pure (d, y.2) : Except Fault _)) = .ok (r, s') := e
        cases h3 : destroyHostArray s2 p with
        | error x => rw [h3] at e; cases e
        | ok x => obtain ⟨z, s3⟩ := x; rw [h3] at e; cases e; exact g2.destroyHost h3
  | copyCreate src n esz dty sty addr => exact h.copyCreate e
  | destroyHost p => exact h.destroyHost e
  | destroyDevice p => exact h.destroyDevice e
  | destroyDeviceViaHost p esz addr =>
    simp only [Memory.exec, destroyDeviceArrayViaHost] at e
    cases h1 : copyCreateArray s p (arraySize s p esz) esz .host .device true addr with
    | error x => rw [h1] at e; cases e
    | ok x =>
      obtain ⟨q, s1⟩ := x
      rw [h1] at e
      have g1 : SzI s1 := h.copyCreate h1
      replace e : (destroyHostArray s1 q >>= fun x => Memory.safeDeallocate x.2 p .device >>= fun y =>
        (pure (0, y) : Except Fault _)) = .ok (r, s') := e
      cases h2 : destroyHostArray s1 q with
      | error x => rw [h2] at e; cases e
      | ok x =>
        obtain ⟨d, s2⟩ := x
        rw [h2] at e
        have g2 : SzI s2 := g1.destroyHost h2
        replace e : (Memory.safeDeallocate s2 p .device >>= fun y => (pure (0, y) : Except Fault _)) = .ok (r, s') := e
        cases h3 : Memory.safeDeallocate s2 p .device with
        | error x => rw [h3] at e; cases e
        | ok s3 => rw [h3] at e; cases e; exact g2.safeDeallocate h3

theorem SzI.execAll : ∀ (ops : List AOp) (s s' : Memory.Sys) (ords : Nat → Nat → List Nat) (rs : List Nat), SzI s →
    execAll ords s ops = .ok (rs, s') → SzI s' := by
  intro ops
  induction ops with
  | nil => intro s s' ords rs h e; simp only [Memory.execAll] at e; cases e; exact h
  | cons op ops ih =>
    intro s s' ords rs h e
    rw [Memory.execAll] at e
    cases h1 : Memory.exec (ords 0) s op with
    | error x => rw [h1] at e; cases e
    | ok x =>
      obtain ⟨r, s1⟩ := x
      rw [h1] at e
      have g1 : SzI s1 := h.exec h1
      replace e : (Memory.execAll (fun k => ords (k + 1)) s1 ops >>= fun x => (pure (r :: x.1, x.2) : Except Fault _)) =
        .ok (rs, s') := e
      cases h2 : Memory.execAll (fun k => ords (k + 1)) s1 ops with
      | error x => rw [h2] at e; cases e
      | ok x =>
        obtain ⟨d, s2⟩ := x
        rw [h2] at e; cases e
        exact ih s1 s2 _ d g1 h2

theorem reachable_szi {ops : List AOp} {s : Memory.Sys} (h : AfterCalls ops s) : SzI s := by
  obtain ⟨mem, ords, rs, -, e⟩ := h
  refine SzI.execAll ops _ _ ords rs ?_ e
  intro ty
  exact ⟨by simp [init, Mgr.init], by simp [init, Mgr.init]⟩

end Stdgpu.Contracts
