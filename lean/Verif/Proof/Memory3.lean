import Verif.Proof.Memory2
/-! Every call preserves the bookkeeping invariants. -/
namespace Stdgpu.Memory
open Stdgpu.Spec
open Stdgpu.Vector (Fault)

theorem inv_mem {s : Sys} (h : Inv s) (m : Nat → BitVec 8) : Inv { s with mem := m } :=
  ⟨h.pos, h.disj, h.allocP, h.allocZ, h.cnt⟩

theorem fold_frame (ty : MemType) (p esz : Nat) (v : Nat → BitVec 8) (order : List Nat) : ∀ (s s' : Sys),
    order.foldlM (constructElem ty p esz v) s = .ok s' → s' = { s with mem := s'.mem } := by
  induction order with
  | nil => intro s s' h; simp only [List.foldlM_nil] at h; cases h; rfl
  | cons i order ih =>
    intro s s' h
    rw [List.foldlM_cons] at h
    cases h1 : constructElem ty p esz v s i with
    | error e => rw [h1] at h; cases h
    | ok s1 =>
      rw [h1] at h
      have h2 := ih s1 s' h
      unfold constructElem at h1
      split at h1
      · cases h1; rw [h2]
      · cases h1

theorem backendCopy_frame {s s' : Sys} {dst src : Nat} {bytes : Int} (h : backendCopy s dst src bytes = .ok s') :
    s' = { s with mem := s'.mem } := by
  unfold backendCopy at h
  split at h
  · cases h
  · split at h
    · cases h
    · cases h; rfl

theorem memcpy_frame {s s' : Sys} {dst src : Nat} {bytes : Int} {dty sty : MemType} {ext b : Bool}
    (h : memcpy s dst src bytes dty sty ext = .ok (b, s')) : s' = { s with mem := s'.mem } := by
  unfold memcpy at h
  split at h
  · cases h; rfl
  split at h
  · cases h; rfl
  split at h
  · cases h; rfl
  split at h
  · cases h
  cases h1 : backendCopy s dst src bytes with
  | error e => rw [h1] at h; cases h
  | ok s1 => rw [h1] at h; cases h; exact backendCopy_frame h1

/-- Both invariants; the second one only when asked for. -/
def Good (strict : Bool) (s : Sys) : Prop := Inv s ∧ (strict = true → SInv s)

theorem good_mem {b : Bool} {s s' : Sys} (h : Good b s) (e : s' = { s with mem := s'.mem }) : Good b s' := by
  rw [e]; exact ⟨inv_mem h.1 _, fun hb => h.2 hb⟩

theorem good_safeAllocate {b : Bool} {s : Sys} (h : Good b s) (n : Int) (esz : Nat) (ty : MemType) (addr : Nat) :
    Good b (safeAllocate s n esz ty addr).2 :=
  ⟨inv_safeAllocate h.1 n esz ty addr, fun hb => sinv_safeAllocate h.1 (h.2 hb) n esz ty addr⟩

theorem good_safeDeallocate {b : Bool} {s s' : Sys} (h : Good b s) {p : Nat} {ty : MemType}
    (e : safeDeallocate s p ty = .ok s') : Good b s' := by
  obtain ⟨s1, e1, i1, -⟩ := inv_safeDeallocate h.1 p ty
  rw [e] at e1; cases e1
  exact ⟨i1, fun hb => sinv_safeDeallocate h.1 (h.2 hb) p ty e⟩

theorem good_allocateFilled {b : Bool} {s s' : Sys} {ord : Nat → List Nat} {n : Int} {esz : Nat} {v : Nat → BitVec 8}
    {ty : MemType} {addr r : Nat} (h : Good b s) (e : allocateFilled ord s n esz v ty addr = .ok (r, s')) : Good b s' := by
  unfold allocateFilled at e
  have hg := good_safeAllocate h n esz ty addr
  generalize safeAllocate s n esz ty addr = x at hg e
  obtain ⟨p, s1⟩ := x
  simp only at hg e
  split at e
  · cases h1 : (ord (arraySize s1 p esz).toNat).foldlM (constructElem ty p esz v) s1 with
    | error x => rw [h1] at e; cases e
    | ok s2 => rw [h1] at e; cases e; exact good_mem hg (fold_frame _ _ _ _ _ _ _ h1)
  · cases e; exact hg

theorem good_copyCreate {b : Bool} {s s' : Sys} {src : Nat} {n : Int} {esz : Nat} {dty sty : MemType} {check : Bool}
    {addr r : Nat} (h : Good b s) (e : copyCreateArray s src n esz dty sty check addr = .ok (r, s')) : Good b s' := by
  unfold copyCreateArray at e
  have hg := good_safeAllocate h n esz dty addr
  generalize safeAllocate s n esz dty addr = x at hg e
  obtain ⟨p, s1⟩ := x
  simp only at hg e
  split at e
  · cases e; exact hg
  · cases h1 : copyArray s1 src n esz p dty sty check with
    | error x => rw [h1] at e; cases e
    | ok y => obtain ⟨c, s2⟩ := y; rw [h1] at e; cases e; exact good_mem hg (memcpy_frame h1)

theorem good_destroyHost {b : Bool} {s s' : Sys} {p r : Nat} (h : Good b s) (e : destroyHostArray s p = .ok (r, s')) :
    Good b s' := by
  unfold destroyHostArray at e
  cases h1 : safeDeallocate s p .host with
  | error x => rw [h1] at e; cases e
  | ok s1 => rw [h1] at e; cases e; exact good_safeDeallocate h h1

theorem good_destroyDevice {b : Bool} {s s' : Sys} {p r : Nat} (h : Good b s) (e : destroyDeviceArray s p = .ok (r, s')) :
    Good b s' := by
  unfold destroyDeviceArray at e
  cases h1 : safeDeallocate s p .device with
  | error x => rw [h1] at e; cases e
  | ok s1 => rw [h1] at e; cases e; exact good_safeDeallocate h h1

theorem good_exec {b : Bool} {s s' : Sys} {ord : Nat → List Nat} {op : AOp} {r : Nat} (h : Good b s)
    (hop : b = true → AllocatorCall op) (e : exec ord s op = .ok (r, s')) : Good b s' := by
  cases op with
  | allocate ty n esz addr =>
    have := good_safeAllocate h n esz ty addr
    simp only [exec, Except.ok.injEq] at e; rw [e] at this; exact this
  | deallocate ty p =>
    simp only [exec] at e
    cases h1 : safeDeallocate s p ty with
    | error x => rw [h1] at e; cases e
    | ok s1 => rw [h1] at e; cases e; exact good_safeDeallocate h h1
  | register p n ty =>
    simp only [exec] at e; cases e
    exact ⟨inv_register h.1 p n ty, fun hb => (hop hb).elim⟩
  | deregister p ty =>
    simp only [exec] at e; cases e
    exact ⟨inv_deregister h.1 p ty, fun hb => (hop hb).elim⟩
  | createHost n esz v addr => exact good_allocateFilled h e
  | createDevice n esz v addr => exact good_allocateFilled h e
  | createDeviceViaHost n esz v a c =>
    simp only [exec, createDeviceArrayViaHost] at e
    cases h1 : createHostArray ord s n esz v a with
    | error x => rw [h1] at e; cases e
    | ok x =>
      obtain ⟨p, s1⟩ := x
      rw [h1] at e
      have g1 : Good b s1 := good_allocateFilled h h1
      replace e : (copyCreateArray s1 p n esz .device .host true c >>= fun x => destroyHostArray x.2 p >>= fun y =>
        (pure (x.1, y.2) : Except Fault _)) = .ok (r, s') := e
      cases h2 : copyCreateArray s1 p n esz .device .host true c with
      | error x => rw [h2] at e; cases e
      | ok x =>
        obtain ⟨d, s2⟩ := x
        rw [h2] at e
        have g2 : Good b s2 := good_copyCreate g1 h2
        replace e : (destroyHostArray s2 p >>= fun y => (pure (d, y.2) : Except Fault _)) = .ok (r, s') := e
        cases h3 : destroyHostArray s2 p with
        | error x => rw [h3] at e; cases e
        | ok x => obtain ⟨z, s3⟩ := x; rw [h3] at e; cases e; exact good_destroyHost g2 h3
  | copyCreate src n esz dty sty addr => exact good_copyCreate h e
  | destroyHost p => exact good_destroyHost h e
  | destroyDevice p => exact good_destroyDevice h e
  | destroyDeviceViaHost p esz addr =>
    simp only [exec, destroyDeviceArrayViaHost] at e
    cases h1 : copyCreateArray s p (arraySize s p esz) esz .host .device true addr with
    | error x => rw [h1] at e; cases e
    | ok x =>
      obtain ⟨q, s1⟩ := x
      rw [h1] at e
      have g1 : Good b s1 := good_copyCreate h h1
      replace e : (destroyHostArray s1 q >>= fun x => safeDeallocate x.2 p .device >>= fun y =>
        (pure (0, y) : Except Fault _)) = .ok (r, s') := e
      cases h2 : destroyHostArray s1 q with
      | error x => rw [h2] at e; cases e
      | ok x =>
        obtain ⟨d, s2⟩ := x
        rw [h2] at e
        have g2 : Good b s2 := good_destroyHost g1 h2
        replace e : (safeDeallocate s2 p .device >>= fun y => (pure (0, y) : Except Fault _)) = .ok (r, s') := e
        cases h3 : safeDeallocate s2 p .device with
        | error x => rw [h3] at e; cases e
        | ok s3 => rw [h3] at e; cases e; exact good_safeDeallocate g2 h3

theorem good_execAll {b : Bool} : ∀ (ops : List AOp) (s s' : Sys) (ords : Nat → Nat → List Nat) (rs : List Nat), Good b s →
    (b = true → ∀ op ∈ ops, AllocatorCall op) → execAll ords s ops = .ok (rs, s') → Good b s' := by
  intro ops
  induction ops with
  | nil => intro s s' ords rs h _ e; simp only [execAll] at e; cases e; exact h
  | cons op ops ih =>
    intro s s' ords rs h hop e
    rw [execAll] at e
    cases h1 : exec (ords 0) s op with
    | error x => rw [h1] at e; cases e
    | ok x =>
      obtain ⟨r, s1⟩ := x
      rw [h1] at e
      have g1 : Good b s1 := good_exec h (fun hb => hop hb op (by simp)) h1
      replace e : (execAll (fun k => ords (k + 1)) s1 ops >>= fun x => (pure (r :: x.1, x.2) : Except Fault _)) =
        .ok (rs, s') := e
      cases h2 : execAll (fun k => ords (k + 1)) s1 ops with
      | error x => rw [h2] at e; cases e
      | ok x =>
        obtain ⟨d, s2⟩ := x
        rw [h2] at e; cases e
        exact ih s1 s2 _ d g1 (fun hb o ho => hop hb o (by simp [ho])) h2

theorem reachable_inv {ops : List AOp} {s : Sys} (h : AfterCalls ops s) : Inv s := by
  obtain ⟨mem, ords, rs, -, e⟩ := h
  exact (good_execAll (b := false) ops _ _ ords rs ⟨(inv_init mem).1, by simp⟩ (by simp) e).1

theorem reachable_sinv {ops : List AOp} {s : Sys} (h : AfterCalls ops s) (ho : ∀ op ∈ ops, AllocatorCall op) : SInv s := by
  obtain ⟨mem, ords, rs, -, e⟩ := h
  exact (good_execAll (b := true) ops _ _ ords rs ⟨(inv_init mem).1, fun _ => (inv_init mem).2⟩ (fun _ => ho) e).2 rfl

/-- The bookkeeping of a memory type is valid exactly while at most one allocation failed. -/
theorem valid_iff {s : Sys} (h : Inv s) (ty : MemType) : (s.alloc ty).valid = true ↔ s.failed ty ≤ 1 := by
  unfold Mgr.valid Mgr.size
  rw [beq_iff_eq, h.cnt ty]
  have hl : (s.alloc ty).ptrs.length = (nz (s.alloc ty).ptrs).length + (zs (s.alloc ty).ptrs).length := by
    unfold nz zs
    generalize (s.alloc ty).ptrs = l
    induction l with
    | nil => simp
    | cons a l ih => by_cases ha : a.1 = 0 <;> simp [ha, ih] <;> omega
  rw [hl, (h.allocP ty).length_eq, length_entries, h.allocZ ty]
  unfold liveCount
  split <;> omega

end Stdgpu.Memory
