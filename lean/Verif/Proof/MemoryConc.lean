import Verif.Model.MemoryConc
import Verif.Proof.Memory
import Verif.Proof.Conc
import Mathlib.Data.List.Pairwise
/-! Invariant of concurrent allocations. -/
namespace Stdgpu.MemoryConc
open Stdgpu.Memory Stdgpu.Conc

def blk (p : Nat) (n : Int) (ty : MemType) : List Block := if p = 0 then [] else [⟨p, n, ty⟩]

/-- The block a thread is working on. -/
def held (t : Thread) : List Block :=
  match t.pc with
  | .idle => []
  | .allocReg ty n p | .sizeChk ty n p | .sizeReg ty n p | .deChk ty n p | .deReg ty n p | .freeChk ty n p
  | .freeReg ty n p | .free ty n p => blk p n ty

/-- The same if it is registered as allocated. -/
def inA (t : Thread) : List Block :=
  match t.pc with
  | .idle | .allocReg _ _ _ | .free _ _ _ => []
  | .sizeChk ty n p | .sizeReg ty n p | .deChk ty n p | .deReg ty n p | .freeChk ty n p | .freeReg ty n p => blk p n ty

/-- The same if its size is registered. -/
def inS (t : Thread) : List Block :=
  match t.pc with
  | .deChk ty n p | .deReg ty n p => blk p n ty
  | _ => []

/-- A failed allocation that has not been counted yet. -/
def pendFail (t : Thread) (ty : MemType) : Nat :=
  match t.pc with
  | .allocReg ty' _ p => if p = 0 ∧ ty' = ty then 1 else 0
  | _ => 0

/-- Points that only a null pointer cannot reach. -/
def pcOk (t : Thread) : Prop :=
  match t.pc with
  | .sizeChk _ _ p | .sizeReg _ _ p | .deReg _ _ p | .freeReg _ _ p | .free _ _ p => p ≠ 0
  | _ => True

def cnt (ty : MemType) (l : List Block) : Nat := l.countP (fun b => b.ty == ty)

structure Inv0 (m : Shared) (H A S : List Block) (F : MemType → Nat) : Prop where
  perm : m.sys.heap.Perm (m.owned ++ H)
  pos : ∀ b ∈ m.sys.heap, 0 < b.addr ∧ 0 < b.bytes ∧ b.ty ≠ .invalid
  disj : m.sys.heap.Pairwise (fun b c => (b.addr : Int) + b.bytes ≤ c.addr ∨ (c.addr : Int) + c.bytes ≤ b.addr)
  alloc : ∀ ty p n, p ≠ 0 → ((p, n) ∈ (m.sys.alloc ty).ptrs ↔ ⟨p, n, ty⟩ ∈ m.owned ++ A)
  sizes : ∀ ty p n, (p, n) ∈ (m.sys.sizes ty).ptrs ↔ ⟨p, n, ty⟩ ∈ m.owned ++ S
  count : ∀ ty, (m.sys.alloc ty).ins - (m.sys.alloc ty).era + F ty = cnt ty (m.owned ++ A) + m.sys.failed ty
  ub : m.ub = false
  subA : ∀ b ∈ A, b ∈ H
  subS : ∀ b ∈ S, b ∈ H

theorem cnt_perm {ty : MemType} {l l' : List Block} (h : l.Perm l') : cnt ty l = cnt ty l' := h.countP_eq _

theorem Inv0.congr {m : Shared} {H A S H' A' S' : List Block} {F F' : MemType → Nat} (h : Inv0 m H A S F)
    (hH : H.Perm H') (hA : A.Perm A') (hS : S.Perm S') (hF : ∀ ty, F ty = F' ty) : Inv0 m H' A' S' F' where
  perm := h.perm.trans (hH.append_left _)
  pos := h.pos
  disj := h.disj
  alloc := fun ty p n hp => (h.alloc ty p n hp).trans (hA.append_left _).mem_iff
  sizes := fun ty p n => (h.sizes ty p n).trans (hS.append_left _).mem_iff
  count := fun ty => by rw [← hF, h.count, cnt_perm (hA.append_left m.owned)]
  ub := h.ub
  subA := fun b hb => hH.mem_iff.1 (h.subA b (hA.mem_iff.2 hb))
  subS := fun b hb => hH.mem_iff.1 (h.subS b (hS.mem_iff.2 hb))

/-- Blocks at the same address are equal. -/
theorem Inv0.unique {m : Shared} {H A S : List Block} {F : MemType → Nat} (h : Inv0 m H A S F) {b c : Block}
    (hb : b ∈ m.sys.heap) (hc : c ∈ m.sys.heap) (he : b.addr = c.addr) : b = c := by
  by_contra hne
  have hsym : Std.Symm (fun b c : Block => (b.addr : Int) + b.bytes ≤ c.addr ∨ (c.addr : Int) + c.bytes ≤ b.addr) :=
    ⟨fun x y hxy => hxy.symm⟩
  have := h.disj.forall hb hc hne
  have h1 := h.pos b hb
  have h2 := h.pos c hc
  omega

theorem Inv0.nodup {m : Shared} {H A S : List Block} {F : MemType → Nat} (h : Inv0 m H A S F) : (m.owned ++ H).Nodup := by
  rw [← h.perm.nodup_iff]
  refine h.disj.imp_of_mem ?_
  intro b c hb hc hd he
  subst he
  have := h.pos b hb
  omega

/-- The block a thread works on has no other holder. -/
theorem Inv0.other {m : Shared} {b c : Block} {H A S : List Block} {F : MemType → Nat} (h : Inv0 m (b :: H) A S F)
    (hc : c ∈ m.owned ++ H) : c.addr ≠ b.addr := by
  intro he
  have hb' : b ∈ m.sys.heap := h.perm.mem_iff.2 (by simp)
  have hc' : c ∈ m.sys.heap := h.perm.mem_iff.2 (by
    rcases List.mem_append.1 hc with h | h <;> simp [h])
  obtain rfl := h.unique hc' hb' he
  have := h.nodup
  rw [List.nodup_append] at this
  rcases List.mem_append.1 hc with h2 | h2
  · exact this.2.2 c h2 c (by simp) rfl
  · have := this.2.1
    rw [List.nodup_cons] at this
    exact this.1 h2

theorem mem_register {g : Mgr} {p q : Nat} {n k : Int} : (q, k) ∈ (g.register p n).ptrs ↔ (q = p ∧ k = n) ∨ ((q, k) ∈ g.ptrs ∧ q ≠ p) := by
  simp [Mgr.register]

theorem mem_deregister {g : Mgr} {p q : Nat} {k : Int} : (q, k) ∈ (g.deregister p).ptrs ↔ (q, k) ∈ g.ptrs ∧ q ≠ p := by
  simp [Mgr.deregister]

theorem setMgr_apply (f : MemType → Mgr) (ty t : MemType) (g : Mgr) : setMgr f ty g t = if t = ty then g else f t := rfl

theorem cnt_cons (ty : MemType) (b : Block) (l : List Block) : cnt ty (b :: l) = cnt ty l + if b.ty = ty then 1 else 0 := by
  simp only [cnt, List.countP_cons, beq_iff_eq]

theorem cnt_append (ty : MemType) (l l' : List Block) : cnt ty (l ++ l') = cnt ty l + cnt ty l' := List.countP_append

theorem ret_pc (t : Thread) (r : Nat) : (ret t r).pc = .idle := by unfold ret; split <;> rfl

theorem held_ret (t : Thread) (r : Nat) : held (ret t r) = [] := by simp [held, ret_pc]
theorem inA_ret (t : Thread) (r : Nat) : inA (ret t r) = [] := by simp [inA, ret_pc]
theorem inS_ret (t : Thread) (r : Nat) : inS (ret t r) = [] := by simp [inS, ret_pc]
theorem pendFail_ret (t : Thread) (r : Nat) (ty : MemType) : pendFail (ret t r) ty = 0 := by simp [pendFail, ret_pc]
theorem pcOk_ret (t : Thread) (r : Nat) : pcOk (ret t r) := by simp [pcOk, ret_pc]

theorem blk_pos {p : Nat} (hp : p ≠ 0) (n : Int) (ty : MemType) : blk p n ty = [⟨p, n, ty⟩] := by simp [blk, hp]

/-! The steps, on the lists. -/

section
variable {m : Shared} {H A S : List Block} {F : MemType → Nat}

theorem Inv0.malloc_ok (h : Inv0 m H A S F) {n : Int} {ty : MemType} {p : Nat} (hn : 0 < n) (ht : ty ≠ .invalid)
    (hf : fresh m.sys.heap p n = true) :
    p ≠ 0 ∧ Inv0 { m with sys := { m.sys with heap := ⟨p, n, ty⟩ :: m.sys.heap } } (⟨p, n, ty⟩ :: H) A S F := by
  simp only [fresh, Bool.and_eq_true, bne_iff_ne, ne_eq, List.all_eq_true, Bool.or_eq_true, decide_eq_true_eq] at hf
  refine ⟨hf.1, ?_, ?_, ?_, h.alloc, h.sizes, h.count, h.ub, ?_, ?_⟩
  · exact (h.perm.cons _).trans List.perm_middle.symm
  · intro b hb
    rcases List.mem_cons.1 hb with rfl | hb
    · exact ⟨Nat.pos_of_ne_zero hf.1, hn, ht⟩
    · exact h.pos b hb
  · exact List.pairwise_cons.2 ⟨fun b hb => hf.2 b hb, h.disj⟩
  · intro b hb; exact List.mem_cons_of_mem _ (h.subA b hb)
  · intro b hb; exact List.mem_cons_of_mem _ (h.subS b hb)

theorem Inv0.malloc_fail (h : Inv0 m H A S F) {ty : MemType} :
    Inv0 { m with sys := { m.sys with failed := fun t => if t = ty then m.sys.failed t + 1 else m.sys.failed t } } H A S
      (fun t => (if ty = t then 1 else 0) + F t) := by
  refine ⟨h.perm, h.pos, h.disj, h.alloc, h.sizes, ?_, h.ub, h.subA, h.subS⟩
  intro t
  have := h.count t
  simp only
  by_cases ht : t = ty
  · subst ht; simp only [if_true]; push_cast; omega
  · rw [if_neg ht, if_neg (Ne.symm ht)]; omega

theorem Inv0.register (h : Inv0 m (⟨p, n, ty⟩ :: H) A S F) (hA : ∀ b ∈ A, b ∈ H) (hp : p ≠ 0) :
    Inv0 (setAlloc m ty ((m.sys.alloc ty).register p n)) (⟨p, n, ty⟩ :: H) (⟨p, n, ty⟩ :: A) S F := by
  refine ⟨h.perm, h.pos, h.disj, ?_, h.sizes, ?_, h.ub, ?_, h.subS⟩
  · intro t q k hq
    show (q, k) ∈ (setMgr m.sys.alloc ty _ t).ptrs ↔ _ ∈ m.owned ++ _
    rw [setMgr_apply]
    have hno : ∀ k', (⟨p, k', ty⟩ : Block) ∉ m.owned ++ A := by
      intro k' hc
      refine h.other (c := ⟨p, k', ty⟩) ?_ rfl
      rcases List.mem_append.1 hc with h' | h'
      · exact List.mem_append_left _ h'
      · exact List.mem_append_right _ (hA _ h')
    have hm : (⟨q, k, t⟩ : Block) ∈ m.owned ++ ⟨p, n, ty⟩ :: A ↔
        ((q = p ∧ k = n ∧ t = ty) ∨ (⟨q, k, t⟩ : Block) ∈ m.owned ++ A) := by
      simp only [List.mem_append, List.mem_cons, Block.mk.injEq]; tauto
    rw [hm]
    split
    · next htt =>
      subst htt
      rw [mem_register, h.alloc t q k hq]
      constructor
      · rintro (⟨rfl, rfl⟩ | ⟨h1, -⟩)
        · exact .inl ⟨rfl, rfl, rfl⟩
        · exact .inr h1
      · rintro (⟨rfl, rfl, -⟩ | h1)
        · exact .inl ⟨rfl, rfl⟩
        · exact .inr ⟨h1, fun he => hno k (he ▸ h1)⟩
    · next htt =>
      rw [h.alloc t q k hq]
      exact ⟨.inr, fun h1 => h1.resolve_left (fun h2 => htt h2.2.2)⟩
  · intro t
    have := h.count t
    show (setMgr m.sys.alloc ty _ t).ins - (setMgr m.sys.alloc ty _ t).era + _ = (cnt t (m.owned ++ _) : Int) + m.sys.failed t
    rw [setMgr_apply, cnt_append, cnt_cons]
    rw [cnt_append] at this
    by_cases htt : t = ty
    · subst htt; simp only [if_true, Mgr.register]; push_cast at this ⊢; omega
    · rw [if_neg htt, if_neg (Ne.symm htt)]; push_cast at this ⊢; omega
  · intro b hb
    rcases List.mem_cons.1 hb with rfl | hb
    · simp
    · exact h.subA b hb

theorem Inv0.register_null (h : Inv0 m H A S (fun t => (if ty = t then 1 else 0) + F t)) (n : Int) :
    Inv0 (setAlloc m ty ((m.sys.alloc ty).register 0 n)) H A S F := by
  refine ⟨h.perm, h.pos, h.disj, ?_, h.sizes, ?_, h.ub, h.subA, h.subS⟩
  · intro t q k hq
    show (q, k) ∈ (setMgr m.sys.alloc ty _ t).ptrs ↔ _ ∈ m.owned ++ _
    rw [setMgr_apply, ← h.alloc t q k hq]
    split
    · next htt => subst htt; rw [mem_register]; simp [hq]
    · rfl
  · intro t
    have := h.count t
    show (setMgr m.sys.alloc ty _ t).ins - (setMgr m.sys.alloc ty _ t).era + _ = (cnt t (m.owned ++ _) : Int) + m.sys.failed t
    rw [setMgr_apply]
    by_cases htt : t = ty
    · subst htt; simp only [if_true, Mgr.register] at this ⊢; push_cast at this ⊢; omega
    · rw [if_neg htt]; rw [if_neg (Ne.symm htt)] at this; push_cast at this ⊢; omega

theorem Inv0.deregister (h : Inv0 m (⟨p, n, ty⟩ :: H) (⟨p, n, ty⟩ :: A) S F) (hA : ∀ b ∈ A, b ∈ H) (hp : p ≠ 0) :
    Inv0 (setAlloc m ty ((m.sys.alloc ty).deregister p)) (⟨p, n, ty⟩ :: H) A S F := by
  refine ⟨h.perm, h.pos, h.disj, ?_, h.sizes, ?_, h.ub, fun b hb => h.subA b (List.mem_cons_of_mem _ hb), h.subS⟩
  · intro t q k hq
    show (q, k) ∈ (setMgr m.sys.alloc ty _ t).ptrs ↔ _ ∈ m.owned ++ _
    rw [setMgr_apply]
    have hno : ∀ k', (⟨p, k', ty⟩ : Block) ∉ m.owned ++ A := by
      intro k' hc
      refine h.other (c := ⟨p, k', ty⟩) ?_ rfl
      rcases List.mem_append.1 hc with h' | h'
      · exact List.mem_append_left _ h'
      · exact List.mem_append_right _ (hA _ h')
    have hm := h.alloc t q k hq
    have hm2 : (⟨q, k, t⟩ : Block) ∈ m.owned ++ ⟨p, n, ty⟩ :: A ↔
        ((q = p ∧ k = n ∧ t = ty) ∨ (⟨q, k, t⟩ : Block) ∈ m.owned ++ A) := by
      simp only [List.mem_append, List.mem_cons, Block.mk.injEq]; tauto
    rw [hm2] at hm
    split
    · next htt =>
      subst htt
      rw [mem_deregister, hm]
      constructor
      · rintro ⟨h1 | h1, h2⟩
        · exact absurd h1.1 h2
        · exact h1
      · intro h1
        exact ⟨.inr h1, fun he => hno k (he ▸ h1)⟩
    · next htt =>
      rw [hm]
      exact ⟨fun h1 => h1.resolve_left (fun h2 => htt h2.2.2), .inr⟩
  · intro t
    have := h.count t
    show (setMgr m.sys.alloc ty _ t).ins - (setMgr m.sys.alloc ty _ t).era + _ = (cnt t (m.owned ++ _) : Int) + m.sys.failed t
    rw [setMgr_apply, cnt_append]
    rw [cnt_append, cnt_cons] at this
    by_cases htt : t = ty
    · subst htt; simp only [if_true, Mgr.deregister] at this ⊢; push_cast at this ⊢; omega
    · rw [if_neg htt]; rw [if_neg (Ne.symm htt)] at this; push_cast at this ⊢; omega

theorem Inv0.sizes_eq (h : Inv0 m H A S F) {f : MemType → Mgr} {S' : List Block} (hS : ∀ b ∈ S', b ∈ H)
    (hs : ∀ ty p n, (p, n) ∈ (f ty).ptrs ↔ ⟨p, n, ty⟩ ∈ m.owned ++ S') :
    Inv0 { m with sys := { m.sys with sizes := f } } H A S' F :=
  ⟨h.perm, h.pos, h.disj, h.alloc, hs, h.count, h.ub, h.subA, hS⟩

theorem Inv0.sreg (h : Inv0 m (⟨p, n, ty⟩ :: H) A S F) (hS : ∀ b ∈ S, b ∈ H) :
    Inv0 (setSizes m ty ((m.sys.sizes ty).register p n)) (⟨p, n, ty⟩ :: H) A (⟨p, n, ty⟩ :: S) F := by
  refine h.sizes_eq ?_ ?_
  · intro b hb
    rcases List.mem_cons.1 hb with rfl | hb
    · simp
    · exact h.subS b hb
  · intro t q k
    rw [setMgr_apply]
    have hno : ∀ k', (⟨p, k', ty⟩ : Block) ∉ m.owned ++ S := by
      intro k' hc
      refine h.other (c := ⟨p, k', ty⟩) ?_ rfl
      rcases List.mem_append.1 hc with h' | h'
      · exact List.mem_append_left _ h'
      · exact List.mem_append_right _ (hS _ h')
    have hm : (⟨q, k, t⟩ : Block) ∈ m.owned ++ ⟨p, n, ty⟩ :: S ↔
        ((q = p ∧ k = n ∧ t = ty) ∨ (⟨q, k, t⟩ : Block) ∈ m.owned ++ S) := by
      simp only [List.mem_append, List.mem_cons, Block.mk.injEq]; tauto
    rw [hm]
    split
    · next htt =>
      subst htt
      rw [mem_register, h.sizes t q k]
      constructor
      · rintro (⟨rfl, rfl⟩ | ⟨h1, -⟩)
        · exact .inl ⟨rfl, rfl, rfl⟩
        · exact .inr h1
      · rintro (⟨rfl, rfl, -⟩ | h1)
        · exact .inl ⟨rfl, rfl⟩
        · exact .inr ⟨h1, fun he => hno k (he ▸ h1)⟩
    · next htt =>
      rw [h.sizes t q k]
      exact ⟨.inr, fun h1 => h1.resolve_left (fun h2 => htt h2.2.2)⟩

theorem Inv0.sdereg (h : Inv0 m (⟨p, n, ty⟩ :: H) A (⟨p, n, ty⟩ :: S) F) (hS : ∀ b ∈ S, b ∈ H) :
    Inv0 (setSizes m ty ((m.sys.sizes ty).deregister p)) (⟨p, n, ty⟩ :: H) A S F := by
  refine h.sizes_eq (fun b hb => h.subS b (List.mem_cons_of_mem _ hb)) ?_
  intro t q k
  rw [setMgr_apply]
  have hno : ∀ k', (⟨p, k', ty⟩ : Block) ∉ m.owned ++ S := by
    intro k' hc
    refine h.other (c := ⟨p, k', ty⟩) ?_ rfl
    rcases List.mem_append.1 hc with h' | h'
    · exact List.mem_append_left _ h'
    · exact List.mem_append_right _ (hS _ h')
  have hm := h.sizes t q k
  have hm2 : (⟨q, k, t⟩ : Block) ∈ m.owned ++ ⟨p, n, ty⟩ :: S ↔
      ((q = p ∧ k = n ∧ t = ty) ∨ (⟨q, k, t⟩ : Block) ∈ m.owned ++ S) := by
    simp only [List.mem_append, List.mem_cons, Block.mk.injEq]; tauto
  rw [hm2] at hm
  split
  · next htt =>
    subst htt
    rw [mem_deregister, hm]
    constructor
    · rintro ⟨h1 | h1, h2⟩
      · exact absurd h1.1 h2
      · exact h1
    · intro h1
      exact ⟨.inr h1, fun he => hno k (he ▸ h1)⟩
  · next htt =>
    rw [hm]
    exact ⟨fun h1 => h1.resolve_left (fun h2 => htt h2.2.2), .inr⟩

/-- A block changes from a thread to `owned`. -/
theorem Inv0.give (h : Inv0 m (⟨p, n, ty⟩ :: H) (⟨p, n, ty⟩ :: A) (⟨p, n, ty⟩ :: S) F) (hA : ∀ b ∈ A, b ∈ H)
    (hS : ∀ b ∈ S, b ∈ H) : Inv0 { m with owned := ⟨p, n, ty⟩ :: m.owned } H A S F where
  perm := h.perm.trans (List.perm_middle)
  pos := h.pos
  disj := h.disj
  alloc := fun t q k hq => (h.alloc t q k hq).trans List.perm_middle.mem_iff
  sizes := fun t q k => (h.sizes t q k).trans List.perm_middle.mem_iff
  count := fun t => by rw [h.count t, cnt_perm (List.perm_middle)]; rfl
  ub := h.ub
  subA := hA
  subS := hS

/-- A block changes from `owned` to a thread. -/
theorem Inv0.take (h : Inv0 m H A S F) {b : Block} (hb : b ∈ m.owned) :
    Inv0 { m with owned := m.owned.erase b } (b :: H) (b :: A) (b :: S) F := by
  have hp : ∀ l, (m.owned ++ l).Perm (m.owned.erase b ++ b :: l) := fun l =>
    ((List.perm_cons_erase hb).append_right l).trans List.perm_middle.symm
  refine ⟨h.perm.trans (hp H), h.pos, h.disj, fun t q k hq => (h.alloc t q k hq).trans (hp A).mem_iff,
    fun t q k => (h.sizes t q k).trans (hp S).mem_iff, fun t => by rw [h.count t, cnt_perm (hp A)], h.ub, ?_, ?_⟩
  · intro c hc
    rcases List.mem_cons.1 hc with rfl | hc
    · simp
    · exact List.mem_cons_of_mem _ (h.subA c hc)
  · intro c hc
    rcases List.mem_cons.1 hc with rfl | hc
    · simp
    · exact List.mem_cons_of_mem _ (h.subS c hc)

theorem Inv0.free (h : Inv0 m (⟨p, n, ty⟩ :: H) A S F) (hA : ∀ b ∈ A, b ∈ H) (hS : ∀ b ∈ S, b ∈ H) :
    ∃ s, backendFree m.sys p ty = .ok s ∧ Inv0 { m with sys := s } H A S F := by
  have hb : (⟨p, n, ty⟩ : Block) ∈ m.sys.heap := h.perm.mem_iff.2 (by simp)
  refine ⟨{ m.sys with heap := m.sys.heap.filter (fun b => !(b.addr == p && b.ty == ty)) }, ?_, ?_⟩
  · unfold backendFree
    rw [if_pos]
    exact List.any_eq_true.2 ⟨_, hb, by simp⟩
  · have hf : (m.sys.heap.filter (fun b => !(b.addr == p && b.ty == ty))).Perm (m.owned ++ H) := by
      refine (h.perm.filter _).trans ?_
      rw [List.filter_append, List.filter_cons]
      simp only [beq_self_eq_true, Bool.and_self, Bool.not_true, Bool.false_eq_true, if_false]
      rw [← List.filter_append, List.filter_eq_self.2]
      intro c hc
      have := h.other hc
      simp only at this
      simp [this]
    exact ⟨hf, fun b hb => h.pos b (List.mem_of_mem_filter hb), h.disj.filter _, h.alloc, h.sizes, h.count, h.ub, hA, hS⟩

end

/-- One step of a thread. -/
theorem inv0_step {m : Shared} {t : Thread} {H A S : List Block} {F : MemType → Nat} (hA : ∀ b ∈ A, b ∈ H)
    (hS : ∀ b ∈ S, b ∈ H) (hk : pcOk t)
    (h : Inv0 m (held t ++ H) (inA t ++ A) (inS t ++ S) (fun ty => pendFail t ty + F ty))
    (hm : (step m t).1.misuse = false) :
    pcOk (step m t).2 ∧ Inv0 (step m t).1 (held (step m t).2 ++ H) (inA (step m t).2 ++ A) (inS (step m t).2 ++ S)
      (fun ty => pendFail (step m t).2 ty + F ty) := by
  obtain ⟨todo, pc, done⟩ := t
  cases pc with
  | idle =>
    simp only [held, inA, inS, pendFail, List.nil_append, Nat.zero_add] at h
    unfold step at hm ⊢
    simp only at hm ⊢
    split at hm <;> (try simp only at hm ⊢)
    · exact ⟨trivial, by simpa [held, inA, inS, pendFail] using h⟩
    · next ty n addr rest =>
      split
      · refine ⟨?_, by simpa [held_ret, inA_ret, inS_ret, pendFail_ret] using h⟩
        dsimp only; exact pcOk_ret _ _
      split
      · refine ⟨?_, by simpa [held_ret, inA_ret, inS_ret, pendFail_ret] using h⟩
        dsimp only; exact pcOk_ret _ _
      next hn ht =>
      refine ⟨trivial, ?_⟩
      simp only [backendMalloc]
      split
      · next hf =>
        obtain ⟨hp, h2⟩ := h.malloc_ok (ty := ty) (by omega) ht hf
        simpa [held, inA, inS, pendFail, blk_pos hp, hp] using h2
      · simpa [held, inA, inS, pendFail, blk] using h.malloc_fail (ty := ty)
    · next ty p rest =>
      split
      · next b hb =>
        have hbm := List.mem_of_find?_eq_some hb
        have hbe := List.find?_some hb
        simp only [Bool.and_eq_true, beq_iff_eq] at hbe
        obtain ⟨rfl, rfl⟩ := hbe
        refine ⟨trivial, ?_⟩
        have hp : b.addr ≠ 0 := by
          have := (h.pos b (h.perm.mem_iff.2 (List.mem_append_left _ hbm))).1
          omega
        simpa [held, inA, inS, pendFail, blk_pos hp] using h.take hbm
      · next hb =>
        rw [hb] at hm
        simp only [Bool.or_eq_false_iff, bne_eq_false_iff_eq] at hm
        obtain ⟨hm1, rfl⟩ := hm
        refine ⟨trivial, ?_⟩
        simp only [held, inA, inS, pendFail, blk, if_true, List.nil_append, Nat.zero_add]
        exact ⟨h.perm, h.pos, h.disj, h.alloc, h.sizes, h.count, h.ub, h.subA, h.subS⟩
  | allocReg ty n p =>
    unfold step at hm ⊢
    simp only [held, inA, inS, pendFail] at h
    simp only at hm ⊢
    by_cases hp : p = 0
    · subst hp
      simp only [blk, if_true, List.nil_append, true_and] at h
      refine ⟨pcOk_ret _ _, ?_⟩
      simpa [held_ret, inA_ret, inS_ret, pendFail_ret] using h.register_null n
    · rw [blk_pos hp] at h
      simp only [hp, if_false, false_and, List.singleton_append, List.nil_append, Nat.zero_add] at h ⊢
      refine ⟨hp, ?_⟩
      simpa [held, inA, inS, pendFail, blk_pos hp] using h.register hA hp
  | sizeChk ty n p =>
    have hp : p ≠ 0 := hk
    unfold step at hm ⊢
    simp only [held, inA, inS, pendFail, blk_pos hp, List.singleton_append, List.nil_append, Nat.zero_add] at h
    simp only at hm ⊢
    have hno : (m.sys.sizes ty).contains p = false := by
      by_contra hc
      rw [Bool.not_eq_false, contains_iff] at hc
      obtain ⟨k, hk⟩ := hc
      rw [h.sizes] at hk
      refine h.other (c := ⟨p, k, ty⟩) ?_ rfl
      rcases List.mem_append.1 hk with h' | h'
      · exact List.mem_append_left _ h'
      · exact List.mem_append_right _ (hS _ h')
    rw [hno]
    refine ⟨hp, ?_⟩
    simpa [held, inA, inS, pendFail, blk_pos hp] using h
  | sizeReg ty n p =>
    have hp : p ≠ 0 := hk
    unfold step at hm ⊢
    simp only [held, inA, inS, pendFail, blk_pos hp, List.singleton_append, List.nil_append, Nat.zero_add] at h
    simp only at hm ⊢
    refine ⟨pcOk_ret _ _, ?_⟩
    simp only [held_ret, inA_ret, inS_ret, pendFail_ret, List.nil_append, Nat.zero_add]
    exact (h.sreg hS).give hA hS
  | deChk ty n p =>
    unfold step at hm ⊢
    simp only [held, inA, inS, pendFail] at h
    simp only at hm ⊢
    by_cases hp : p = 0
    · subst hp
      simp only [blk, if_true, List.nil_append, Nat.zero_add] at h
      have hno : (m.sys.sizes ty).contains 0 = false := by
        by_contra hc
        rw [Bool.not_eq_false, contains_iff] at hc
        obtain ⟨k, hk⟩ := hc
        rw [h.sizes] at hk
        have : (⟨0, k, ty⟩ : Block) ∈ m.sys.heap := by
          rw [h.perm.mem_iff]
          rcases List.mem_append.1 hk with h' | h'
          · exact List.mem_append_left _ h'
          · exact List.mem_append_right _ (hS _ h')
        exact absurd (h.pos _ this).1 (by simp)
      rw [hno]
      exact ⟨trivial, by simpa [held, inA, inS, pendFail, blk] using h⟩
    · rw [blk_pos hp] at h
      simp only [List.singleton_append, Nat.zero_add] at h
      have hyes : (m.sys.sizes ty).contains p = true := by
        rw [contains_iff]
        exact ⟨n, (h.sizes ty p n).2 (by simp)⟩
      rw [hyes]
      exact ⟨hp, by simpa [held, inA, inS, pendFail, blk_pos hp] using h⟩
  | deReg ty n p =>
    have hp : p ≠ 0 := hk
    unfold step at hm ⊢
    simp only [held, inA, inS, pendFail, blk_pos hp, List.singleton_append, List.nil_append, Nat.zero_add] at h
    simp only at hm ⊢
    exact ⟨trivial, by simpa [held, inA, inS, pendFail, blk_pos hp] using h.sdereg hS⟩
  | freeChk ty n p =>
    unfold step at hm ⊢
    simp only [held, inA, inS, pendFail] at h
    simp only at hm ⊢
    by_cases hp : p = 0
    · subst hp
      simp only [blk, if_true, List.nil_append, Nat.zero_add] at h
      simp only [if_true]
      exact ⟨pcOk_ret _ _, by simpa [held_ret, inA_ret, inS_ret, pendFail_ret] using h⟩
    · rw [blk_pos hp] at h
      simp only [List.singleton_append, List.nil_append, Nat.zero_add] at h
      have hyes : (m.sys.alloc ty).contains p = true := by
        rw [contains_iff]
        exact ⟨n, (h.alloc ty p n hp).2 (by simp)⟩
      rw [if_neg hp, if_pos hyes]
      exact ⟨hp, by simpa [held, inA, inS, pendFail, blk_pos hp] using h⟩
  | freeReg ty n p =>
    have hp : p ≠ 0 := hk
    unfold step at hm ⊢
    simp only [held, inA, inS, pendFail, blk_pos hp, List.singleton_append, List.nil_append, Nat.zero_add] at h
    simp only at hm ⊢
    exact ⟨hp, by simpa [held, inA, inS, pendFail, blk_pos hp] using h.deregister hA hp⟩
  | free ty n p =>
    have hp : p ≠ 0 := hk
    unfold step at hm ⊢
    simp only [held, inA, inS, pendFail, blk_pos hp, List.singleton_append, List.nil_append, Nat.zero_add] at h
    simp only at hm ⊢
    have ht : ty ≠ .invalid := (h.pos ⟨p, n, ty⟩ (h.perm.mem_iff.2 (by simp))).2.2
    obtain ⟨s, e, h2⟩ := h.free hA hS
    rw [if_neg ht, e]
    exact ⟨pcOk_ret _ _, by simpa [held_ret, inA_ret, inS_ret, pendFail_ret] using h2⟩

structure Inv (s : Conc.Sys Shared Thread) : Prop where
  ok : ∀ t ∈ s.threads, pcOk t
  inv : Inv0 s.shared (s.threads.flatMap held) (s.threads.flatMap inA) (s.threads.flatMap inS)
    (fun ty => (s.threads.map (fun t => pendFail t ty)).sum)

theorem inA_held (t : Thread) : ∀ b ∈ inA t, b ∈ held t := by
  intro b
  obtain ⟨todo, pc, done⟩ := t
  cases pc <;> simp [inA, held]

theorem inS_held (t : Thread) : ∀ b ∈ inS t, b ∈ held t := by
  intro b
  obtain ⟨todo, pc, done⟩ := t
  cases pc <;> simp [inS, held]

theorem misuse_mono (m : Shared) (t : Thread) (h : m.misuse = true) : (step m t).1.misuse = true := by
  unfold step
  split <;> (try split) <;> (try split) <;> (try split) <;> simp_all [setAlloc, setSizes, backendMalloc]

theorem inv_run (mem : Nat → BitVec 8) (programs : List (List Op)) (sched : List Nat)
    (hm : (run step (init mem programs) sched).shared.misuse = false) : Inv (run step (init mem programs) sched) := by
  refine run_inv (f := step) (fun s => s.shared.misuse = false → Inv s) ?_ _ ?_ sched hm
  · intro s i t hs ht hm
    have hm0 : s.shared.misuse = false := by
      by_contra hc
      rw [Bool.not_eq_false] at hc
      have := misuse_mono s.shared t hc
      simp only at hm
      rw [this] at hm
      simp at hm
    obtain ⟨hok, h⟩ := hs hm0
    obtain ⟨l1, l2, e, rfl⟩ : ∃ l1 l2, s.threads = l1 ++ t :: l2 ∧ l1.length = i := by
      obtain ⟨hlt, he⟩ := List.getElem?_eq_some_iff.1 ht
      refine ⟨s.threads.take i, s.threads.drop (i + 1), ?_, by simp; omega⟩
      rw [← he, List.cons_getElem_drop_succ, List.take_append_drop]
    have hset : ∀ t', s.threads.set l1.length t' = l1 ++ t' :: l2 := by intro t'; rw [e]; simp
    have hp : ∀ {β : Type} (f : Thread → List β) (t' : Thread),
        ((l1 ++ t' :: l2).flatMap f).Perm (f t' ++ (l1 ++ l2).flatMap f) := by
      intro β f t'
      simp only [List.flatMap_append, List.flatMap_cons]
      rw [← List.append_assoc, ← List.append_assoc]
      exact List.perm_append_comm.append_right _
    have hsum : ∀ (t' : Thread) (ty : MemType), ((l1 ++ t' :: l2).map (fun t => pendFail t ty)).sum =
        pendFail t' ty + ((l1 ++ l2).map (fun t => pendFail t ty)).sum := by
      intro t' ty
      simp only [List.map_append, List.map_cons, List.sum_append, List.sum_cons]
      omega
    rw [e] at h
    have h' := h.congr (hp held t) (hp inA t) (hp inS t) (hsum t)
    obtain ⟨k, h2⟩ := inv0_step (H := (l1 ++ l2).flatMap held) (A := (l1 ++ l2).flatMap inA) (S := (l1 ++ l2).flatMap inS)
      (fun b hb => by
        obtain ⟨x, hx, hbx⟩ := List.mem_flatMap.1 hb
        exact List.mem_flatMap.2 ⟨x, hx, inA_held x b hbx⟩)
      (fun b hb => by
        obtain ⟨x, hx, hbx⟩ := List.mem_flatMap.1 hb
        exact List.mem_flatMap.2 ⟨x, hx, inS_held x b hbx⟩)
      (hok t (by rw [e]; simp)) h' hm
    constructor
    · intro x hx
      rcases mem_set_cases _ _ _ _ hx with rfl | ⟨j, -, hj⟩
      · exact k
      · exact hok x (List.mem_of_getElem? hj)
    · simp only
      rw [hset]
      exact h2.congr (hp held _).symm (hp inA _).symm (hp inS _).symm (fun ty => (hsum _ ty).symm)
  · intro _
    have hz : ∀ {β : Type} (f : Thread → List β), (∀ p, f ⟨p, .idle, []⟩ = []) → (init mem programs).threads.flatMap f = [] := by
      intro β f hf
      rw [List.flatMap_eq_nil_iff]
      intro t ht
      obtain ⟨p, -, rfl⟩ := List.mem_map.1 ht
      exact hf p
    constructor
    · intro t ht
      obtain ⟨p, -, rfl⟩ := List.mem_map.1 ht
      trivial
    · rw [hz held (fun _ => rfl), hz inA (fun _ => rfl), hz inS (fun _ => rfl)]
      have hF : ∀ ty, ((init mem programs).threads.map (fun t => pendFail t ty)).sum = 0 := by
        intro ty
        rw [sum_map_eq_zero]
        intro t ht
        obtain ⟨p, -, rfl⟩ := List.mem_map.1 ht
        rfl
      refine ⟨List.Perm.refl _, ?_, List.Pairwise.nil, ?_, ?_, ?_, rfl, ?_, ?_⟩
      · intro b hb; simp [init, Memory.init] at hb
      · intro ty p n _; simp [init, Memory.init, Mgr.init]
      · intro ty p n; simp [init, Memory.init, Mgr.init]
      · intro ty; simp only [hF]; simp [init, Memory.init, Mgr.init, cnt]
      · simp
      · simp

/-! Sizes and types of owned blocks. -/

theorem Inv0.memS {m : Shared} {H A S : List Block} {F : MemType → Nat} (h : Inv0 m H A S F) {ty : MemType} {p : Nat}
    {n : Int} (hm : (p, n) ∈ (m.sys.sizes ty).ptrs) : (⟨p, n, ty⟩ : Block) ∈ m.sys.heap := by
  rw [h.sizes] at hm
  rw [h.perm.mem_iff]
  rcases List.mem_append.1 hm with h' | h'
  · exact List.mem_append_left _ h'
  · exact List.mem_append_right _ (h.subS _ h')

theorem Inv0.owned_heap {m : Shared} {H A S : List Block} {F : MemType → Nat} (h : Inv0 m H A S F) {b : Block}
    (hb : b ∈ m.owned) : b ∈ m.sys.heap := h.perm.mem_iff.2 (List.mem_append_left _ hb)

theorem Inv0.type_owned {m : Shared} {H A S : List Block} {F : MemType → Nat} (h : Inv0 m H A S F) {ty : MemType} {p : Nat}
    {n : Int} (hb : (⟨p, n, ty⟩ : Block) ∈ m.owned) : dynamicMemoryType m.sys p = ty := by
  have hl := h.owned_heap hb
  have hc : ∀ t, (m.sys.sizes t).contains p = true → t = ty := by
    intro t ht
    obtain ⟨k, hk⟩ := (contains_iff _ _).1 ht
    have := h.unique (h.memS hk) hl rfl
    simp only [Block.mk.injEq] at this
    exact this.2.2
  have hty : (m.sys.sizes ty).contains p = true := (contains_iff _ _).2 ⟨n, (h.sizes _ _ _).2 (List.mem_append_left _ hb)⟩
  have hne := (h.pos _ hl).2.2
  unfold dynamicMemoryType
  split
  · next h1 => exact hc _ h1
  · split
    · next h1 => exact hc _ h1
    · next h1 h2 =>
      cases ty
      · exact absurd hty h1
      · exact absurd hty h2
      · exact absurd rfl hne

theorem Inv0.sizeBytes_owned {m : Shared} {H A S : List Block} {F : MemType → Nat} (h : Inv0 m H A S F) {ty : MemType}
    {p : Nat} {n : Int} (hb : (⟨p, n, ty⟩ : Block) ∈ m.owned) : sizeBytes m.sys p = n := by
  unfold sizeBytes
  rw [h.type_owned hb]
  unfold Mgr.findSize
  cases hf : (m.sys.sizes ty).ptrs.find? (fun e => e.1 == p) with
  | none =>
    have := List.find?_eq_none.1 hf (p, n) ((h.sizes _ _ _).2 (List.mem_append_left _ hb))
    simp at this
  | some e =>
    obtain ⟨q, k⟩ := e
    have h1 := List.mem_of_find?_eq_some hf
    have h2 := List.find?_some hf
    simp only [beq_iff_eq] at h2
    subst h2
    have := h.unique (h.memS h1) (h.owned_heap hb) rfl
    simp only [Block.mk.injEq] at this
    exact this.2.1

/-! The program point belongs to the current operation. -/

def pcMatch (t : Thread) : Prop :=
  match t.pc with
  | .idle => True
  | .allocReg ty n _ | .sizeChk ty n _ | .sizeReg ty n _ => ∃ a rest, t.todo = .alloc ty n a :: rest
  | .deChk ty _ p | .deReg ty _ p | .freeChk ty _ p | .freeReg ty _ p | .free ty _ p => ∃ rest, t.todo = .free ty p :: rest

theorem pcMatch_step (m : Shared) (t : Thread) (h : pcMatch t) : pcMatch (step m t).2 := by
  obtain ⟨todo, pc, done⟩ := t
  cases pc with
  | idle =>
    unfold step
    simp only
    split
    · trivial
    · split
      · simp [pcMatch, ret_pc]
      · split
        · simp [pcMatch, ret_pc]
        · simp [pcMatch]
    · split <;> simp [pcMatch]
  | allocReg ty n p =>
    unfold step
    simp only
    split
    · simp [pcMatch, ret_pc]
    · exact h
  | sizeChk ty n p =>
    unfold step
    simp only
    split
    · simp [pcMatch, ret_pc]
    · exact h
  | sizeReg ty n p => simp [step, pcMatch, ret_pc]
  | deChk ty n p =>
    unfold step
    simp only
    split <;> exact h
  | deReg ty n p => exact h
  | freeChk ty n p =>
    unfold step
    simp only
    split
    · simp [pcMatch, ret_pc]
    · split
      · exact h
      · simp [pcMatch, ret_pc]
  | freeReg ty n p => exact h
  | free ty n p =>
    unfold step
    simp only
    split
    · simp [pcMatch, ret_pc]
    · split <;> simp [pcMatch, ret_pc]

theorem pcMatch_run (mem : Nat → BitVec 8) (programs : List (List Op)) (sched : List Nat) :
    ∀ t ∈ (run step (init mem programs) sched).threads, pcMatch t := by
  refine run_inv (f := step) (fun s => ∀ t ∈ s.threads, pcMatch t) ?_ _ ?_ sched
  · intro s i t hs ht x hx
    rcases mem_set_cases _ _ _ _ hx with rfl | ⟨j, -, hj⟩
    · exact pcMatch_step _ _ (hs t (List.mem_of_getElem? ht))
    · exact hs x (List.mem_of_getElem? hj)
  · intro t ht
    obtain ⟨p, -, rfl⟩ := List.mem_map.1 ht
    trivial

theorem ret_done {t : Thread} {r : Nat} {op : Op} {p : Nat} (h : (ret t r).done = t.done ++ [(op, p)]) :
    p = r ∧ ∃ rest, t.todo = op :: rest := by
  unfold ret at h
  split at h
  · exact absurd h (by simp)
  · next o rest e =>
    simp only [List.append_cancel_left_eq, List.cons.injEq, Prod.mk.injEq, and_true] at h
    exact ⟨h.2.symm, rest, by rw [e, h.1]⟩

theorem not_done {l : List (Op × Nat)} {x : Op × Nat} (h : l = l ++ [x]) : False := by
  have := congrArg List.length h
  simp at this

/-- A step that returns a non-null pointer from an allocation. -/
theorem step_returns (m : Shared) (t : Thread) (h : pcMatch t) (hk : pcOk t) (ty : MemType) (n : Int) (a p : Nat) (hp : p ≠ 0)
    (hd : (step m t).2.done = t.done ++ [(.alloc ty n a, p)]) : (⟨p, n, ty⟩ : Block) ∈ (step m t).1.owned := by
  obtain ⟨todo, pc, done⟩ := t
  cases pc with
  | idle =>
    unfold step at hd
    simp only at hd
    split at hd
    · exact absurd hd (fun h => not_done h)
    · split at hd
      · exact absurd (ret_done hd).1 hp
      · split at hd
        · exact absurd (ret_done hd).1 hp
        · exact absurd hd (fun h => not_done h)
    · split at hd <;> exact absurd hd (fun h => not_done h)
  | allocReg ty n q =>
    unfold step at hd
    simp only at hd
    split at hd
    · exact absurd (ret_done hd).1 hp
    · exact absurd hd (fun h => not_done h)
  | sizeChk ty' n' q =>
    obtain ⟨a', rest, ht⟩ := h
    unfold step at hd ⊢
    simp only at hd ht ⊢
    split at hd
    · next hc =>
      obtain ⟨rfl, rest', e⟩ := ret_done hd
      simp only [ht, List.cons.injEq, Op.alloc.injEq] at e
      obtain ⟨⟨rfl, rfl, rfl⟩, -⟩ := e
      rw [if_pos hc]
      simp
    · exact absurd hd (fun h => not_done h)
  | sizeReg ty' n' q =>
    obtain ⟨a', rest, ht⟩ := h
    unfold step at hd ⊢
    simp only at hd ht ⊢
    obtain ⟨rfl, rest', e⟩ := ret_done hd
    simp only [ht, List.cons.injEq, Op.alloc.injEq] at e
    obtain ⟨⟨rfl, rfl, rfl⟩, -⟩ := e
    simp
  | deChk ty n q => exact absurd hd (fun h => not_done h)
  | deReg ty n q => exact absurd hd (fun h => not_done h)
  | freeChk ty' n' q =>
    unfold step at hd
    simp only at hd
    split at hd
    · exact absurd (ret_done hd).1 hp
    · split at hd
      · exact absurd hd (fun h => not_done h)
      · exact absurd (ret_done hd).1 hp
  | freeReg ty n q => exact absurd hd (fun h => not_done h)
  | free ty' n' q =>
    unfold step at hd
    simp only at hd
    split at hd
    · exact absurd (ret_done hd).1 hp
    · split at hd <;> exact absurd (ret_done hd).1 hp

/-- A block stays owned unless the step is the start of a deallocation of it. -/
theorem step_stays (m : Shared) (t : Thread) (b : Block) (hb : b ∈ m.owned)
    (hn : ∀ rest, t.todo ≠ .free b.ty b.addr :: rest) : b ∈ (step m t).1.owned := by
  obtain ⟨todo, pc, done⟩ := t
  cases pc with
  | idle =>
    unfold step
    simp only
    split
    · exact hb
    · split
      · exact hb
      · split
        · exact hb
        · exact hb
    · next ty p rest =>
      split
      · next c hc =>
        have hce := List.find?_some hc
        simp only [Bool.and_eq_true, beq_iff_eq] at hce
        refine (List.mem_erase_of_ne ?_).2 hb
        rintro rfl
        exact hn rest (by rw [hce.1, hce.2])
      · exact hb
  | allocReg ty n q => exact hb
  | sizeChk ty' n' q =>
    unfold step
    simp only
    split
    · exact List.mem_cons_of_mem _ hb
    · exact hb
  | sizeReg ty' n' q => exact List.mem_cons_of_mem _ hb
  | deChk ty n q => exact hb
  | deReg ty n q => exact hb
  | freeChk ty' n' q =>
    unfold step
    simp only
    split
    · exact hb
    · split <;> exact hb
  | freeReg ty n q => exact hb
  | free ty' n' q =>
    unfold step
    simp only
    split
    · exact hb
    · split <;> exact hb

end Stdgpu.MemoryConc
