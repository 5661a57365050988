import Verif.Spec.Memory
import Mathlib.Data.List.Perm.Basic
import Mathlib.Tactic.Ring
import Mathlib.Tactic.Linarith
/-! Invariants of the memory API. -/
namespace Stdgpu.Memory
open Stdgpu.Spec
open Stdgpu.Vector (Fault)

def nz (l : List (Nat × Int)) : List (Nat × Int) := l.filter (fun e => e.1 != 0)
def zs (l : List (Nat × Int)) : List (Nat × Int) := l.filter (fun e => e.1 == 0)

/-- The live blocks of a type as map entries. -/
def entries (heap : List Block) (ty : MemType) : List (Nat × Int) :=
  (heap.filter (fun b => b.ty == ty)).map (fun b => (b.addr, b.bytes))

structure Inv (s : Sys) : Prop where
  pos : ∀ b ∈ s.heap, 0 < b.addr ∧ 0 < b.bytes ∧ b.ty ≠ .invalid
  disj : s.heap.Pairwise (fun b c => (b.addr : Int) + b.bytes ≤ c.addr ∨ (c.addr : Int) + c.bytes ≤ b.addr)
  allocP : ∀ ty, (nz (s.alloc ty).ptrs).Perm (entries s.heap ty)
  allocZ : ∀ ty, (zs (s.alloc ty).ptrs).length = if 0 < s.failed ty then 1 else 0
  cnt : ∀ ty, (s.alloc ty).ins - (s.alloc ty).era = liveCount s ty + s.failed ty

/-- The size registry lists the live blocks. -/
def SInv (s : Sys) : Prop := ∀ ty, (s.sizes ty).ptrs.Perm (entries s.heap ty)

theorem mem_entries {heap : List Block} {ty : MemType} {p : Nat} {n : Int} :
    (p, n) ∈ entries heap ty ↔ (⟨p, n, ty⟩ : Block) ∈ heap := by
  unfold entries
  simp only [List.mem_map, List.mem_filter, beq_iff_eq]
  constructor
  · rintro ⟨b, ⟨hb, rfl⟩, he⟩
    cases b; simp at he; obtain ⟨rfl, rfl⟩ := he; exact hb
  · intro h; exact ⟨_, ⟨h, rfl⟩, rfl⟩

theorem length_entries (heap : List Block) (ty : MemType) :
    (entries heap ty).length = heap.countP (fun b => b.ty == ty) := by
  unfold entries; rw [List.length_map, List.countP_eq_length_filter]

theorem inv_init (mem : Nat → BitVec 8) : Inv (init mem) ∧ SInv (init mem) := by
  refine ⟨⟨?_, ?_, ?_, ?_, ?_⟩, ?_⟩
  · intro b hb; simp [init] at hb
  · simp [init]
  · intro ty; simp [init, Mgr.init, nz, entries]
  · intro ty; simp [init, Mgr.init, zs]
  · intro ty; simp [init, Mgr.init, liveCount]
  · intro ty; simp [init, Mgr.init, entries]

/-- Two live blocks at one address are the same. -/
theorem Inv.unique {s : Sys} (h : Inv s) {b c : Block} (hb : b ∈ s.heap) (hc : c ∈ s.heap) (he : b.addr = c.addr) :
    b = c := by
  have hd := h.disj
  revert hb hc hd
  have hp := h.pos
  revert hp
  generalize s.heap = l
  intro hp hb hc hd
  induction l with
  | nil => simp at hb
  | cons a l ih =>
    obtain ⟨h1, h2⟩ := List.pairwise_cons.1 hd
    rcases List.mem_cons.1 hb with rfl | hb' <;> rcases List.mem_cons.1 hc with rfl | hc'
    · rfl
    · have := h1 c hc'
      have := hp b (by simp)
      have := hp c (by simp [hc'])
      omega
    · have := h1 b hb'
      have := hp b (by simp [hb'])
      have := hp c (by simp)
      omega
    · exact ih (fun x hx => hp x (List.mem_cons_of_mem _ hx)) hb' hc' h2

theorem contains_iff (m : Mgr) (p : Nat) : m.contains p = true ↔ ∃ n, (p, n) ∈ m.ptrs := by
  unfold Mgr.contains
  simp only [List.any_eq_true, beq_iff_eq]
  constructor
  · rintro ⟨⟨q, n⟩, h, rfl⟩; exact ⟨n, h⟩
  · rintro ⟨n, h⟩; exact ⟨_, h, rfl⟩

theorem mem_nz {l : List (Nat × Int)} {p : Nat} {n : Int} : (p, n) ∈ nz l ↔ (p, n) ∈ l ∧ p ≠ 0 := by
  simp [nz]

theorem Inv.mem_alloc {s : Sys} (h : Inv s) {ty : MemType} {p : Nat} {n : Int} (hp : p ≠ 0) :
    (p, n) ∈ (s.alloc ty).ptrs ↔ Live s ty p n := by
  unfold Live
  rw [← mem_entries, ← (h.allocP ty).mem_iff, mem_nz]
  simp [hp]

theorem SInv.mem_sizes {s : Sys} (h : SInv s) {ty : MemType} {p : Nat} {n : Int} :
    (p, n) ∈ (s.sizes ty).ptrs ↔ Live s ty p n := by
  unfold Live
  rw [← mem_entries, (h ty).mem_iff]

theorem room_iff {s : Sys} {addr : Nat} {bytes : Int} : fresh s.heap addr bytes = true ↔ Room s addr bytes := by
  unfold fresh Room Live
  simp only [Bool.and_eq_true, bne_iff_ne, List.all_eq_true, Bool.or_eq_true, decide_eq_true_eq]
  constructor
  · rintro ⟨h1, h2⟩; exact ⟨h1, fun ty p n hb => h2 _ hb⟩
  · rintro ⟨h1, h2⟩; exact ⟨h1, fun b hb => h2 b.ty b.addr b.bytes hb⟩

/-- A new block's address is not yet used. -/
theorem Inv.fresh_ne {s : Sys} (h : Inv s) {addr : Nat} {bytes : Int} (hb : 0 < bytes) (hf : fresh s.heap addr bytes = true) :
    ∀ b ∈ s.heap, b.addr ≠ addr := by
  intro b hbm he
  obtain ⟨-, h2⟩ := room_iff.1 hf
  have := h2 b.ty b.addr b.bytes hbm
  have := h.pos b hbm
  omega

theorem setMgr_same (f : MemType → Mgr) (ty : MemType) (m : Mgr) : setMgr f ty m ty = m := by simp [setMgr]
theorem setMgr_ne (f : MemType → Mgr) {ty t : MemType} (m : Mgr) (h : t ≠ ty) : setMgr f ty m t = f t := by simp [setMgr, h]

theorem entries_cons (b : Block) (heap : List Block) (ty : MemType) :
    entries (b :: heap) ty = if b.ty = ty then (b.addr, b.bytes) :: entries heap ty else entries heap ty := by
  unfold entries
  by_cases h : b.ty = ty <;> simp [h]

theorem filter_ne_self {l : List (Nat × Int)} {p : Nat} (h : ∀ n, (p, n) ∉ l) : l.filter (fun e => e.1 != p) = l := by
  rw [List.filter_eq_self]
  rintro ⟨q, n⟩ he
  simp only [bne_iff_ne]
  rintro rfl
  exact h n he

/-! ### allocate -/

/-- The state after a successful allocation. -/
def allocated (s : Sys) (bytes : Int) (ty : MemType) (addr : Nat) : Sys :=
  { s with heap := ⟨addr, bytes, ty⟩ :: s.heap, alloc := setMgr s.alloc ty ((s.alloc ty).register addr bytes) }

/-- The state after a failed allocation. -/
def notAllocated (s : Sys) (bytes : Int) (ty : MemType) : Sys :=
  { s with alloc := setMgr s.alloc ty ((s.alloc ty).register 0 bytes),
           failed := fun t => if t = ty then s.failed t + 1 else s.failed t }

theorem allocate_cases (s : Sys) (bytes : Int) (ty : MemType) (addr : Nat) :
    (allocate s bytes ty addr = (0, s) ∧ (bytes ≤ 0 ∨ ty = .invalid)) ∨
    (0 < bytes ∧ ty ≠ .invalid ∧ Room s addr bytes ∧ allocate s bytes ty addr = (addr, allocated s bytes ty addr)) ∨
    (0 < bytes ∧ ty ≠ .invalid ∧ ¬ Room s addr bytes ∧ allocate s bytes ty addr = (0, notAllocated s bytes ty)) := by
  unfold allocate
  by_cases hb : bytes ≤ 0
  · left; simp [hb]
  · by_cases ht : ty = .invalid
    · left; simp [hb, ht]
    · right
      rw [if_neg hb, if_neg ht]
      unfold backendMalloc
      by_cases hf : fresh s.heap addr bytes = true
      · left; rw [if_pos hf]; exact ⟨by omega, ht, room_iff.1 hf, rfl⟩
      · right; rw [if_neg hf]; exact ⟨by omega, ht, fun h => hf (room_iff.2 h), rfl⟩

theorem inv_allocated {s : Sys} (h : Inv s) {bytes : Int} {ty : MemType} {addr : Nat} (hb : 0 < bytes) (ht : ty ≠ .invalid)
    (hr : Room s addr bytes) : Inv (allocated s bytes ty addr) := by
  have hne := h.fresh_ne hb (room_iff.2 hr)
  have hnot : ∀ t n, (addr, n) ∉ (s.alloc t).ptrs := by
    intro t n hm
    exact hne _ ((h.mem_alloc hr.1).1 hm) rfl
  refine ⟨?_, ?_, ?_, ?_, ?_⟩
  · intro b hbm
    rcases List.mem_cons.1 hbm with rfl | hbm
    · exact ⟨Nat.pos_of_ne_zero hr.1, hb, ht⟩
    · exact h.pos b hbm
  · exact List.pairwise_cons.2 ⟨fun c hc => hr.2 c.ty c.addr c.bytes hc, h.disj⟩
  · intro t
    show (nz (setMgr s.alloc ty _ t).ptrs).Perm (entries (⟨addr, bytes, ty⟩ :: s.heap) t)
    rw [entries_cons]
    by_cases hte : t = ty
    · subst hte
      rw [setMgr_same, if_pos rfl]
      show (nz ((addr, bytes) :: (s.alloc t).ptrs.filter _)).Perm _
      rw [filter_ne_self (hnot t)]
      unfold nz
      rw [List.filter_cons_of_pos (by simpa using hr.1)]
      exact List.Perm.cons _ (h.allocP t)
    · rw [setMgr_ne _ _ hte, if_neg (fun e => hte e.symm)]
      exact h.allocP t
  · intro t
    show (zs (setMgr s.alloc ty _ t).ptrs).length = if 0 < s.failed t then 1 else 0
    rw [← h.allocZ t]
    by_cases hte : t = ty
    · subst hte
      rw [setMgr_same]
      show (zs ((addr, bytes) :: (s.alloc t).ptrs.filter _)).length = _
      rw [filter_ne_self (hnot t)]
      unfold zs
      rw [List.filter_cons_of_neg (by simpa using hr.1)]
    · rw [setMgr_ne _ _ hte]
  · intro t
    have := h.cnt t
    show (setMgr s.alloc ty _ t).ins - (setMgr s.alloc ty _ t).era = ((List.countP _ (⟨addr, bytes, ty⟩ :: s.heap) : Nat) : Int) + _
    unfold liveCount at this
    rw [List.countP_cons]
    by_cases hte : t = ty
    · subst hte
      rw [setMgr_same]
      simp only [Mgr.register, beq_self_eq_true, if_true, Nat.cast_add, Nat.cast_one]
      show _ = _ + (s.failed t : Int)
      omega
    · rw [setMgr_ne _ _ hte]
      have : (ty == t) = false := by simp; exact fun e => hte e.symm
      simp only [this, Bool.false_eq_true, if_false, Nat.add_zero]
      show _ = _ + (s.failed t : Int)
      omega

theorem nz_register_zero (m : Mgr) (n : Int) : nz (m.register 0 n).ptrs = nz m.ptrs := by
  simp only [Mgr.register, nz]
  rw [List.filter_cons_of_neg (by simp), List.filter_filter]
  apply List.filter_congr
  intro x _; simp

theorem zs_register_zero (m : Mgr) (n : Int) : (zs (m.register 0 n).ptrs).length = 1 := by
  simp only [Mgr.register, zs]
  rw [List.filter_cons_of_pos (by simp), List.filter_filter]
  have : (m.ptrs.filter (fun a => a.1 == 0 && a.1 != 0)) = [] := by
    rw [List.filter_eq_nil_iff]; rintro ⟨a, b⟩ _; simp
  simp [this]

theorem inv_notAllocated {s : Sys} (h : Inv s) {bytes : Int} {ty : MemType} : Inv (notAllocated s bytes ty) := by
  refine ⟨h.pos, h.disj, ?_, ?_, ?_⟩
  · intro t
    show (nz (setMgr s.alloc ty _ t).ptrs).Perm (entries s.heap t)
    by_cases hte : t = ty
    · subst hte; rw [setMgr_same, nz_register_zero]; exact h.allocP t
    · rw [setMgr_ne _ _ hte]; exact h.allocP t
  · intro t
    show (zs (setMgr s.alloc ty _ t).ptrs).length = if 0 < (if t = ty then s.failed t + 1 else s.failed t) then 1 else 0
    by_cases hte : t = ty
    · subst hte; rw [setMgr_same, zs_register_zero]; simp
    · rw [setMgr_ne _ _ hte, if_neg hte]; exact h.allocZ t
  · intro t
    have := h.cnt t
    show (setMgr s.alloc ty _ t).ins - (setMgr s.alloc ty _ t).era =
      (liveCount s t : Int) + ((if t = ty then s.failed t + 1 else s.failed t : Nat) : Int)
    by_cases hte : t = ty
    · subst hte; rw [setMgr_same]; simp only [Mgr.register, if_true]; push_cast; omega
    · rw [setMgr_ne _ _ hte, if_neg hte]; exact this

theorem inv_register {s : Sys} (h : Inv s) (p : Nat) (n : Int) (ty : MemType) : Inv (registerMemory s p n ty) := by
  unfold registerMemory
  repeat' split
  all_goals first | exact h | exact ⟨h.pos, h.disj, h.allocP, h.allocZ, h.cnt⟩

theorem inv_deregister {s : Sys} (h : Inv s) (p : Nat) (ty : MemType) : Inv (deregisterMemory s p ty) := by
  unfold deregisterMemory
  split
  · exact h
  · exact ⟨h.pos, h.disj, h.allocP, h.allocZ, h.cnt⟩

theorem register_null (s : Sys) (n : Int) (ty : MemType) : registerMemory s 0 n ty = s := by simp [registerMemory]

/-- Registration of a newly allocated block. -/
theorem register_new {s : Sys} (h : Inv s) (hs : SInv s) {bytes : Int} {ty : MemType} {addr : Nat} (hb : 0 < bytes)
    (hr : Room s addr bytes) :
    registerMemory (allocated s bytes ty addr) addr bytes ty =
      { allocated s bytes ty addr with sizes := setMgr s.sizes ty ((s.sizes ty).register addr bytes) } ∧
    SInv (registerMemory (allocated s bytes ty addr) addr bytes ty) := by
  have hne := h.fresh_ne hb (room_iff.2 hr)
  have hnot : ∀ t n, (addr, n) ∉ (s.sizes t).ptrs := fun t n hm => hne _ (hs.mem_sizes.1 hm) rfl
  have hc : ((allocated s bytes ty addr).sizes ty).contains addr = false := by
    by_contra hc
    rw [Bool.not_eq_false, contains_iff] at hc
    obtain ⟨n, hn⟩ := hc
    exact hnot ty n hn
  have e : registerMemory (allocated s bytes ty addr) addr bytes ty =
      { allocated s bytes ty addr with sizes := setMgr s.sizes ty ((s.sizes ty).register addr bytes) } := by
    unfold registerMemory
    rw [if_neg hr.1, if_neg (by omega), hc]
    rfl
  refine ⟨e, ?_⟩
  rw [e]
  intro t
  show (setMgr s.sizes ty _ t).ptrs.Perm (entries (⟨addr, bytes, ty⟩ :: s.heap) t)
  rw [entries_cons]
  by_cases hte : t = ty
  · subst hte
    rw [setMgr_same, if_pos rfl]
    show ((addr, bytes) :: (s.sizes t).ptrs.filter _).Perm _
    rw [filter_ne_self (hnot t)]
    exact List.Perm.cons _ (hs t)
  · rw [setMgr_ne _ _ hte, if_neg (fun e => hte e.symm)]
    exact hs t

theorem inv_safeAllocate {s : Sys} (h : Inv s) (n : Int) (esz : Nat) (ty : MemType) (addr : Nat) :
    Inv (safeAllocate s n esz ty addr).2 := by
  unfold safeAllocate
  rcases allocate_cases s (n * esz) ty addr with ⟨e, -⟩ | ⟨hb, ht, hr, e⟩ | ⟨hb, ht, hr, e⟩ <;> rw [e]
  · exact inv_register h 0 (n * esz) ty
  · exact inv_register (inv_allocated h hb ht hr) addr (n * esz) ty
  · exact inv_register (inv_notAllocated h) 0 (n * esz) ty

theorem sinv_safeAllocate {s : Sys} (h : Inv s) (hs : SInv s) (n : Int) (esz : Nat) (ty : MemType) (addr : Nat) :
    SInv (safeAllocate s n esz ty addr).2 := by
  unfold safeAllocate
  rcases allocate_cases s (n * esz) ty addr with ⟨e, -⟩ | ⟨hb, ht, hr, e⟩ | ⟨hb, ht, hr, e⟩ <;> rw [e]
  · show SInv (registerMemory s 0 (n * esz) ty); rw [register_null]; exact hs
  · exact (register_new h hs hb hr).2
  · show SInv (registerMemory (notAllocated s (n * esz) ty) 0 (n * esz) ty); rw [register_null]; exact hs

/-! ### deallocate -/

/-- The state after freeing a live block. -/
def freed (s : Sys) (p : Nat) (ty : MemType) : Sys :=
  { s with alloc := setMgr s.alloc ty ((s.alloc ty).deregister p),
           heap := s.heap.filter (fun b => !(b.addr == p && b.ty == ty)) }

theorem deallocate_cases {s : Sys} (h : Inv s) (p : Nat) (ty : MemType) :
    (deallocate s p ty = .ok s ∧ ∀ n, ¬ Live s ty p n) ∨
    (∃ n, Live s ty p n ∧ deallocate s p ty = .ok (freed s p ty)) := by
  unfold deallocate
  by_cases hp : p = 0
  · left
    rw [if_pos hp]
    refine ⟨rfl, fun n hn => ?_⟩
    have := (h.pos _ hn).1
    simp only at this
    omega
  · rw [if_neg hp]
    by_cases hc : (s.alloc ty).contains p = true
    · right
      obtain ⟨n, hn⟩ := (contains_iff _ _).1 hc
      have hl := (h.mem_alloc hp).1 hn
      have ht := (h.pos _ hl).2.2
      refine ⟨n, hl, ?_⟩
      have hany : s.heap.any (fun b => b.addr == p && b.ty == ty) = true := by
        rw [List.any_eq_true]; exact ⟨_, hl, by simp⟩
      simp only at ht
      simp [hc, ht, backendFree, hany, freed]
    · left
      rw [Bool.not_eq_true] at hc
      refine ⟨by simp [hc], fun n hn => ?_⟩
      have : (s.alloc ty).contains p = true := (contains_iff _ _).2 ⟨n, (h.mem_alloc hp).2 hn⟩
      rw [hc] at this; simp at this

theorem entries_freed (heap : List Block) (p : Nat) (ty t : MemType) :
    entries (heap.filter (fun b => !(b.addr == p && b.ty == ty))) t =
      if t = ty then (entries heap t).filter (fun e => e.1 != p) else entries heap t := by
  induction heap with
  | nil => simp [entries]
  | cons b l ih =>
    by_cases h3 : t = ty
    · subst h3
      rw [if_pos rfl] at ih ⊢
      by_cases h2 : b.ty = t
      · by_cases h1 : b.addr = p
        · rw [List.filter_cons_of_neg (by simp [h1, h2]), ih, entries_cons, if_pos h2,
            List.filter_cons_of_neg (by simp [h1])]
        · rw [List.filter_cons_of_pos (by simp [h1]), entries_cons, if_pos h2, ih, entries_cons, if_pos h2,
            List.filter_cons_of_pos (by simp [h1])]
      · rw [List.filter_cons_of_pos (by simp [h2]), entries_cons, if_neg h2, ih, entries_cons, if_neg h2]
    · rw [if_neg h3] at ih ⊢
      by_cases h4 : b.addr = p ∧ b.ty = ty
      · rw [List.filter_cons_of_neg (by simp [h4.1, h4.2]), ih, entries_cons, if_neg (fun e => h3 (e.symm.trans h4.2))]
      · have : (!(b.addr == p && b.ty == ty)) = true := by
          by_contra hc
          simp at hc; exact h4 hc
        rw [List.filter_cons_of_pos (by exact this), entries_cons, ih, entries_cons]

theorem nz_filter_comm (l : List (Nat × Int)) (p : Nat) :
    nz (l.filter (fun e => e.1 != p)) = (nz l).filter (fun e => e.1 != p) := by
  simp only [nz, List.filter_filter]
  apply List.filter_congr
  intro x _; rw [Bool.and_comm]

theorem zs_filter (l : List (Nat × Int)) (p : Nat) (hp : p ≠ 0) : zs (l.filter (fun e => e.1 != p)) = zs l := by
  simp only [zs, List.filter_filter]
  apply List.filter_congr
  intro x _
  by_cases hx : x.1 = 0
  · simp [hx]; omega
  · simp [hx]

theorem filter_key_length {l : List (Nat × Int)} {p : Nat} {n : Int} (hm : (p, n) ∈ l) (hnd : (l.map Prod.fst).Nodup) :
    (l.filter (fun e => e.1 != p)).length + 1 = l.length := by
  induction l with
  | nil => simp at hm
  | cons a l ih =>
    simp only [List.map_cons, List.nodup_cons, List.mem_map, not_exists, not_and] at hnd
    rcases List.mem_cons.1 hm with rfl | hm
    · have : l.filter (fun e => e.1 != p) = l := by
        rw [List.filter_eq_self]
        intro e he
        simp only [bne_iff_ne]
        exact hnd.1 e he
      simp [this]
    · have hap : a.1 ≠ p := fun e => hnd.1 _ hm e.symm
      rw [List.filter_cons_of_pos (by simpa using hap)]
      simp only [List.length_cons]
      rw [ih hm hnd.2]

theorem Inv.entries_nodup {s : Sys} (h : Inv s) (ty : MemType) : ((entries s.heap ty).map Prod.fst).Nodup := by
  have hd := h.disj
  have hp := h.pos
  revert hd hp
  generalize s.heap = l
  intro hd hp
  induction l with
  | nil => simp [entries]
  | cons b l ih =>
    obtain ⟨h1, h2⟩ := List.pairwise_cons.1 hd
    have ih := ih h2 (fun c hc => hp c (List.mem_cons_of_mem _ hc))
    rw [entries_cons]
    split
    · rw [List.map_cons, List.nodup_cons]
      refine ⟨?_, ih⟩
      intro hm
      obtain ⟨⟨q, n⟩, he, hq⟩ := List.mem_map.1 hm
      have he := mem_entries.1 he
      simp only at hq
      have g1 := h1 _ he
      have g2 := hp _ (List.mem_cons_of_mem _ he)
      have g3 := hp b (by simp)
      simp only at g1 g2
      omega
    · exact ih

theorem inv_freed {s : Sys} (h : Inv s) {p : Nat} {ty : MemType} {n : Int} (hl : Live s ty p n) : Inv (freed s p ty) := by
  have hp : p ≠ 0 := by have := (h.pos _ hl).1; simp only at this; omega
  refine ⟨?_, ?_, ?_, ?_, ?_⟩
  · intro b hb; exact h.pos b (List.mem_filter.1 hb).1
  · exact h.disj.sublist List.filter_sublist
  · intro t
    show (nz (setMgr s.alloc ty _ t).ptrs).Perm (entries (s.heap.filter _) t)
    rw [entries_freed]
    by_cases hte : t = ty
    · subst hte
      rw [setMgr_same, if_pos rfl]
      show (nz ((s.alloc t).ptrs.filter _)).Perm _
      rw [nz_filter_comm]
      exact (h.allocP t).filter _
    · rw [setMgr_ne _ _ hte, if_neg hte]; exact h.allocP t
  · intro t
    show (zs (setMgr s.alloc ty _ t).ptrs).length = if 0 < s.failed t then 1 else 0
    rw [← h.allocZ t]
    by_cases hte : t = ty
    · subst hte
      rw [setMgr_same]
      show (zs ((s.alloc t).ptrs.filter _)).length = _
      rw [zs_filter _ _ hp]
    · rw [setMgr_ne _ _ hte]
  · intro t
    have hc := h.cnt t
    unfold liveCount at *
    rw [← length_entries] at *
    show (setMgr s.alloc ty _ t).ins - (setMgr s.alloc ty _ t).era = ((entries (s.heap.filter _) t).length : Int) + (s.failed t : Int)
    rw [entries_freed]
    by_cases hte : t = ty
    · subst hte
      rw [setMgr_same, if_pos rfl]
      have := filter_key_length (mem_entries.2 hl) (h.entries_nodup t)
      simp only [Mgr.deregister]
      omega
    · rw [setMgr_ne _ _ hte, if_neg hte]; exact hc

theorem live_congr {s s' : Sys} (h : s'.heap = s.heap) (ty : MemType) (p : Nat) (n : Int) : Live s' ty p n ↔ Live s ty p n := by
  unfold Live; rw [h]

theorem deregister_heap (s : Sys) (p : Nat) (ty : MemType) : (deregisterMemory s p ty).heap = s.heap ∧
    (deregisterMemory s p ty).mem = s.mem ∧ (deregisterMemory s p ty).alloc = s.alloc ∧
    (deregisterMemory s p ty).failed = s.failed := by
  unfold deregisterMemory; split <;> exact ⟨rfl, rfl, rfl, rfl⟩

/-- What the allocators' `deallocate` does. -/
theorem safeDeallocate_cases {s : Sys} (h : Inv s) (p : Nat) (ty : MemType) :
    (safeDeallocate s p ty = .ok (deregisterMemory s p ty) ∧ ∀ n, ¬ Live s ty p n) ∨
    (∃ n, Live s ty p n ∧ safeDeallocate s p ty = .ok (freed (deregisterMemory s p ty) p ty)) := by
  have hh := (deregister_heap s p ty).1
  rcases deallocate_cases (inv_deregister h p ty) p ty with ⟨e, hn⟩ | ⟨n, hl, e⟩
  · left; exact ⟨e, fun n hl => hn n ((live_congr hh ty p n).2 hl)⟩
  · right; exact ⟨n, (live_congr hh ty p n).1 hl, e⟩

theorem inv_safeDeallocate {s : Sys} (h : Inv s) (p : Nat) (ty : MemType) :
    ∃ s', safeDeallocate s p ty = .ok s' ∧ Inv s' ∧ s'.failed = s.failed ∧ s'.mem = s.mem ∧
      (∀ t q n, Live s' t q n ↔ Live s t q n ∧ ¬ (q = p ∧ t = ty)) := by
  have hdh := deregister_heap s p ty
  rcases safeDeallocate_cases h p ty with ⟨e, hn⟩ | ⟨n, hl, e⟩
  · refine ⟨_, e, inv_deregister h p ty, hdh.2.2.2, hdh.2.1, fun t q n => ?_⟩
    rw [live_congr hdh.1]
    refine ⟨fun hq => ⟨hq, ?_⟩, fun hq => hq.1⟩
    rintro ⟨rfl, rfl⟩; exact hn n hq
  · refine ⟨_, e, inv_freed (inv_deregister h p ty) ((live_congr hdh.1 ty p n).2 hl), hdh.2.2.2, hdh.2.1, fun t q n => ?_⟩
    unfold Live freed
    rw [List.mem_filter, hdh.1]
    simp only [Bool.not_eq_true', Bool.and_eq_false_iff, beq_eq_false_iff_ne]
    tauto

theorem sinv_safeDeallocate {s : Sys} (h : Inv s) (hs : SInv s) (p : Nat) (ty : MemType) {s' : Sys}
    (e : safeDeallocate s p ty = .ok s') : SInv s' := by
  rcases safeDeallocate_cases h p ty with ⟨e', hn⟩ | ⟨n, hl, e'⟩
  · rw [e] at e'; simp at e'; rw [e']
    have : (s.sizes ty).contains p = false := by
      by_contra hc
      rw [Bool.not_eq_false, contains_iff] at hc
      obtain ⟨n, hm⟩ := hc
      exact hn n (hs.mem_sizes.1 hm)
    unfold deregisterMemory
    simp only [this, Bool.not_false, if_true]
    exact hs
  · rw [e] at e'; simp at e'; rw [e']
    have hc : (s.sizes ty).contains p = true := (contains_iff _ _).2 ⟨n, hs.mem_sizes.2 hl⟩
    intro t
    show (((deregisterMemory s p ty).sizes) t).ptrs.Perm (entries ((deregisterMemory s p ty).heap.filter _) t)
    rw [entries_freed, (deregister_heap s p ty).1]
    unfold deregisterMemory
    simp only [hc, Bool.not_true, Bool.false_eq_true, if_false]
    by_cases hte : t = ty
    · subst hte
      rw [setMgr_same, if_pos rfl]
      exact (hs t).filter _
    · rw [setMgr_ne _ _ hte, if_neg hte]; exact hs t

end Stdgpu.Memory
