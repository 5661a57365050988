import Verif.Spec.Objects
import Verif.Proof.Memory2
import Verif.Proof.Memory3
/-! Lemmas for C65 and C66. -/
namespace Stdgpu.Objects
open Stdgpu.Memory Stdgpu.Spec
open Stdgpu.Vector (Fault)

theorem _root_.Stdgpu.Spec.Apart.symm {b c : Block} (h : Apart b c) : Apart c b := Or.symm h

theorem _root_.Stdgpu.Spec.Apart.not {b c : Block} (h : Apart b c) {a : Nat} (h1 : InBlk b a) (h2 : InBlk c a) : False := by
  unfold Apart InBlk at *; omega

/-- From `s` to `s'` the blocks `zs` (zeroed) and `ws` were allocated. -/
structure Grow (s s' : Sys) (zs ws : List Block) : Prop where
  inv : Inv s'
  sinv : SInv s'
  failed : s'.failed = s.failed
  heap : s'.heap.Perm (zs ++ ws ++ s.heap)
  mem : ∀ b ∈ s.heap, ∀ a, InBlk b a → s'.mem a = s.mem a
  zero : ∀ b ∈ zs, ∀ a, InBlk b a → s'.mem a = 0

theorem Grow.refl {s : Sys} (h : Inv s) (hs : SInv s) : Grow s s [] [] :=
  ⟨h, hs, rfl, List.Perm.refl _, fun _ _ _ _ => rfl, by simp⟩

theorem Grow.trans {s s1 s2 : Sys} {zs ws zs' ws' : List Block} (h : Grow s s1 zs ws) (h' : Grow s1 s2 zs' ws') :
    Grow s s2 (zs ++ zs') (ws ++ ws') := by
  refine ⟨h'.inv, h'.sinv, h'.failed.trans h.failed, ?_, ?_, ?_⟩
  · refine h'.heap.trans ((List.Perm.append_left _ h.heap).trans ?_)
    simp only [List.perm_iff_count, List.count_append]
    intro b; omega
  · intro b hb a ha
    rw [h'.mem b (h.heap.mem_iff.2 (by simp [hb])) a ha, h.mem b hb a ha]
  · intro b hb a ha
    rcases List.mem_append.1 hb with hb | hb
    · rw [h'.mem b (h.heap.mem_iff.2 (by simp [hb])) a ha, h.zero b hb a ha]
    · exact h'.zero b hb a ha

theorem pairwise_perm {l l' : List Block} (h : l.Pairwise Apart) (hp : l.Perm l') : l'.Pairwise Apart :=
  (hp.pairwise_iff (fun h => h.symm)).1 h

theorem Inv.apart {s : Sys} (h : Inv s) {l : List Block} (hp : s.heap.Perm l) : l.Pairwise Apart := pairwise_perm h.disj hp

theorem Inv.nodup_heap {s : Sys} (h : Inv s) : s.heap.Nodup := by
  have : ∀ l : List Block, (∀ b ∈ l, 0 < b.addr ∧ 0 < b.bytes ∧ b.ty ≠ .invalid) → l.Pairwise Apart → l.Nodup := by
    intro l
    induction l with
    | nil => simp
    | cons b l ih =>
      intro hp hd
      rw [List.pairwise_cons] at hd
      refine List.nodup_cons.2 ⟨fun hm => ?_, ih (fun c hc => hp c (by simp [hc])) hd.2⟩
      have := hd.1 b hm
      have := hp b (by simp)
      unfold Apart at *; omega
  exact this _ h.pos h.disj

theorem alloc_room {E : Env} {s : Sys} (h : Inv s) (hs : SInv s) (n esz : Nat) (hn : 0 < n) (he : 0 < esz)
    (hr : Room s (E.pick s ((n : Int) * esz)) ((n : Int) * esz)) :
    ∃ p s', alloc E s n esz = (p, s') ∧ Grow s s' [] [arrayBlock p n esz] := by
  have hpos : 0 < (n : Int) * esz := Int.mul_pos (by omega) (by omega)
  obtain ⟨s1, e, i1, i2, hm, hf, hh⟩ := safeAllocate_room (n := n) (esz := esz) h hs rfl hpos (by simp : MemType.device ≠ .invalid)
    hr
  refine ⟨_, s1, e, i1, i2, hf, ?_, ?_, by simp⟩
  · rw [hh]; exact List.Perm.refl _
  · intro b _ a _; rw [hm]

theorem alloc_grow {E : Env} (hE : GoodEnv E) {s : Sys} (h : Inv s) (hs : SInv s) (n esz : Nat) (hn : 0 < n) (he : 0 < esz) :
    ∃ p s', alloc E s n esz = (p, s') ∧ Grow s s' [] [arrayBlock p n esz] :=
  alloc_room h hs n esz hn he (hE.room s _ (Int.mul_pos (by omega) (by omega)))

theorem allocZero_room {E : Env} (ho : ∀ n, (E.ord n).Perm (List.range n)) {s : Sys} (h : Inv s) (hs : SInv s) (n esz : Nat)
    (hn : 0 < n) (he : 0 < esz) (hr : Room s (E.pick s ((n : Int) * esz)) ((n : Int) * esz)) : ∃ p s', allocZero E s n esz = .ok (p, s') ∧ Grow s s' [arrayBlock p n esz] [] := by
  have hpos : 0 < (n : Int) * esz := Int.mul_pos (by omega) (by omega)
  obtain ⟨s', e, i1, i2, hf, hh, hz, hm⟩ := allocateFilled_spec h hs n esz hn he (fun _ => 0) .device (by simp) _ hr
    E.ord ho
  refine ⟨_, s', e, i1, i2, hf, ?_, ?_, ?_⟩
  · rw [hh]; exact List.Perm.refl _
  · intro b hb a ha
    refine hm a ?_
    have := hr.2 b.ty b.addr b.bytes hb
    unfold InBlk at ha
    have : (((E.pick s ((n : Int) * esz) + n * esz : Nat)) : Int) = E.pick s ((n : Int) * esz) + n * esz := by push_cast; rfl
    omega
  · intro b hb a ha
    simp only [List.mem_singleton] at hb
    subst hb
    generalize E.pick s ((n : Int) * esz) = p at *
    obtain ⟨h1, h2⟩ := ha
    simp only [arrayBlock] at h1 h2
    have h2' : a < p + n * esz := by exact_mod_cast h2
    -- byte `a` is byte `(a - p) % esz` of element `(a - p) / esz`
    have hi : (a - p) / esz < n := by
      rw [Nat.div_lt_iff_lt_mul he]; omega
    have hj : (a - p) % esz < esz := Nat.mod_lt _ he
    have h3 := congrArg (fun l => l[(a - p) / esz]?) hz
    simp only [arrayAt, List.getElem?_map, List.getElem?_range hi, Option.map_some, List.getElem?_replicate, hi, if_true,
      Option.some.injEq] at h3
    have h4 := congrArg (fun l => l[(a - p) % esz]?) h3
    simp only [elem, bytesOf, List.getElem?_map, List.getElem?_range hj, Option.map_some, Option.some.injEq] at h4
    have h5 : p + (a - p) / esz * esz + (a - p) % esz = a := by
      have := Nat.div_add_mod (a - p) esz
      rw [Nat.mul_comm] at this; omega
    rw [h5] at h4
    exact h4

theorem allocZero_grow {E : Env} (hE : GoodEnv E) {s : Sys} (h : Inv s) (hs : SInv s) (n esz : Nat) (hn : 0 < n)
    (he : 0 < esz) : ∃ p s', allocZero E s n esz = .ok (p, s') ∧ Grow s s' [arrayBlock p n esz] [] :=
  allocZero_room hE.ord h hs n esz hn he (hE.room s _ (Int.mul_pos (by omega) (by omega)))

theorem numBlocks (n : Nat) : Bitset.numberBitBlocks 32 n = (n + 31) / 32 := by
  unfold Bitset.numberBitBlocks Bitset.divUp; split <;> omega

theorem createAtomic_grow {E : Env} (hE : GoodEnv E) {s : Sys} (h : Inv s) (hs : SInv s) :
    ∃ o s', createAtomic E s = .ok (o, s') ∧ Grow s s' (atomicBlocks o) [] := by
  obtain ⟨p, s', e, g⟩ := allocZero_grow hE h hs 1 4 (by omega) (by omega)
  exact ⟨⟨p⟩, s', by unfold createAtomic; rw [e]; rfl, g⟩

theorem createBitset_grow {E : Env} (hE : GoodEnv E) {s : Sys} (h : Inv s) (hs : SInv s) (n : Nat) (hn : 0 < n) :
    ∃ o s', createBitset E s n = .ok (o, s') ∧ Grow s s' (bitsetBlocks n o) [] := by
  obtain ⟨p, s', e, g⟩ := allocZero_grow hE h hs (Bitset.numberBitBlocks 32 n) 4 (by rw [numBlocks]; omega) (by omega)
  refine ⟨⟨p, n⟩, s', by unfold createBitset; rw [e]; rfl, ?_⟩
  have : bitsetBlocks n ⟨p, n⟩ = [arrayBlock p (Bitset.numberBitBlocks 32 n) 4] := by
    simp [bitsetBlocks, arrayBlock, bitBytes, numBlocks]
  rw [this]; exact g

theorem createMutex_grow {E : Env} (hE : GoodEnv E) {s : Sys} (h : Inv s) (hs : SInv s) (n : Nat) (hn : 0 < n) :
    ∃ o s', createMutex E s n = .ok (o, s') ∧ Grow s s' (bitsetBlocks n o.bits) [] := by
  obtain ⟨b, s', e, g⟩ := createBitset_grow hE h hs n hn
  exact ⟨⟨b⟩, s', by unfold createMutex; rw [e]; rfl, g⟩

theorem createVector_grow {E : Env} (hE : GoodEnv E) {s : Sys} (h : Inv s) (hs : SInv s) (n esz : Nat) (hn : 0 < n)
    (he : 0 < esz) : ∃ o s', createVector E s n esz = .ok (o, s') ∧
      Grow s s' (bitsetBlocks n o.locks.bits ++ bitsetBlocks n o.occupied ++ atomicBlocks o.size) [arrayBlock o.data n esz] := by
  obtain ⟨l, s1, e1, g1⟩ := createMutex_grow hE h hs n hn
  obtain ⟨o, s2, e2, g2⟩ := createBitset_grow hE g1.inv g1.sinv n hn
  obtain ⟨z, s3, e3, g3⟩ := createAtomic_grow hE g2.inv g2.sinv
  obtain ⟨d, s4, e4, g4⟩ := alloc_grow hE g3.inv g3.sinv n esz hn he
  refine ⟨⟨l, o, z, d⟩, s4, ?_, ?_⟩
  · unfold createVector
    rw [e1]; simp only [bind, Except.bind]; rw [e2]; simp only; rw [e3]; simp only; rw [e4]; rfl
  · simpa using ((g1.trans g2).trans g3).trans g4

theorem createDeque_grow {E : Env} (hE : GoodEnv E) {s : Sys} (h : Inv s) (hs : SInv s) (n esz : Nat) (hn : 0 < n)
    (he : 0 < esz) : ∃ o s', createDeque E s n esz = .ok (o, s') ∧
      Grow s s' (bitsetBlocks n o.locks.bits ++ bitsetBlocks n o.occupied ++ atomicBlocks o.size ++ atomicBlocks o.begin_ ++
        atomicBlocks o.end_) [arrayBlock o.data n esz, arrayBlock o.rangeIndices n E.isz] := by
  obtain ⟨l, s1, e1, g1⟩ := createMutex_grow hE h hs n hn
  obtain ⟨o, s2, e2, g2⟩ := createBitset_grow hE g1.inv g1.sinv n hn
  obtain ⟨z, s3, e3, g3⟩ := createAtomic_grow hE g2.inv g2.sinv
  obtain ⟨b, s4, e4, g4⟩ := createAtomic_grow hE g3.inv g3.sinv
  obtain ⟨f, s5, e5, g5⟩ := createAtomic_grow hE g4.inv g4.sinv
  obtain ⟨d, s6, e6, g6⟩ := alloc_grow hE g5.inv g5.sinv n esz hn he
  obtain ⟨r, s7, e7, g7⟩ := alloc_grow hE g6.inv g6.sinv n E.isz hn hE.isz
  refine ⟨⟨l, o, z, b, f, d, r⟩, s7, ?_, ?_⟩
  · unfold createDeque
    rw [e1]; simp only [bind, Except.bind]; rw [e2]; simp only; rw [e3]; simp only; rw [e4]; simp only; rw [e5]; simp only
    rw [e6]; simp only; rw [e7]; rfl
  · simpa using (((((g1.trans g2).trans g3).trans g4).trans g5).trans g6).trans g7

theorem Grow.overwrite {s s' : Sys} {zs ws : List Block} (g : Grow s s' zs ws) {p bytes : Nat}
    (hb : (⟨p, bytes, .device⟩ : Block) ∈ ws) (f : Nat → BitVec 8) :
    ∃ s'', Objects.overwrite s' p bytes f = .ok s'' ∧ Grow s s'' zs ws := by
  have hm : (⟨p, bytes, .device⟩ : Block) ∈ s'.heap := g.heap.mem_iff.2 (by simp [hb])
  have hc : covers s'.heap .device p bytes = true := by
    unfold covers
    rw [List.any_eq_true]
    exact ⟨_, hm, by simp⟩
  refine ⟨_, by unfold Objects.overwrite; rw [if_pos hc], ?_⟩
  have hpw := Inv.apart g.inv g.heap
  rw [List.append_assoc, List.pairwise_append] at hpw
  obtain ⟨-, h2, h3⟩ := hpw
  rw [List.pairwise_append] at h2
  obtain ⟨-, -, h4⟩ := h2
  have out : ∀ b : Block, Apart ⟨p, bytes, .device⟩ b → ∀ a, InBlk b a → ¬ (p ≤ a ∧ a < p + bytes) := by
    intro b hap a ha hc
    refine hap.not (a := a) ⟨hc.1, ?_⟩ ha
    show (a : Int) < p + bytes
    exact_mod_cast hc.2
  refine ⟨⟨g.inv.pos, g.inv.disj, g.inv.allocP, g.inv.allocZ, g.inv.cnt⟩, g.sinv, g.failed, g.heap, ?_, ?_⟩
  · intro b hb' a ha
    show (if p ≤ a ∧ a < p + bytes then _ else s'.mem a) = _
    rw [if_neg (out b (h4 _ hb _ hb') a ha)]
    exact g.mem b hb' a ha
  · intro b hb' a ha
    show (if p ≤ a ∧ a < p + bytes then _ else s'.mem a) = _
    rw [if_neg (out b (h3 _ hb' _ (by simp [hb])).symm a ha)]
    exact g.zero b hb' a ha

theorem Grow.overwriteArray {s s' : Sys} {zs ws : List Block} (g : Grow s s' zs ws) {p n esz : Nat} (hn : 0 < n) (he : 0 < esz)
    (hb : (⟨p, (n : Int) * esz, .device⟩ : Block) ∈ ws) (f : Nat → BitVec 8) :
    ∃ s'', Objects.overwriteArray s' p esz f = .ok s'' ∧ Grow s s'' zs ws := by
  have hz : arraySize s' p esz = n := sizeOf_live g.inv g.sinv (ty := .device) he (g.heap.mem_iff.2 (by simp [hb]))
  have := g.overwrite (p := p) (bytes := n * esz) (by exact_mod_cast hb) f
  unfold Objects.overwriteArray
  rw [hz, if_neg (by omega)]
  exact this

theorem createUnordered_grow {E : Env} (hE : GoodEnv E) {s : Sys} (h : Inv s) (hs : SInv s) (bc ec esz : Nat) (hb : 0 < bc)
    (hc : 0 < ec) (he : 0 < esz) : ∃ o s', createUnordered E s bc ec esz = .ok (o, s') ∧
      Grow s s' (zeroBlocks E.isz (.unordered bc ec esz) (.unordered o)) (rawBlocks E.isz (.unordered bc ec esz) (.unordered o)) := by
  have ht : 0 < bc + ec := by omega
  obtain ⟨o, s1, e1, g1⟩ := createBitset_grow hE h hs (bc + ec) ht
  obtain ⟨c, s2, e2, g2⟩ := createAtomic_grow hE g1.inv g1.sinv
  obtain ⟨x, s3, e3, g3⟩ := createVector_grow hE g2.inv g2.sinv ec E.isz hc hE.isz
  obtain ⟨l, s4, e4, g4⟩ := createMutex_grow hE g3.inv g3.sinv (bc + ec) ht
  obtain ⟨r, s5, e5, g5⟩ := createAtomic_grow hE g4.inv g4.sinv
  obtain ⟨v, s6, e6, g6⟩ := alloc_grow hE g5.inv g5.sinv (bc + ec) esz ht he
  obtain ⟨f, s7, e7, g7⟩ := allocZero_grow hE g6.inv g6.sinv (bc + ec) E.isz ht hE.isz
  obtain ⟨i, s8, e8, g8⟩ := alloc_grow hE g7.inv g7.sinv (bc + ec) E.isz ht hE.isz
  have g := ((((((g1.trans g2).trans g3).trans g4).trans g5).trans g6).trans g7).trans g8
  -- the excess list's occupied bits and size are overwritten
  have g' : Grow s s8 (zeroBlocks E.isz (.unordered bc ec esz) (.unordered ⟨bc, o, c, x, l, r, v, f, i⟩))
      (rawBlocks E.isz (.unordered bc ec esz) (.unordered ⟨bc, o, c, x, l, r, v, f, i⟩)) := by
    refine ⟨g.inv, g.sinv, g.failed, g.heap.trans ?_, g.mem, ?_⟩
    · simp only [zeroBlocks, rawBlocks, List.perm_iff_count, List.count_append, List.count_cons, List.count_nil]
      intro b; omega
    · intro b hb a ha
      refine g.zero b ?_ a ha
      simp only [zeroBlocks, List.mem_append] at hb ⊢
      tauto
  obtain ⟨s9, e9, g9⟩ := g'.overwriteArray (p := x.data) (n := ec) (esz := E.isz) hc hE.isz (by simp [rawBlocks, arrayBlock])
    E.iota
  obtain ⟨s10, e10, g10⟩ := g9.overwriteArray (p := x.occupied.bits) (n := Bitset.numberBitBlocks 32 ec) (esz := 4)
    (by rw [numBlocks]; omega) (by omega) (by simp [rawBlocks, bitsetBlocks, bitBytes, numBlocks]) E.iota
  have hsz : x.size.value ≠ 0 := by
    have := (g10.inv.pos ⟨x.size.value, 4, .device⟩ (g10.heap.mem_iff.2 (by simp [rawBlocks, atomicBlocks]))).1
    simp at this; omega
  obtain ⟨s11, e11, g11⟩ := g10.overwrite (p := x.size.value) (bytes := 4) (by simp [rawBlocks, atomicBlocks]) E.iota
  have e11 : storeAtomic s10 x.size.value E.iota = .ok s11 := by unfold storeAtomic; rw [if_neg hsz]; exact e11
  refine ⟨⟨bc, o, c, x, l, r, v, f, i⟩, s11, ?_, g11⟩
  unfold createUnordered clearIota
  simp only [e1, bind, Except.bind, e2, e3, e4, e5, e6, e7, e8, e9, e10, e11]
  rfl

/-! ### Destruction -/

/-- From `s` to `s'` the blocks `bs` were freed. -/
structure Shrink (s s' : Sys) (bs : List Block) : Prop where
  inv : Inv s'
  sinv : SInv s'
  failed : s'.failed = s.failed
  mem : s'.mem = s.mem
  heap : s.heap.Perm (bs ++ s'.heap)

theorem Shrink.trans {s s1 s2 : Sys} {bs bs' : List Block} (h : Shrink s s1 bs) (h' : Shrink s1 s2 bs') :
    Shrink s s2 (bs ++ bs') :=
  ⟨h'.inv, h'.sinv, h'.failed.trans h.failed, h'.mem.trans h.mem, by
    rw [List.append_assoc]; exact h.heap.trans (List.Perm.append_left _ h'.heap)⟩

theorem free_one {s : Sys} (h : Inv s) (hs : SInv s) {p : Nat} {n : Int} (hl : (⟨p, n, .device⟩ : Block) ∈ s.heap) :
    ∃ s', safeDeallocate s p .device = .ok s' ∧ Shrink s s' [⟨p, n, .device⟩] := by
  obtain ⟨s', e, i1, hf, hm, hL⟩ := inv_safeDeallocate h p .device
  refine ⟨s', e, i1, sinv_safeDeallocate h hs p .device e, hf, hm, ?_⟩
  refine (List.perm_ext_iff_of_nodup (Inv.nodup_heap h) ?_).2 ?_
  · refine List.nodup_cons.2 ⟨fun hc => ?_, Inv.nodup_heap i1⟩
    exact ((hL .device p n).1 hc).2 ⟨rfl, rfl⟩
  · rintro ⟨q, m, ty⟩
    have := hL ty q m
    unfold Live at this
    simp only [List.cons_append, List.nil_append, List.mem_cons, Block.mk.injEq]
    rw [this]
    constructor
    · intro hq
      by_cases hc : q = p ∧ ty = .device
      · left
        obtain ⟨rfl, rfl⟩ := hc
        have := h.unique hq hl rfl
        simp only [Block.mk.injEq] at this
        simp [this.2.1]
      · exact .inr ⟨hq, hc⟩
    · rintro (⟨rfl, rfl, rfl⟩ | ⟨hq, -⟩)
      · exact hl
      · exact hq

/-- Deallocating something that is not a live block changes nothing. -/
theorem free_dead {s : Sys} (h : Inv s) (hs : SInv s) {p : Nat} (hl : ∀ n, (⟨p, n, .device⟩ : Block) ∉ s.heap) :
    safeDeallocate s p .device = .ok s := by
  have hd : deregisterMemory s p .device = s := by
    unfold deregisterMemory
    rw [if_pos]
    by_contra hc
    simp only [Bool.not_eq_true', Bool.not_eq_false] at hc
    obtain ⟨n, hn⟩ := (contains_iff _ _).1 hc
    exact hl n (hs.mem_sizes.1 hn)
  rcases safeDeallocate_cases h p .device with ⟨e, -⟩ | ⟨n, hl', -⟩
  · rw [e, hd]
  · exact absurd hl' (hl n)

theorem free_null {s : Sys} (h : Inv s) (hs : SInv s) : safeDeallocate s 0 .device = .ok s :=
  free_dead h hs (fun n hn => by have := (h.pos _ hn).1; simp at this)

theorem Shrink.sub {s s' : Sys} {bs : List Block} (h : Shrink s s' bs) {b : Block} {l : List Block} (hp : s.heap.Perm (bs ++ l)) :
    s'.heap.Perm l := (List.perm_append_left_iff bs).1 (h.heap.symm.trans hp)

/-- Free the blocks of a list one after another. -/
theorem shrink_atomic {s : Sys} (h : Inv s) (hs : SInv s) (o : AtomicObj) {l : List Block} (hp : s.heap.Perm (atomicBlocks o ++ l)) :
    ∃ s', destroyAtomic s o = .ok (⟨0⟩, s') ∧ Shrink s s' (atomicBlocks o) ∧ s'.heap.Perm l := by
  obtain ⟨s', e, g⟩ := free_one h hs (p := o.value) (n := 4) (hp.mem_iff.2 (by simp [atomicBlocks]))
  exact ⟨s', by unfold destroyAtomic; rw [e]; rfl, g, g.sub (b := ⟨0, 0, .device⟩) hp⟩

theorem shrink_bitset {s : Sys} (h : Inv s) (hs : SInv s) (n : Nat) (o : BitsetObj) {l : List Block}
    (hp : s.heap.Perm (bitsetBlocks n o ++ l)) :
    ∃ s', destroyBitset s o = .ok (⟨0, 0⟩, s') ∧ Shrink s s' (bitsetBlocks n o) ∧ s'.heap.Perm l := by
  obtain ⟨s', e, g⟩ := free_one h hs (p := o.bits) (n := bitBytes n) (hp.mem_iff.2 (by simp [bitsetBlocks]))
  exact ⟨s', by unfold destroyBitset; rw [e]; rfl, g, g.sub (b := ⟨0, 0, .device⟩) hp⟩

theorem shrink_mutex {s : Sys} (h : Inv s) (hs : SInv s) (n : Nat) (o : MutexObj) {l : List Block}
    (hp : s.heap.Perm (bitsetBlocks n o.bits ++ l)) :
    ∃ s', destroyMutex s o = .ok (⟨⟨0, 0⟩⟩, s') ∧ Shrink s s' (bitsetBlocks n o.bits) ∧ s'.heap.Perm l := by
  obtain ⟨s', e, g⟩ := shrink_bitset h hs n o.bits hp
  exact ⟨s', by unfold destroyMutex; rw [e]; rfl, g⟩

theorem shrink_array {s : Sys} (h : Inv s) (hs : SInv s) (p n esz : Nat) {l : List Block}
    (hp : s.heap.Perm (arrayBlock p n esz :: l)) :
    ∃ s', safeDeallocate s p .device = .ok s' ∧ Shrink s s' [arrayBlock p n esz] ∧ s'.heap.Perm l := by
  obtain ⟨s', e, g⟩ := free_one h hs (p := p) (n := (n : Int) * esz) (hp.mem_iff.2 (by simp [arrayBlock]))
  exact ⟨s', e, g, g.sub (b := ⟨0, 0, .device⟩) hp⟩

def nullVector : VectorObj := ⟨⟨⟨0, 0⟩⟩, ⟨0, 0⟩, ⟨0⟩, 0⟩

theorem shrink_vector {s : Sys} (h : Inv s) (hs : SInv s) (n esz : Nat) (o : VectorObj) {l : List Block}
    (hp : s.heap.Perm (arrayBlock o.data n esz :: (bitsetBlocks n o.locks.bits ++ (bitsetBlocks n o.occupied ++
      (atomicBlocks o.size ++ l))))) :
    ∃ s', destroyVector s o = .ok (nullVector, s') ∧ Inv s' ∧ SInv s' ∧ s'.failed = s.failed ∧ s'.mem = s.mem ∧ s'.heap.Perm l := by
  obtain ⟨s1, e1, g1, p1⟩ := shrink_array h hs _ _ _ hp
  obtain ⟨s2, e2, g2, p2⟩ := shrink_mutex g1.inv g1.sinv _ _ p1
  obtain ⟨s3, e3, g3, p3⟩ := shrink_bitset g2.inv g2.sinv _ _ p2
  obtain ⟨s4, e4, g4, p4⟩ := shrink_atomic g3.inv g3.sinv _ p3
  have g := ((g1.trans g2).trans g3).trans g4
  refine ⟨s4, ?_, g.inv, g.sinv, g.failed, g.mem, p4⟩
  unfold destroyVector
  simp only [e1, bind, Except.bind, e2, e3, e4]
  rfl

def nullDeque : DequeObj := ⟨⟨⟨0, 0⟩⟩, ⟨0, 0⟩, ⟨0⟩, ⟨0⟩, ⟨0⟩, 0, 0⟩

/-- The handle after destruction. -/
def destroyed : Obj → Obj
  | .atomic _ => .atomic ⟨0⟩
  | .bitset _ => .bitset ⟨0, 0⟩
  | .mutexArray _ => .mutexArray ⟨⟨0, 0⟩⟩
  | .vector _ => .vector nullVector
  | .deque _ => .deque nullDeque
  | .unordered o => .unordered ⟨0, ⟨0, 0⟩, ⟨0⟩, nullVector, ⟨⟨0, 0⟩⟩, ⟨0⟩, o.values, o.offsets, o.rangeIndices⟩

/-- The handle is of the kind. -/
def Fits : Kind → Obj → Prop
  | .atomic, .atomic _ => True
  | .bitset _, .bitset _ => True
  | .mutexArray _, .mutexArray _ => True
  | .vector _ _, .vector _ => True
  | .deque _ _, .deque _ => True
  | .unordered _ _ _, .unordered _ => True
  | _, _ => False

theorem create_grow {E : Env} (hE : GoodEnv E) {s : Sys} (h : Inv s) (hs : SInv s) (k : Kind) (hk : PosKind k) :
    ∃ o s', create E s k = .ok (o, s') ∧ Fits k o ∧ Grow s s' (zeroBlocks E.isz k o) (rawBlocks E.isz k o) := by
  cases k with
  | atomic =>
    obtain ⟨o, s', e, g⟩ := createAtomic_grow hE h hs
    exact ⟨.atomic o, s', by simp only [create, e, bind, Except.bind, pure, Except.pure], trivial, g⟩
  | bitset n =>
    obtain ⟨o, s', e, g⟩ := createBitset_grow hE h hs n hk
    exact ⟨.bitset o, s', by simp only [create, e, bind, Except.bind, pure, Except.pure], trivial, g⟩
  | mutexArray n =>
    obtain ⟨o, s', e, g⟩ := createMutex_grow hE h hs n hk
    exact ⟨.mutexArray o, s', by simp only [create, e, bind, Except.bind, pure, Except.pure], trivial, g⟩
  | vector n esz =>
    obtain ⟨o, s', e, g⟩ := createVector_grow hE h hs n esz hk.1 hk.2
    exact ⟨.vector o, s', by simp only [create, e, bind, Except.bind, pure, Except.pure], trivial, g⟩
  | deque n esz =>
    obtain ⟨o, s', e, g⟩ := createDeque_grow hE h hs n esz hk.1 hk.2
    exact ⟨.deque o, s', by simp only [create, e, bind, Except.bind, pure, Except.pure], trivial, g⟩
  | unordered bc ec esz =>
    obtain ⟨o, s', e, g⟩ := createUnordered_grow hE h hs bc ec esz hk.1 hk.2.1 hk.2.2
    exact ⟨.unordered o, s', by simp only [create, e, bind, Except.bind, pure, Except.pure], trivial, g⟩

/-- Destruction of an object that owns its blocks. -/
theorem destroy_owned {s : Sys} (h : Inv s) (hs : SInv s) (isz : Nat) (k : Kind) (o : Obj) (hk : Fits k o) {l : List Block}
    (hp : s.heap.Perm (blocks isz k o ++ l)) :
    ∃ s', destroy s o = .ok (destroyed o, s') ∧ Inv s' ∧ SInv s' ∧ s'.failed = s.failed ∧ s'.mem = s.mem ∧ s'.heap.Perm l := by
  cases k <;> cases o <;> try exact hk.elim
  · rename_i o
    obtain ⟨s', e, g, p⟩ := shrink_atomic h hs o (l := l) (by simpa [blocks, zeroBlocks, rawBlocks] using hp)
    exact ⟨s', by simp only [destroy, e, bind, Except.bind, pure, Except.pure, destroyed], g.inv, g.sinv, g.failed, g.mem, p⟩
  · rename_i n o
    obtain ⟨s', e, g, p⟩ := shrink_bitset h hs n o (l := l) (by simpa [blocks, zeroBlocks, rawBlocks] using hp)
    exact ⟨s', by simp only [destroy, e, bind, Except.bind, pure, Except.pure, destroyed], g.inv, g.sinv, g.failed, g.mem, p⟩
  · rename_i n o
    obtain ⟨s', e, g, p⟩ := shrink_mutex h hs n o (l := l) (by simpa [blocks, zeroBlocks, rawBlocks] using hp)
    exact ⟨s', by simp only [destroy, e, bind, Except.bind, pure, Except.pure, destroyed], g.inv, g.sinv, g.failed, g.mem, p⟩
  · rename_i n esz o
    obtain ⟨s', e, g⟩ := shrink_vector h hs n esz o (l := l) (hp.trans (by
      simp only [blocks, zeroBlocks, rawBlocks, List.perm_iff_count, List.count_append, List.count_cons, List.count_nil]
      intro b; omega))
    exact ⟨s', by simp only [destroy, e, bind, Except.bind, pure, Except.pure, destroyed], g⟩
  · rename_i n esz d
    have hp' : s.heap.Perm (arrayBlock d.data n esz :: (arrayBlock d.rangeIndices n isz :: (bitsetBlocks n d.locks.bits ++
        (bitsetBlocks n d.occupied ++ (atomicBlocks d.size ++ (atomicBlocks d.begin_ ++ (atomicBlocks d.end_ ++ l))))))) :=
      hp.trans (by
        simp only [blocks, zeroBlocks, rawBlocks, List.perm_iff_count, List.count_append, List.count_cons, List.count_nil]
        intro b; omega)
    obtain ⟨s1, e1, g1, p1⟩ := shrink_array h hs _ _ _ hp'
    obtain ⟨s2, e2, g2, p2⟩ := shrink_array g1.inv g1.sinv _ _ _ p1
    obtain ⟨s3, e3, g3, p3⟩ := shrink_mutex g2.inv g2.sinv _ _ p2
    obtain ⟨s4, e4, g4, p4⟩ := shrink_bitset g3.inv g3.sinv _ _ p3
    obtain ⟨s5, e5, g5, p5⟩ := shrink_atomic g4.inv g4.sinv _ p4
    obtain ⟨s6, e6, g6, p6⟩ := shrink_atomic g5.inv g5.sinv _ p5
    obtain ⟨s7, e7, g7, p7⟩ := shrink_atomic g6.inv g6.sinv _ p6
    have g := (((((g1.trans g2).trans g3).trans g4).trans g5).trans g6).trans g7
    refine ⟨s7, ?_, g.inv, g.sinv, g.failed, g.mem, p7⟩
    simp only [destroy, destroyDeque, e1, bind, Except.bind, e2, e3, e4, e5, e6, e7]
    rfl
  · rename_i bc ec esz u
    have hp' : s.heap.Perm (arrayBlock u.values (bc + ec) esz :: (arrayBlock u.offsets (bc + ec) isz ::
        (arrayBlock u.rangeIndices (bc + ec) isz :: (bitsetBlocks (bc + ec) u.occupied ++ (atomicBlocks u.count ++
        (bitsetBlocks (bc + ec) u.locks.bits ++ (arrayBlock u.excess.data ec isz :: (bitsetBlocks ec u.excess.locks.bits ++
        (bitsetBlocks ec u.excess.occupied ++ (atomicBlocks u.excess.size ++ (atomicBlocks u.rangeEnd ++ l)))))))))))  :=
      hp.trans (by
        simp only [blocks, zeroBlocks, rawBlocks, List.perm_iff_count, List.count_append, List.count_cons, List.count_nil]
        intro b; omega)
    obtain ⟨s1, e1, g1, p1⟩ := shrink_array h hs _ _ _ hp'
    obtain ⟨s2, e2, g2, p2⟩ := shrink_array g1.inv g1.sinv _ _ _ p1
    obtain ⟨s3, e3, g3, p3⟩ := shrink_array g2.inv g2.sinv _ _ _ p2
    obtain ⟨s4, e4, g4, p4⟩ := shrink_bitset g3.inv g3.sinv _ _ p3
    obtain ⟨s5, e5, g5, p5⟩ := shrink_atomic g4.inv g4.sinv _ p4
    obtain ⟨s6, e6, g6, p6⟩ := shrink_mutex g5.inv g5.sinv _ _ p5
    obtain ⟨s7, e7, i7, si7, f7, m7, p7⟩ := shrink_vector g6.inv g6.sinv _ _ _ p6
    obtain ⟨s8, e8, g8, p8⟩ := shrink_atomic i7 si7 _ p7
    have g := ((((g1.trans g2).trans g3).trans g4).trans g5).trans g6
    refine ⟨s8, ?_, g8.inv, g8.sinv, g8.failed.trans (f7.trans g.failed), g8.mem.trans (m7.trans g.mem), p8⟩
    simp only [destroy, destroyUnordered, e1, bind, Except.bind, e2, e3, e4, e5, e6, e7, e8]
    rfl

/-- Destroying an object other than an unordered container again has no effect. -/
theorem destroy_again {s : Sys} (h : Inv s) (hs : SInv s) (k : Kind) (o : Obj) (hk : Fits k o) (hu : Kind.isUnordered k = false) :
    destroy s (destroyed o) = .ok (destroyed o, s) := by
  have hn := free_null h hs
  cases k <;> cases o <;> first | exact hk.elim | skip
  all_goals first
    | simp [Kind.isUnordered] at hu; done
    | (simp only [destroyed, nullVector, nullDeque, destroy, destroyAtomic, destroyBitset, destroyMutex, destroyVector, destroyDeque,
        hn, bind, Except.bind, pure, Except.pure])

end Stdgpu.Objects
