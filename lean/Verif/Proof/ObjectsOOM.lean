import Verif.Proof.Objects2
/-! Lemmas for C86: creation and destruction when allocations may fail. The structure is that of Proof/Objects.lean and
Proof/Objects2.lean; blocks that could not be obtained are left out. -/
namespace Stdgpu.Objects.Oom
open Stdgpu.Memory Stdgpu.Spec
open Stdgpu.Vector (Fault)

theorem obtained_append (l l' : List Block) : obtained (l ++ l') = obtained l ++ obtained l' := List.filter_append ..

theorem mem_obtained {l : List Block} {b : Block} : b ∈ obtained l ↔ b ∈ l ∧ b.addr ≠ 0 := by simp [obtained]

theorem obtained_le (l : List Block) : (obtained l).length ≤ l.length := List.length_filter_le ..

/-- From `s` to `s'` the blocks `zs` (zeroed) and `ws` were requested, and those with a pointer other than null obtained. -/
structure Grow (s s' : Sys) (zs ws : List Block) : Prop where
  inv : Inv s'
  sinv : SInv s'
  failed : ∀ ty, s'.failed ty = s.failed ty + if ty = .device then (zs ++ ws).length - (obtained (zs ++ ws)).length else 0
  heap : s'.heap.Perm (obtained (zs ++ ws) ++ s.heap)
  mem : ∀ b ∈ s.heap, ∀ a, InBlk b a → s'.mem a = s.mem a
  zero : ∀ b ∈ obtained zs, ∀ a, InBlk b a → s'.mem a = 0

theorem Grow.trans {s s1 s2 : Sys} {zs ws zs' ws' : List Block} (h : Grow s s1 zs ws) (h' : Grow s1 s2 zs' ws') :
    Grow s s2 (zs ++ zs') (ws ++ ws') := by
  refine ⟨h'.inv, h'.sinv, ?_, ?_, ?_, ?_⟩
  · intro ty
    rw [h'.failed, h.failed]
    have := obtained_le (zs ++ ws)
    have := obtained_le (zs' ++ ws')
    split
    · simp only [obtained_append, List.length_append] at *; omega
    · rfl
  · refine h'.heap.trans ((List.Perm.append_left _ h.heap).trans ?_)
    simp only [obtained_append, List.perm_iff_count, List.count_append]
    intro b; omega
  · intro b hb a ha
    rw [h'.mem b (h.heap.mem_iff.2 (by simp [hb])) a ha, h.mem b hb a ha]
  · intro b hb a ha
    rw [obtained_append] at hb
    rcases List.mem_append.1 hb with hb | hb
    · rw [h'.mem b (h.heap.mem_iff.2 (by simp [obtained_append, hb])) a ha, h.zero b hb a ha]
    · exact h'.zero b hb a ha

theorem obtained_all {l : List Block} (h : ∀ b ∈ l, b.addr ≠ 0) : obtained l = l := by
  unfold obtained; rw [List.filter_eq_self]; intro b hb; simpa using h b hb

/-- Without failures this is `Objects.Grow`. -/
theorem Grow.of {s s' : Sys} {zs ws : List Block} (h : Objects.Grow s s' zs ws) : Grow s s' zs ws := by
  have hn : ∀ b ∈ zs ++ ws, b.addr ≠ 0 := by
    intro b hb
    have := (h.inv.pos b (h.heap.mem_iff.2 (List.mem_append_left _ hb))).1
    omega
  refine ⟨h.inv, h.sinv, ?_, ?_, h.mem, ?_⟩
  · intro ty; rw [obtained_all hn, h.failed]; split <;> omega
  · rw [obtained_all hn]; exact h.heap
  · intro b hb; exact h.zero b (mem_obtained.1 hb).1

theorem safeAllocate_fail {s : Sys} (h : Inv s) (hs : SInv s) {n esz : Nat} (hn : 0 < n) (he : 0 < esz) {addr : Nat}
    (hr : ¬ Room s addr ((n : Int) * esz)) :
    ∃ s', safeAllocate s n esz .device addr = (0, s') ∧ Inv s' ∧ SInv s' ∧ s'.heap = s.heap ∧ s'.mem = s.mem ∧
      ∀ ty, s'.failed ty = s.failed ty + if ty = .device then 1 else 0 := by
  have hpos : 0 < (n : Int) * esz := Int.mul_pos (by omega) (by omega)
  have i1 := inv_safeAllocate h n esz .device addr
  have i2 := sinv_safeAllocate h hs n esz .device addr
  have e : safeAllocate s n esz .device addr = (0, notAllocated s ((n : Int) * esz) .device) := by
    unfold safeAllocate
    rcases allocate_cases s ((n : Int) * esz) .device addr with ⟨e, hc⟩ | ⟨hb, ht, hr', e⟩ | ⟨hb, ht, hr', e⟩
    · rcases hc with hc | hc
      · omega
      · cases hc
    · exact absurd hr' hr
    · rw [e]; simp only [register_null]
  rw [e] at i1 i2
  exact ⟨_, e, i1, i2, rfl, rfl, fun ty => by unfold notAllocated; dsimp only; split <;> rfl⟩

theorem Grow.none {s s' : Sys} {zs ws : List Block} (i1 : Inv s') (i2 : SInv s') (hh : s'.heap = s.heap) (hm : s'.mem = s.mem)
    (hf : ∀ ty, s'.failed ty = s.failed ty + if ty = .device then 1 else 0)
    (hz : obtained (zs ++ ws) = []) (hl : (zs ++ ws).length = 1) : Grow s s' zs ws := by
  refine ⟨i1, i2, fun ty => by rw [hf, hz, hl]; rfl, by rw [hz, hh]; exact List.Perm.refl _, fun b _ a _ => by rw [hm], ?_⟩
  intro b hb
  rw [obtained_append, List.append_eq_nil_iff] at hz
  rw [hz.1] at hb
  simp at hb

theorem alloc_grow {E : Env} (hE : AnyEnv E) {s : Sys} (h : Inv s) (hs : SInv s) (n esz : Nat) (hn : 0 < n) (he : 0 < esz) :
    ∃ p s', alloc E s n esz = (p, s') ∧ Grow s s' [] [arrayBlock p n esz] := by
  by_cases hr : Room s (E.pick s ((n : Int) * esz)) ((n : Int) * esz)
  · obtain ⟨p, s', e, g⟩ := Objects.alloc_room h hs n esz hn he hr
    exact ⟨p, s', e, .of g⟩
  · obtain ⟨s', e, i1, i2, hh, hm, hf⟩ := safeAllocate_fail h hs hn he hr
    exact ⟨0, s', e, .none i1 i2 hh hm hf (by simp [obtained, arrayBlock]) rfl⟩

theorem allocZero_grow {E : Env} (hE : AnyEnv E) {s : Sys} (h : Inv s) (hs : SInv s) (n esz : Nat) (hn : 0 < n)
    (he : 0 < esz) : ∃ p s', allocZero E s n esz = .ok (p, s') ∧ Grow s s' [arrayBlock p n esz] [] := by
  by_cases hr : Room s (E.pick s ((n : Int) * esz)) ((n : Int) * esz)
  · obtain ⟨p, s', e, g⟩ := Objects.allocZero_room hE.ord h hs n esz hn he hr
    exact ⟨p, s', e, .of g⟩
  · obtain ⟨s', e, i1, i2, hh, hm, hf⟩ := safeAllocate_fail h hs hn he hr
    refine ⟨0, s', ?_, .none i1 i2 hh hm hf (by simp [obtained, arrayBlock]) rfl⟩
    unfold allocZero allocateFilled
    rw [e]; rfl

theorem createAtomic_grow {E : Env} (hE : AnyEnv E) {s : Sys} (h : Inv s) (hs : SInv s) :
    ∃ o s', createAtomic E s = .ok (o, s') ∧ Grow s s' (atomicBlocks o) [] := by
  obtain ⟨p, s', e, g⟩ := allocZero_grow hE h hs 1 4 (by omega) (by omega)
  exact ⟨⟨p⟩, s', by unfold createAtomic; rw [e]; rfl, g⟩

theorem createBitset_grow {E : Env} (hE : AnyEnv E) {s : Sys} (h : Inv s) (hs : SInv s) (n : Nat) (hn : 0 < n) :
    ∃ o s', createBitset E s n = .ok (o, s') ∧ Grow s s' (bitsetBlocks n o) [] := by
  obtain ⟨p, s', e, g⟩ := allocZero_grow hE h hs (Bitset.numberBitBlocks 32 n) 4 (by rw [numBlocks]; omega) (by omega)
  refine ⟨⟨p, n⟩, s', by unfold createBitset; rw [e]; rfl, ?_⟩
  have : bitsetBlocks n ⟨p, n⟩ = [arrayBlock p (Bitset.numberBitBlocks 32 n) 4] := by
    simp [bitsetBlocks, arrayBlock, bitBytes, numBlocks]
  rw [this]; exact g

theorem createMutex_grow {E : Env} (hE : AnyEnv E) {s : Sys} (h : Inv s) (hs : SInv s) (n : Nat) (hn : 0 < n) :
    ∃ o s', createMutex E s n = .ok (o, s') ∧ Grow s s' (bitsetBlocks n o.bits) [] := by
  obtain ⟨b, s', e, g⟩ := createBitset_grow hE h hs n hn
  exact ⟨⟨b⟩, s', by unfold createMutex; rw [e]; rfl, g⟩

theorem createVector_grow {E : Env} (hE : AnyEnv E) {s : Sys} (h : Inv s) (hs : SInv s) (n esz : Nat) (hn : 0 < n)
    (he : 0 < esz) : ∃ o s', createVector E s n esz = .ok (o, s') ∧
      Grow s s' (bitsetBlocks n o.locks.bits ++ bitsetBlocks n o.occupied ++ atomicBlocks o.size) [arrayBlock o.data n esz] := by
  obtain ⟨l, s1, e1, g1⟩ := createMutex_grow hE h hs n hn
  obtain ⟨o, s2, e2, g2⟩ := createBitset_grow hE g1.inv g1.sinv n hn
  obtain ⟨z, s3, e3, g3⟩ := createAtomic_grow hE g2.inv g2.sinv
  obtain ⟨d, s4, e4, g4⟩ := alloc_grow hE g3.inv g3.sinv n esz hn he
  refine ⟨⟨l, o, z, d⟩, s4, ?_, ?_⟩
  · unfold createVector
    rw [e1]; simp only [bind, Except.bind]; rw [e2]; simp only; rw [e3]; simp only; rw [e4]; rfl
  · simpa using ((g1.trans g2).trans g3).trans g4

theorem createDeque_grow {E : Env} (hE : AnyEnv E) {s : Sys} (h : Inv s) (hs : SInv s) (n esz : Nat) (hn : 0 < n)
    (he : 0 < esz) : ∃ o s', createDeque E s n esz = .ok (o, s') ∧
      Grow s s' (bitsetBlocks n o.locks.bits ++ bitsetBlocks n o.occupied ++ atomicBlocks o.size ++ atomicBlocks o.begin_ ++
        atomicBlocks o.end_) [arrayBlock o.data n esz, arrayBlock o.rangeIndices n E.isz] := by
  obtain ⟨l, s1, e1, g1⟩ := createMutex_grow hE h hs n hn
  obtain ⟨o, s2, e2, g2⟩ := createBitset_grow hE g1.inv g1.sinv n hn
  obtain ⟨z, s3, e3, g3⟩ := createAtomic_grow hE g2.inv g2.sinv
  obtain ⟨b, s4, e4, g4⟩ := createAtomic_grow hE g3.inv g3.sinv
  obtain ⟨f, s5, e5, g5⟩ := createAtomic_grow hE g4.inv g4.sinv
  obtain ⟨d, s6, e6, g6⟩ := alloc_grow hE g5.inv g5.sinv n esz hn he
  obtain ⟨r, s7, e7, g7⟩ := alloc_grow hE g6.inv g6.sinv n E.isz hn hE.isz
  refine ⟨⟨l, o, z, b, f, d, r⟩, s7, ?_, ?_⟩
  · unfold createDeque
    rw [e1]; simp only [bind, Except.bind]; rw [e2]; simp only; rw [e3]; simp only; rw [e4]; simp only; rw [e5]; simp only
    rw [e6]; simp only; rw [e7]; rfl
  · simpa using (((((g1.trans g2).trans g3).trans g4).trans g5).trans g6).trans g7

theorem Grow.overwrite {s s' : Sys} {zs ws : List Block} (g : Grow s s' zs ws) {p bytes : Nat} (hp : p ≠ 0)
    (hb : (⟨p, bytes, .device⟩ : Block) ∈ ws) (f : Nat → BitVec 8) :
    ∃ s'', Objects.overwrite s' p bytes f = .ok s'' ∧ Grow s s'' zs ws := by
  have hb : (⟨p, bytes, .device⟩ : Block) ∈ obtained ws := mem_obtained.2 ⟨hb, hp⟩
  have hm : (⟨p, bytes, .device⟩ : Block) ∈ s'.heap := g.heap.mem_iff.2 (by simp [obtained_append, hb])
  have hc : covers s'.heap .device p bytes = true := by
    unfold covers
    rw [List.any_eq_true]
    exact ⟨_, hm, by simp⟩
  refine ⟨_, by unfold Objects.overwrite; rw [if_pos hc], ?_⟩
  have hpw := Inv.apart g.inv g.heap
  rw [obtained_append, List.append_assoc, List.pairwise_append] at hpw
  obtain ⟨-, h2, h3⟩ := hpw
  rw [List.pairwise_append] at h2
  obtain ⟨-, -, h4⟩ := h2
  have out : ∀ b : Block, Apart ⟨p, bytes, .device⟩ b → ∀ a, InBlk b a → ¬ (p ≤ a ∧ a < p + bytes) := by
    intro b hap a ha hc
    refine hap.not (a := a) ⟨hc.1, ?_⟩ ha
    show (a : Int) < p + bytes
    exact_mod_cast hc.2
  refine ⟨⟨g.inv.pos, g.inv.disj, g.inv.allocP, g.inv.allocZ, g.inv.cnt⟩, g.sinv, g.failed, g.heap, ?_, ?_⟩
  · intro b hb' a ha
    show (if p ≤ a ∧ a < p + bytes then _ else s'.mem a) = _
    rw [if_neg (out b (h4 _ hb _ hb') a ha)]
    exact g.mem b hb' a ha
  · intro b hb' a ha
    show (if p ≤ a ∧ a < p + bytes then _ else s'.mem a) = _
    rw [if_neg (out b (h3 _ hb' _ (by simp [hb])).symm a ha)]
    exact g.zero b hb' a ha

theorem Grow.overwriteArray {s s' : Sys} {zs ws : List Block} (g : Grow s s' zs ws) {p n esz : Nat} (hn : 0 < n) (he : 0 < esz)
    (hb : (⟨p, (n : Int) * esz, .device⟩ : Block) ∈ ws) (f : Nat → BitVec 8) :
    ∃ s'', Objects.overwriteArray s' p esz f = .ok s'' ∧ Grow s s'' zs ws := by
  by_cases hp : p = 0
  · subst hp
    have hd : sizeBytes s' 0 = 0 := sizeBytes_dead g.sinv (fun ty n hl => by have := (g.inv.pos _ hl).1; simp at this)
    refine ⟨s', ?_, g⟩
    unfold Objects.overwriteArray arraySize
    rw [hd]; simp
  · have hz : arraySize s' p esz = n := sizeOf_live g.inv g.sinv (ty := .device) he
      (g.heap.mem_iff.2 (List.mem_append_left _ (mem_obtained.2 ⟨by simp [hb], hp⟩)))
    have := g.overwrite (p := p) (bytes := n * esz) hp (by exact_mod_cast hb) f
    unfold Objects.overwriteArray
    rw [hz, if_neg (by omega)]
    exact this

theorem Grow.storeAtomic {s s' : Sys} {zs ws : List Block} (g : Grow s s' zs ws) {p : Nat}
    (hb : (⟨p, 4, .device⟩ : Block) ∈ ws) (f : Nat → BitVec 8) :
    ∃ s'', Objects.storeAtomic s' p f = .ok s'' ∧ Grow s s'' zs ws := by
  unfold Objects.storeAtomic
  by_cases hp : p = 0
  · exact ⟨s', by rw [if_pos hp], g⟩
  · rw [if_neg hp]; exact g.overwrite (bytes := 4) hp hb f

theorem Grow.congr {s s' : Sys} {zs ws zs' ws' : List Block} (g : Grow s s' zs ws) (hp : (zs ++ ws).Perm (zs' ++ ws'))
    (hz : ∀ b ∈ zs', b ∈ zs) : Grow s s' zs' ws' := by
  refine ⟨g.inv, g.sinv, ?_, g.heap.trans (List.Perm.append_right _ (hp.filter _)), g.mem, ?_⟩
  · intro ty
    have h1 := (hp.filter (fun b => b.addr != 0)).length_eq
    have h2 := hp.length_eq
    rw [g.failed]
    unfold obtained
    rw [h1, h2]
  · intro b hb
    rw [mem_obtained] at hb
    exact g.zero b (mem_obtained.2 ⟨hz b hb.1, hb.2⟩)

theorem createUnordered_grow {E : Env} (hE : AnyEnv E) {s : Sys} (h : Inv s) (hs : SInv s) (bc ec esz : Nat) (hb : 0 < bc)
    (hc : 0 < ec) (he : 0 < esz) : ∃ o s', createUnordered E s bc ec esz = .ok (o, s') ∧
      Grow s s' (zeroBlocks E.isz (.unordered bc ec esz) (.unordered o)) (rawBlocks E.isz (.unordered bc ec esz) (.unordered o)) := by
  have ht : 0 < bc + ec := by omega
  obtain ⟨o, s1, e1, g1⟩ := createBitset_grow hE h hs (bc + ec) ht
  obtain ⟨c, s2, e2, g2⟩ := createAtomic_grow hE g1.inv g1.sinv
  obtain ⟨x, s3, e3, g3⟩ := createVector_grow hE g2.inv g2.sinv ec E.isz hc hE.isz
  obtain ⟨l, s4, e4, g4⟩ := createMutex_grow hE g3.inv g3.sinv (bc + ec) ht
  obtain ⟨r, s5, e5, g5⟩ := createAtomic_grow hE g4.inv g4.sinv
  obtain ⟨v, s6, e6, g6⟩ := alloc_grow hE g5.inv g5.sinv (bc + ec) esz ht he
  obtain ⟨f, s7, e7, g7⟩ := allocZero_grow hE g6.inv g6.sinv (bc + ec) E.isz ht hE.isz
  obtain ⟨i, s8, e8, g8⟩ := alloc_grow hE g7.inv g7.sinv (bc + ec) E.isz ht hE.isz
  have g := ((((((g1.trans g2).trans g3).trans g4).trans g5).trans g6).trans g7).trans g8
  -- the excess list's occupied bits and size are overwritten
  have g' : Grow s s8 (zeroBlocks E.isz (.unordered bc ec esz) (.unordered ⟨bc, o, c, x, l, r, v, f, i⟩))
      (rawBlocks E.isz (.unordered bc ec esz) (.unordered ⟨bc, o, c, x, l, r, v, f, i⟩)) := by
    refine g.congr ?_ ?_
    · simp only [zeroBlocks, rawBlocks, List.perm_iff_count, List.count_append, List.count_cons, List.count_nil]
      intro b; omega
    · intro b hb
      simp only [zeroBlocks, List.mem_append] at hb ⊢
      tauto
  obtain ⟨s9, e9, g9⟩ := g'.overwriteArray (p := x.data) (n := ec) (esz := E.isz) hc hE.isz (by simp [rawBlocks, arrayBlock])
    E.iota
  obtain ⟨s10, e10, g10⟩ := g9.overwriteArray (p := x.occupied.bits) (n := Bitset.numberBitBlocks 32 ec) (esz := 4)
    (by rw [numBlocks]; omega) (by omega) (by simp [rawBlocks, bitsetBlocks, bitBytes, numBlocks]) E.iota
  obtain ⟨s11, e11, g11⟩ := g10.storeAtomic (p := x.size.value) (by simp [rawBlocks, atomicBlocks]) E.iota
  refine ⟨⟨bc, o, c, x, l, r, v, f, i⟩, s11, ?_, g11⟩
  unfold createUnordered clearIota
  simp only [e1, bind, Except.bind, e2, e3, e4, e5, e6, e7, e8, e9, e10, e11]
  rfl

theorem create_grow {E : Env} (hE : AnyEnv E) {s : Sys} (h : Inv s) (hs : SInv s) (k : Kind) (hk : PosKind k) :
    ∃ o s', create E s k = .ok (o, s') ∧ Fits k o ∧ Grow s s' (zeroBlocks E.isz k o) (rawBlocks E.isz k o) := by
  cases k with
  | atomic =>
    obtain ⟨o, s', e, g⟩ := createAtomic_grow hE h hs
    exact ⟨.atomic o, s', by simp only [create, e, bind, Except.bind, pure, Except.pure], trivial, g⟩
  | bitset n =>
    obtain ⟨o, s', e, g⟩ := createBitset_grow hE h hs n hk
    exact ⟨.bitset o, s', by simp only [create, e, bind, Except.bind, pure, Except.pure], trivial, g⟩
  | mutexArray n =>
    obtain ⟨o, s', e, g⟩ := createMutex_grow hE h hs n hk
    exact ⟨.mutexArray o, s', by simp only [create, e, bind, Except.bind, pure, Except.pure], trivial, g⟩
  | vector n esz =>
    obtain ⟨o, s', e, g⟩ := createVector_grow hE h hs n esz hk.1 hk.2
    exact ⟨.vector o, s', by simp only [create, e, bind, Except.bind, pure, Except.pure], trivial, g⟩
  | deque n esz =>
    obtain ⟨o, s', e, g⟩ := createDeque_grow hE h hs n esz hk.1 hk.2
    exact ⟨.deque o, s', by simp only [create, e, bind, Except.bind, pure, Except.pure], trivial, g⟩
  | unordered bc ec esz =>
    obtain ⟨o, s', e, g⟩ := createUnordered_grow hE h hs bc ec esz hk.1 hk.2.1 hk.2.2
    exact ⟨.unordered o, s', by simp only [create, e, bind, Except.bind, pure, Except.pure], trivial, g⟩

/-! ### Destruction -/

/-- Free a block, or nothing if it was not obtained. -/
theorem free_block {s : Sys} (h : Inv s) (hs : SInv s) (p : Nat) (n : Int) {l : List Block}
    (hp : s.heap.Perm (obtained [⟨p, n, .device⟩] ++ l)) :
    ∃ s', safeDeallocate s p .device = .ok s' ∧ Inv s' ∧ SInv s' ∧ (s'.mem, s'.failed) = (s.mem, s.failed) ∧ s'.heap.Perm l := by
  by_cases h0 : p = 0
  · subst h0
    exact ⟨s, free_null h hs, h, hs, rfl, by simpa [obtained] using hp⟩
  · have ho : obtained [⟨p, n, .device⟩] = [⟨p, n, .device⟩] := by simp [obtained, h0]
    rw [ho] at hp
    obtain ⟨s', e, g⟩ := free_one h hs (p := p) (n := n) (hp.mem_iff.2 (by simp))
    exact ⟨s', e, g.inv, g.sinv, by rw [g.mem, g.failed], g.sub (b := ⟨0, 0, .device⟩) hp⟩

theorem free_atomic {s : Sys} (h : Inv s) (hs : SInv s) (o : AtomicObj) {l : List Block}
    (hp : s.heap.Perm (obtained (atomicBlocks o) ++ l)) :
    ∃ s', destroyAtomic s o = .ok (⟨0⟩, s') ∧ Inv s' ∧ SInv s' ∧ (s'.mem, s'.failed) = (s.mem, s.failed) ∧ s'.heap.Perm l := by
  obtain ⟨s', e, g⟩ := free_block h hs o.value 4 hp
  exact ⟨s', by unfold destroyAtomic; rw [e]; rfl, g⟩

theorem free_bitset {s : Sys} (h : Inv s) (hs : SInv s) (n : Nat) (o : BitsetObj) {l : List Block}
    (hp : s.heap.Perm (obtained (bitsetBlocks n o) ++ l)) :
    ∃ s', destroyBitset s o = .ok (⟨0, 0⟩, s') ∧ Inv s' ∧ SInv s' ∧ (s'.mem, s'.failed) = (s.mem, s.failed) ∧ s'.heap.Perm l := by
  obtain ⟨s', e, g⟩ := free_block h hs o.bits (bitBytes n) hp
  exact ⟨s', by unfold destroyBitset; rw [e]; rfl, g⟩

theorem free_mutex {s : Sys} (h : Inv s) (hs : SInv s) (n : Nat) (o : MutexObj) {l : List Block}
    (hp : s.heap.Perm (obtained (bitsetBlocks n o.bits) ++ l)) :
    ∃ s', destroyMutex s o = .ok (⟨⟨0, 0⟩⟩, s') ∧ Inv s' ∧ SInv s' ∧ (s'.mem, s'.failed) = (s.mem, s.failed) ∧ s'.heap.Perm l := by
  obtain ⟨s', e, g⟩ := free_bitset h hs n o.bits hp
  exact ⟨s', by unfold destroyMutex; rw [e]; rfl, g⟩

theorem free_array {s : Sys} (h : Inv s) (hs : SInv s) (p n esz : Nat) {l : List Block}
    (hp : s.heap.Perm (obtained [arrayBlock p n esz] ++ l)) :
    ∃ s', safeDeallocate s p .device = .ok s' ∧ Inv s' ∧ SInv s' ∧ (s'.mem, s'.failed) = (s.mem, s.failed) ∧ s'.heap.Perm l :=
  free_block h hs p _ hp

theorem free_vector {s : Sys} (h : Inv s) (hs : SInv s) (n esz : Nat) (o : VectorObj) {l : List Block}
    (hp : s.heap.Perm (obtained [arrayBlock o.data n esz] ++ (obtained (bitsetBlocks n o.locks.bits) ++
      (obtained (bitsetBlocks n o.occupied) ++ (obtained (atomicBlocks o.size) ++ l))))) :
    ∃ s', destroyVector s o = .ok (nullVector, s') ∧ Inv s' ∧ SInv s' ∧ (s'.mem, s'.failed) = (s.mem, s.failed) ∧ s'.heap.Perm l := by
  obtain ⟨s1, e1, i1, j1, m1, p1⟩ := free_array h hs _ _ _ hp
  obtain ⟨s2, e2, i2, j2, m2, p2⟩ := free_mutex i1 j1 _ _ p1
  obtain ⟨s3, e3, i3, j3, m3, p3⟩ := free_bitset i2 j2 _ _ p2
  obtain ⟨s4, e4, i4, j4, m4, p4⟩ := free_atomic i3 j3 _ p3
  refine ⟨s4, ?_, i4, j4, by rw [m4, m3, m2, m1], p4⟩
  unfold destroyVector
  simp only [e1, bind, Except.bind, e2, e3, e4]
  rfl

/-- Destruction of an object that owns its blocks, as far as they were obtained. -/
theorem destroy_owned {s : Sys} (h : Inv s) (hs : SInv s) (isz : Nat) (k : Kind) (o : Obj) (hk : Fits k o) {l : List Block}
    (hp : s.heap.Perm (obtained (blocks isz k o) ++ l)) :
    ∃ s', destroy s o = .ok (destroyed o, s') ∧ Inv s' ∧ SInv s' ∧ (s'.mem, s'.failed) = (s.mem, s.failed) ∧ s'.heap.Perm l := by
  cases k <;> cases o <;> try exact hk.elim
  · rename_i o
    obtain ⟨s', e, g⟩ := free_atomic h hs o (l := l) (by simpa [blocks, zeroBlocks, rawBlocks] using hp)
    exact ⟨s', by simp only [destroy, e, bind, Except.bind, pure, Except.pure, destroyed], g⟩
  · rename_i n o
    obtain ⟨s', e, g⟩ := free_bitset h hs n o (l := l) (by simpa [blocks, zeroBlocks, rawBlocks] using hp)
    exact ⟨s', by simp only [destroy, e, bind, Except.bind, pure, Except.pure, destroyed], g⟩
  · rename_i n o
    obtain ⟨s', e, g⟩ := free_mutex h hs n o (l := l) (by simpa [blocks, zeroBlocks, rawBlocks] using hp)
    exact ⟨s', by simp only [destroy, e, bind, Except.bind, pure, Except.pure, destroyed], g⟩
  · rename_i n esz o
    obtain ⟨s', e, g⟩ := free_vector h hs n esz o (l := l) (hp.trans (by
      simp only [blocks, zeroBlocks, rawBlocks, obtained_append, List.perm_iff_count, List.count_append]
      intro b; omega))
    exact ⟨s', by simp only [destroy, e, bind, Except.bind, pure, Except.pure, destroyed], g⟩
  · rename_i n esz d
    have hp' : s.heap.Perm (obtained [arrayBlock d.data n esz] ++ (obtained [arrayBlock d.rangeIndices n isz] ++
        (obtained (bitsetBlocks n d.locks.bits) ++ (obtained (bitsetBlocks n d.occupied) ++ (obtained (atomicBlocks d.size) ++
        (obtained (atomicBlocks d.begin_) ++ (obtained (atomicBlocks d.end_) ++ l))))))) :=
      hp.trans (by
        simp only [blocks, zeroBlocks, rawBlocks]
        rw [show [arrayBlock d.data n esz, arrayBlock d.rangeIndices n isz] =
          [arrayBlock d.data n esz] ++ [arrayBlock d.rangeIndices n isz] from rfl]
        simp only [obtained_append, List.perm_iff_count, List.count_append]
        intro b; omega)
    obtain ⟨s1, e1, i1, j1, m1, p1⟩ := free_array h hs _ _ _ hp'
    obtain ⟨s2, e2, i2, j2, m2, p2⟩ := free_array i1 j1 _ _ _ p1
    obtain ⟨s3, e3, i3, j3, m3, p3⟩ := free_mutex i2 j2 _ _ p2
    obtain ⟨s4, e4, i4, j4, m4, p4⟩ := free_bitset i3 j3 _ _ p3
    obtain ⟨s5, e5, i5, j5, m5, p5⟩ := free_atomic i4 j4 _ p4
    obtain ⟨s6, e6, i6, j6, m6, p6⟩ := free_atomic i5 j5 _ p5
    obtain ⟨s7, e7, i7, j7, m7, p7⟩ := free_atomic i6 j6 _ p6
    refine ⟨s7, ?_, i7, j7, by rw [m7, m6, m5, m4, m3, m2, m1], p7⟩
    simp only [destroy, destroyDeque, e1, bind, Except.bind, e2, e3, e4, e5, e6, e7]
    rfl
  · rename_i bc ec esz u
    have hp' : s.heap.Perm (obtained [arrayBlock u.values (bc + ec) esz] ++ (obtained [arrayBlock u.offsets (bc + ec) isz] ++
        (obtained [arrayBlock u.rangeIndices (bc + ec) isz] ++ (obtained (bitsetBlocks (bc + ec) u.occupied) ++
        (obtained (atomicBlocks u.count) ++ (obtained (bitsetBlocks (bc + ec) u.locks.bits) ++
        (obtained [arrayBlock u.excess.data ec isz] ++ (obtained (bitsetBlocks ec u.excess.locks.bits) ++
        (obtained (bitsetBlocks ec u.excess.occupied) ++ (obtained (atomicBlocks u.excess.size) ++
        (obtained (atomicBlocks u.rangeEnd) ++ l)))))))))))  :=
      hp.trans (by
        simp only [blocks, zeroBlocks, rawBlocks]
        rw [show [arrayBlock u.excess.data ec isz, arrayBlock u.values (bc + ec) esz, arrayBlock u.rangeIndices (bc + ec) isz] =
          [arrayBlock u.excess.data ec isz] ++ [arrayBlock u.values (bc + ec) esz] ++ [arrayBlock u.rangeIndices (bc + ec) isz]
          from rfl]
        simp only [obtained_append, List.perm_iff_count, List.count_append]
        intro b; omega)
    obtain ⟨s1, e1, i1, j1, m1, p1⟩ := free_array h hs _ _ _ hp'
    obtain ⟨s2, e2, i2, j2, m2, p2⟩ := free_array i1 j1 _ _ _ p1
    obtain ⟨s3, e3, i3, j3, m3, p3⟩ := free_array i2 j2 _ _ _ p2
    obtain ⟨s4, e4, i4, j4, m4, p4⟩ := free_bitset i3 j3 _ _ p3
    obtain ⟨s5, e5, i5, j5, m5, p5⟩ := free_atomic i4 j4 _ p4
    obtain ⟨s6, e6, i6, j6, m6, p6⟩ := free_mutex i5 j5 _ _ p5
    obtain ⟨s7, e7, i7, j7, m7, p7⟩ := free_vector i6 j6 _ _ _ p6
    obtain ⟨s8, e8, i8, j8, m8, p8⟩ := free_atomic i7 j7 _ p7
    refine ⟨s8, ?_, i8, j8, by rw [m8, m7, m6, m5, m4, m3, m2, m1], p8⟩
    simp only [destroy, destroyUnordered, e1, bind, Except.bind, e2, e3, e4, e5, e6, e7, e8]
    rfl

/-! ### Histories -/

/-- The invariant of a program started in `s0`. -/
structure OInv (E : Env) (s0 : Sys) (l : List (Kind × Bool)) (st : List Obj × Sys) : Prop where
  inv : Inv st.2
  sinv : SInv st.2
  len : l.length = st.1.length
  fits : ∀ (i : Nat) (e : Kind × Bool) (o : Obj), l[i]? = some e → st.1[i]? = some o → Fits e.1 o ∧ (e.2 = false → ∃ o', Fits e.1 o' ∧ o = destroyed o')
  heap : st.2.heap.Perm (obtained (ownedBlocks E.isz l st.1) ++ s0.heap)
  mem : ∀ b ∈ s0.heap, ∀ a, InBlk b a → st.2.mem a = s0.mem a

variable {E : Env} {s0 : Sys} {l : List (Kind × Bool)} {st : List Obj × Sys}

/-- One call, with what it does to the memory. -/
theorem OInv.step (hE : AnyEnv E) (h : OInv E s0 l st) (op : Op) (hk : ∀ k, op = .create k → PosKind k)
    (hd : ∀ i, op = .destroy i → ∀ e, l[i]? = some e → Kind.isUnordered e.1 = true → e.2 = true) :
    ∃ st', exec E st op = .ok st' ∧ OInv E s0 (trackStep l op) st' ∧
      (∀ i o, op ≠ .destroy i → st.1[i]? = some o → st'.1[i]? = some o) ∧
      ∀ b ∈ st.2.heap, ∀ a, InBlk b a → st'.2.mem a = st.2.mem a := by
  obtain ⟨objs, s⟩ := st
  cases op with
  | create k =>
    obtain ⟨o, s', e, hf, g⟩ := create_grow hE h.inv h.sinv k (hk k rfl)
    refine ⟨(objs ++ [o], s'), by simp only [exec, e, bind, Except.bind]; rfl, ?_, ?_, g.mem⟩
    · refine ⟨g.inv, g.sinv, by simp [trackStep, h.len], ?_, ?_, ?_⟩
      · intro i e o' h1 h2
        simp only [trackStep] at h1
        have hlen : l.length = objs.length := h.len
        by_cases hi : i < l.length
        · rw [List.getElem?_append_left hi] at h1
          rw [List.getElem?_append_left (hlen ▸ hi)] at h2
          exact h.fits i e o' h1 h2
        · rw [List.getElem?_append_right (by omega)] at h1
          rw [List.getElem?_append_right (by omega)] at h2
          rw [hlen] at h1
          cases hx : i - objs.length with
          | zero =>
            rw [hx] at h1 h2
            simp only [List.getElem?_cons_zero, Option.some.injEq] at h1 h2
            subst h1 h2
            exact ⟨hf, by simp⟩
          | succ n => rw [hx] at h1; simp at h1
      · show s'.heap.Perm _
        simp only [trackStep]
        rw [owned_append _ h.len]
        refine g.heap.trans ((List.Perm.append_left _ h.heap).trans ?_)
        simp only [blocks, obtained_append, List.perm_iff_count, List.count_append]
        intro b; omega
      · intro b hb a ha
        show s'.mem a = _
        rw [g.mem b (h.heap.mem_iff.2 (by simp [hb])) a ha]
        exact h.mem b hb a ha
    · intro i o' _ h2
      simp only at h2 ⊢
      rw [List.getElem?_append_left (List.getElem?_eq_some_iff.1 h2).1]
      exact h2
  | destroy i =>
    cases ho : objs[i]? with
    | none =>
      have hl : l[i]? = none := by
        rw [List.getElem?_eq_none_iff] at ho ⊢
        have : l.length = objs.length := h.len
        omega
      refine ⟨(objs, s), by simp only [exec, ho], ?_, fun _ _ _ h => h, fun _ _ _ _ => rfl⟩
      simp only [trackStep]
      rw [modify_none l i hl]
      exact h
    | some o =>
      have hi := (List.getElem?_eq_some_iff.1 ho).1
      have hll : l.length = objs.length := h.len
      obtain ⟨⟨k, b⟩, hl⟩ : ∃ e, l[i]? = some e := ⟨l[i]'(by omega), List.getElem?_eq_getElem (by omega)⟩
      obtain ⟨f1, f2⟩ := h.fits i (k, b) o hl ho
      cases b with
      | true =>
        have hp := owned_remove E.isz l objs i k o (destroyed o) hl ho
        have hp' : s.heap.Perm (obtained (blocks E.isz k o) ++ (obtained (ownedBlocks E.isz
            (l.modify i (fun e => (e.1, false))) (objs.set i (destroyed o))) ++ s0.heap)) := by
          rw [← List.append_assoc, ← obtained_append]
          exact h.heap.trans (List.Perm.append_right _ (hp.filter _))
        obtain ⟨s', e, i1, i2, i4, i5⟩ := destroy_owned h.inv h.sinv E.isz k o f1 hp'
        replace i4 := (Prod.mk.inj i4).1
        refine ⟨(objs.set i (destroyed o), s'), by simp only [exec, ho, e, bind, Except.bind]; rfl, ?_, ?_, ?_⟩
        · refine ⟨i1, i2, by simp [trackStep, hll], ?_, i5, ?_⟩
          · intro j e' o' h1 h2
            simp only [trackStep, List.getElem?_modify] at h1
            simp only [List.getElem?_set] at h2
            by_cases hj : i = j
            · subst hj
              rw [hl] at h1
              simp at h1
              simp [hi] at h2
              subst h1 h2
              exact ⟨fits_destroyed f1, fun _ => ⟨o, f1, rfl⟩⟩
            · simp [hj] at h1 h2
              exact h.fits j e' o' h1 h2
          · intro b hb a ha
            show s'.mem a = _
            rw [i4]; exact h.mem b hb a ha
        · intro j o' hne h2
          have : i ≠ j := by rintro rfl; exact hne rfl
          simpa [List.getElem?_set, this] using h2
        · intro b _ a _; show s'.mem a = _; rw [i4]
      | false =>
        have hu : Kind.isUnordered k = false := by
          by_contra hc
          have := hd i rfl (k, false) hl (by simpa using hc)
          simp at this
        obtain ⟨o', f3, rfl⟩ := f2 rfl
        have e := destroy_again h.inv h.sinv k o' f3 hu
        have hset : objs.set i (destroyed o') = objs := by
          apply List.ext_getElem?
          intro j
          rw [List.getElem?_set]
          by_cases hj : i = j
          · subst hj; simp [hi, ← ho]
          · simp [hj]
        refine ⟨(objs, s), by simp only [exec, ho, e, bind, Except.bind, hset]; rfl, ?_, fun _ _ _ h => h, fun _ _ _ _ => rfl⟩
        simp only [trackStep]
        rw [modify_same l i k hl]
        exact h

theorem OInv.run (hE : AnyEnv E) : ∀ (ops : List Op) (l : List (Kind × Bool)) (st : List Obj × Sys), OInv E s0 l st →
    ProperFrom l ops → ∃ st', execAll E st ops = .ok st' ∧ OInv E s0 (ops.foldl trackStep l) st' := by
  intro ops
  induction ops with
  | nil => intro l st h _; exact ⟨st, rfl, h⟩
  | cons op ops ih =>
    intro l st h hp
    have hp' : ProperFrom l ([op] ++ ops) := hp
    obtain ⟨st1, e1, h1, -⟩ := h.step hE op (fun k hk => hp.1 k (by simp [hk])) (fun i hi e he hu =>
      hp.2 [] i ops (by simp [hi]) e he hu)
    obtain ⟨st2, e2, h2⟩ := ih _ st1 h1 hp'.append.2
    refine ⟨st2, ?_, h2⟩
    unfold execAll at e2 ⊢
    rw [List.foldlM_cons, e1]
    exact e2

theorem OInv.init (h : Inv s0) (hs : SInv s0) : OInv E s0 [] ([], s0) :=
  ⟨h, hs, rfl, by intro i e o h; simp at h, List.Perm.refl _, fun _ _ _ _ => rfl⟩

/-- An object that is not destroyed keeps its handle and, as long as it is not used, the bytes of its blocks. -/
theorem OInv.untouched (hE : AnyEnv E) : ∀ (ops : List Op) (l : List (Kind × Bool)) (st : List Obj × Sys), OInv E s0 l st →
    ProperFrom l ops → ∀ i k o, l[i]? = some (k, true) → st.1[i]? = some o → Op.destroy i ∉ ops →
    ∃ st', execAll E st ops = .ok st' ∧ st'.1[i]? = some o ∧ (ops.foldl trackStep l)[i]? = some (k, true) ∧
      ∀ b ∈ obtained (blocks E.isz k o), ∀ a, InBlk b a → st'.2.mem a = st.2.mem a := by
  intro ops
  induction ops with
  | nil => intro l st h _ i k o h1 h2 _; exact ⟨st, rfl, h2, h1, fun _ _ _ _ => rfl⟩
  | cons op ops ih =>
    intro l st h hp i k o h1 h2 hn
    have hp' : ProperFrom l ([op] ++ ops) := hp
    obtain ⟨st1, e1, g1, g2, g3⟩ := h.step hE op (fun k hk => hp.1 k (by simp [hk])) (fun i hi e he hu =>
      hp.2 [] i ops (by simp [hi]) e he hu)
    have hl1 : (trackStep l op)[i]? = some (k, true) := by
      cases op with
      | create k' =>
        simp only [trackStep]
        rw [List.getElem?_append_left (List.getElem?_eq_some_iff.1 h1).1]; exact h1
      | destroy j =>
        have : j ≠ i := by rintro rfl; exact hn (by simp)
        simp [trackStep, List.getElem?_modify, this, h1]
    obtain ⟨st2, e2, q1, q2, q3⟩ := ih _ st1 g1 hp'.append.2 i k o hl1 (g2 i o (by rintro rfl; exact hn (by simp)) h2)
      (fun hc => hn (by simp [hc]))
    refine ⟨st2, ?_, q1, q2, ?_⟩
    · unfold execAll at e2 ⊢
      rw [List.foldlM_cons, e1]
      exact e2
    · intro b hb a ha
      rw [q3 b hb a ha]
      refine g3 b (h.heap.mem_iff.2 ?_) a ha
      rw [mem_obtained] at hb
      exact List.mem_append_left _ (mem_obtained.2 ⟨owned_mem E.isz l st.1 i k o h1 h2 b hb.1, hb.2⟩)

end Stdgpu.Objects.Oom
